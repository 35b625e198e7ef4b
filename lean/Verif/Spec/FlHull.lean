import Verif.Model.FlConsensus
import Verif.Spec.Post

/-! Specification for the noise-free `CBO` in floating point arithmetic. -/

namespace Verif

variable {φ : FloatFmt} {ι : Type}

/-- The coordinates of `v` lie in the intervals `[lo i - δ, hi i + δ]`. -/
def FlBox (lo hi : ι → ℝ) (δ : ℝ) (v : ι → Fl φ) : Prop := ∀ i, lo i - δ ≤ (v i).val ∧ (v i).val ≤ hi i + δ

/-- For at most `n` particles with the weight `alpha` and energies as described by `E`, the rule gives a point in the intervals of the coordinates, up to the relative error `γ`. -/
def HullRule (g : List (Fl φ × Flt (Fl φ) × (ι → Fl φ)) → ι → Fl φ) (n : ℕ) (E : Fl φ → Flt (Fl φ) → Prop) (γ : ℝ) : Prop :=
  ∀ (alpha : Fl φ) l, l ≠ [] → l.length ≤ n → (∀ q ∈ l, q.1 = alpha ∧ E alpha q.2.1) → ∀ (i : ι) (lo hi B : ℝ), |lo| ≤ B → |hi| ≤ B →
    (∀ q ∈ l, lo ≤ (q.2.2 i).val ∧ (q.2.2 i).val ≤ hi) → lo - γ * B ≤ (g l i).val ∧ (g l i).val ≤ hi + γ * B

/-- The noise is switched off and the drift step does not overshoot. -/
def FlNoiseFree (sigma lamda dt : Fl φ) : Prop := sigma = 0 ∧ 0 ≤ lamda.val * dt.val ∧ lamda.val * dt.val ≤ 1

/-- Finite energies with bounded weights. -/
def BoundedWeight (W : ℝ) (alpha : Fl φ) (e : Flt (Fl φ)) : Prop := ∃ x : Fl φ, e = .fin x ∧ |alpha.val * x.val| ≤ W

/-- Finite energies, non-negative `alpha`. -/
def FiniteEnergy (alpha : Fl φ) (e : Flt (Fl φ)) : Prop := 0 ≤ alpha.val ∧ ∃ x : Fl φ, e = .fin x

end Verif
