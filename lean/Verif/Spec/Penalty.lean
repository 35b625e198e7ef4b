import Mathlib.Analysis.SpecialFunctions.Pow.Real

/-! Specification of penalised objectives. -/

namespace Verif

/-- The objective with the penalty `lam * R ^ p`. -/
noncomputable def penal {V : Type} (f R : V → ℝ) (p lam : ℝ) (v : V) : ℝ := f v + lam * R v ^ p

/-- No member of `l` violates the constraint less than `v`. -/
def LeastViolation {V : Type} (R : V → ℝ) (p : ℝ) (l : List V) (v : V) : Prop := ∀ w ∈ l, R v ^ p ≤ R w ^ p

/-- The mean of `g` over `l` with weights proportional to `exp(-a e)`. -/
noncomputable def wmean {V W : Type} [AddCommGroup W] [Module ℝ W] (a : ℝ) (e : V → ℝ) (g : V → W) (l : List V) : W :=
  (l.map fun v => Real.exp (-(a * e v))).sum⁻¹ • (l.map fun v => Real.exp (-(a * e v)) • g v).sum

end Verif
