import Verif.Model.Noise
import Verif.Spec.Normal
import Mathlib.MeasureTheory.Integral.Lebesgue.Basic

/-! Specification for C76: steps with independent standard normal numbers, and the spread of an ensemble. -/

namespace Verif

open MeasureTheory
open scoped ENNReal

variable {ι : Type} [Fintype ι]

/-- Sum of the squared distances between all pairs of the first `N` particles of run `m`. -/
def spread (x : Mat (ι → ℝ)) (N m : ℕ) : ℝ := ∑ n ∈ Finset.range N, ∑ k ∈ Finset.range N, ∑ l, (x.get m n l - x.get m k l) ^ 2

/-- Sum of the squared distances of the first `N` particles of run `m` to a point. -/
def distTo (x : Mat (ι → ℝ)) (N m : ℕ) (c : ι → ℝ) : ℝ := ∑ n ∈ Finset.range N, ∑ l, (x.get m n l - c l) ^ 2

/-- The array of random numbers drawn in one step (`noise.py:62,117,170`), with `M` runs of `N` particles. -/
def drawn (M N : ℕ) (z : Fin M × Fin N × ι → ℝ) (i j : ℕ) : ι → ℝ := fun l => if h : i < M ∧ j < N then z (⟨i, h.1⟩, ⟨j, h.2⟩, l) else 0

/-- The surroundings in which the next step draws the array `z`. -/
noncomputable def withSample (env : Env ℝ (ι → ℝ)) (rule : (ι → ℝ) → (ι → ℝ) → ι → ℝ) (M N : ℕ) (z : Fin M × Fin N × ι → ℝ) : Env ℝ (ι → ℝ) :=
  { env with noise := rowNoise rule fun _ => drawn M N z }

/-- The expected value of `F` after `k` steps from `s`, where every step draws new independent standard normal numbers. A step that raises counts as infinity. -/
noncomputable def expect (env : Env ℝ (ι → ℝ)) (rule : (ι → ℝ) → (ι → ℝ) → ι → ℝ) : ℕ → (St ℝ (ι → ℝ) → ℝ≥0∞) → St ℝ (ι → ℝ) → ℝ≥0∞
  | 0, F, s => F s
  | k + 1, F, s => ∫⁻ z, (match step (withSample env rule s.M s.N z) (cboInner (withSample env rule s.M s.N z)) s with
      | .ok s' => expect env rule k F s'
      | .error _ => ⊤) ∂stdNormal (Fin s.M × Fin s.N × ι)

/-- The probability that the spread of run `m` is at least `ε` after `k` steps. -/
noncomputable def probSpread (env : Env ℝ (ι → ℝ)) (rule : (ι → ℝ) → (ι → ℝ) → ι → ℝ) (k m : ℕ) (ε : ℝ) (s : St ℝ (ι → ℝ)) : ℝ≥0∞ :=
  expect env rule k (fun q => if ε ≤ spread q.x q.N m then 1 else 0) s

/-- Post processing that moves no two coordinates further apart (clipping, or nothing at all). -/
def Shrinks (p : (ι → ℝ) → ι → ℝ) : Prop := ∀ u v l, (p u l - p v l) ^ 2 ≤ (u l - v l) ^ 2

end Verif
