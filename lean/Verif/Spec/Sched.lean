import Verif.Model.Dyn
import Mathlib.Analysis.SpecialFunctions.Exp

/-! Specification of the effective sample size, as in the documentation of the scheduler. -/

namespace Verif

/-- `J_eff(alpha) = (sum_i w_i)^2 / sum_i w_i^2` with `w_i = exp(-alpha e_i)`. -/
noncomputable def Jeff (N : ℕ) (e : ℕ → ℝ) (alpha : ℝ) : ℝ :=
  (∑ i ∈ Finset.range N, Real.exp (-(alpha * e i))) ^ 2 / ∑ i ∈ Finset.range N, Real.exp (-(alpha * e i)) ^ 2

end Verif
