import Verif.Model.Polar
import Mathlib.Analysis.SpecialFunctions.Pow.Real

/-! Specification of the kernels and the polarised consensus: documented kernel values and the textbook quotient. -/

namespace Verif

variable {ι : Type} [Fintype ι]

/-- Kernel values as documented in `polarcbo.py:164-168` (`nrm` is `‖x - y‖`; the constant kernel is 1 inside the ball and
vanishes outside; the Taz kernel is not documented). -/
noncomputable def docKernel (k : Kernel) (kappa nrm : ℝ) : Option ℝ :=
  match k with
  | .gaussian => some (Real.exp (-(nrm ^ 2 / (2 * kappa ^ 2))))
  | .laplace => some (Real.exp (-(nrm / kappa)))
  | .constant => some (if nrm ≤ kappa then 1 else 0)
  | .inverseQuadratic => some (1 / (1 + kappa⁻¹ * nrm ^ 2))
  | .taz => none

/-- `sum_j k(x, x_j) exp(-a f_j) x_j / sum_j k(x, x_j) exp(-a f_j)` for a list of pairs `(f_j, x_j)`. -/
noncomputable def polarGibbs {V : Type} [AddCommGroup V] [Module ℝ V] (k : V → V → ℝ) (a : ℝ) (l : List (ℝ × V)) (x : V) : V :=
  (l.map fun p => k x p.2 * Real.exp (-(a * p.1))).sum⁻¹ •
    (l.map fun p => (k x p.2 * Real.exp (-(a * p.1))) • p.2).sum

end Verif
