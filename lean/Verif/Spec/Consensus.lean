import Mathlib.Analysis.SpecialFunctions.Exp
import Mathlib.Algebra.Module.Basic

/-! Specification of the consensus point: the textbook quotient. -/

namespace Verif

/-- `sum_i exp(-a f_i) x_i / sum_i exp(-a f_i)` for a list of pairs `(f_i, x_i)`. -/
noncomputable def gibbs {V : Type} [AddCommGroup V] [Module ℝ V] (a : ℝ) (l : List (ℝ × V)) : V :=
  (l.map fun p => Real.exp (-(a * p.1))).sum⁻¹ • (l.map fun p => Real.exp (-(a * p.1)) • p.2).sum

end Verif
