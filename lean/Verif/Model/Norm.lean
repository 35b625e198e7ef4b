import Verif.Model.Dyn
import Mathlib.Data.Real.Sqrt

/-! The default norm of the change of an ensemble. -/

namespace Verif

variable {ι : Type} [Fintype ι]

/-- `update_diff` of one run with the default norm, `pdyn.py:175,922`: `np.linalg.norm(x - x_old, axis=(-2,-1))/N`, the Frobenius norm of the change of all particles of the run
divided by the number of particles. The list holds the new and the old position of each particle; positions are vectors (one axis). -/
noncomputable def frobenius (l : List ((ι → ℝ) × (ι → ℝ))) : Flt ℝ := .fin (Real.sqrt ((l.map fun q => ∑ i, (q.1 i - q.2 i) ^ 2).sum) / l.length)

end Verif
