import Verif.Model.Dyn

/-! Specification for C122. -/

namespace Verif

variable {K V : Type} [LinearOrder K]

/-- The recorded energies of run `m` (`energy[m]`, cbx/dynamics/pdyn.py:156, 968) and their minimum (`f_min[m]`, lines 217, 522) are not below the tolerance. -/
structure Above (tol : Flt K) (m : ℕ) (s : St K V) : Prop where
  energy : ∀ n < s.N, Flt.lt (s.energy.get m n) tol = false
  fMin : Flt.lt (s.fMin m) tol = false

end Verif
