import Mathlib.Data.Real.Basic

/-! Specification for C116: change of the units, the order and the origins of the variables. -/

namespace Verif

/-- Coordinate `l` of the new vector is `a l` times coordinate `π l` of the old one plus `b l`. -/
def unitsMap {ι : Type} (a : ι → ℝ) (π : ι → ι) (b v : ι → ℝ) : ι → ℝ := fun l => a l * v (π l) + b l

end Verif
