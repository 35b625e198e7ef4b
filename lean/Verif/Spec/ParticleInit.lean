import Mathlib.Algebra.BigOperators.Group.Finset.Basic
import Mathlib.Data.Real.Basic

/-! Vocabulary for initial particles. -/

namespace Verif

/-- The rows `v 0, ..., v (d - 1)` are orthonormal. -/
def RowsOrthonormal (d : ℕ) (v : ℕ → ℕ → ℝ) : Prop := ∀ i < d, ∀ j < d, ∑ c ∈ Finset.range d, v i c * v j c = if i = j then 1 else 0

end Verif
