import Verif.Model.Dyn
import Mathlib.Data.Real.Basic

/-! Specification for C115: the same course of batches and random numbers; rules that pick a best particle. -/

namespace Verif

variable {V : Type}

/-- Two states with the same sizes, running sets, index pools, parameters other than `alpha` and position in the random numbers. -/
structure SameCourse (s t : St ℝ V) : Prop where
  M : s.M = t.M
  N : s.N = t.N
  active : s.active = t.active
  batched : s.batched = t.batched
  batchPartial : s.batchPartial = t.batchPartial
  batchConcat : s.batchConcat = t.batchConcat
  batchSize : s.batchSize = t.batchSize
  indices : s.indices = t.indices
  perms : s.perms = t.perms
  lamda : s.lamda = t.lamda
  dt : s.dt = t.dt
  sigma : s.sigma = t.sigma
  draws : s.draws = t.draws

/-- The rule returns a particle of least energy. -/
def PicksBest (r : List (ℝ × Flt ℝ × V) → V) : Prop :=
  ∀ l, l ≠ [] → (∀ q ∈ l, ∃ e, q.2.1 = .fin e) → ∃ q ∈ l, (∀ q' ∈ l, Flt.lt q'.2.1 q.2.1 = false) ∧ r l = q.2.2

end Verif
