import Verif.Model.Dyn
import Mathlib.Data.Set.Function
import Mathlib.Algebra.BigOperators.Group.Finset.Basic

/-! Specification for mini-batches. -/

namespace Verif

variable {K V : Type}

/-- `Generator.permuted` returns, for each run, a permutation of `0..N-1`: values in range, no value twice. -/
structure PermBij (env : Env K V) : Prop where
  lt : ∀ N c m j, j < N → env.perm N c m j < N
  inj : ∀ N c m i j, i < N → j < N → env.perm N c m i = env.perm N c m j → i = j

/-- Number of times particle `n` is used in the first `k` batches of size `b`, if `B i j` is the particle in slot `j`
of batch number `i`. -/
def usage (B : ℕ → ℕ → ℕ) (b k n : ℕ) : ℕ :=
  ∑ i ∈ Finset.range k, ((Finset.range b).filter fun j => B i j = n).card

/-- Number of `step` operations in a sequence of operations. -/
def nSteps (ops : List Op) : ℕ := ops.count Op.step

end Verif
