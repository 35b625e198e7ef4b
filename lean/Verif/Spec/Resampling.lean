import Verif.Np.Flt
import Verif.Np.Mat

/-! Specification of stalled calls for `cbx/utils/resampling.py`. -/

namespace Verif

variable {K V : Type} [Zero K] [One K] [Neg K] [Add K] [Sub K] [Mul K] [Inv K] [Div K] [NatCast K] [Pow K ℕ] [LinearOrder K]

/-- Call `t` improves: the energy `b t` is below infinity and below every earlier energy that is a number. -/
def Improves (b : ℕ → Flt K) (t : ℕ) : Prop := Flt.lt (b t) .pinf = true ∧ ∀ r < t, b r = .nan ∨ Flt.lt (b t) (b r) = true

/-- At call `t` exactly the last `k` calls did not improve. -/
def Stalled (b : ℕ → Flt K) (t k : ℕ) : Prop :=
  k ≤ t + 1 ∧ (∀ r, t + 1 - k ≤ r → r ≤ t → ¬ Improves b r) ∧ (k ≤ t → Improves b (t - k))

/-- The consensus points of run `m` at the recorded calls that resampled it. -/
def pointsOf (hist : List (List ℕ × Mat V)) (m : ℕ) : List V :=
  (hist.filter fun h => decide (m ∈ h.1)).map fun h => h.2.get m 0

/-- `best_consensus`, `best_consensus_energy` are right for the calls so far: infinite energy for runs never resampled, otherwise the least energy
of the consensus points at the calls that resampled the run, together with such a point. -/
def BestConsensus (f : V → Flt K) (M : ℕ) (hist : List (List ℕ × Mat V)) (b : Option (Mat V × Mat (Flt K))) : Prop :=
  match b with
  | none => hist = []
  | some (bc, be) => bc.rows = M ∧ bc.cols = 1 ∧ be.rows = M ∧ be.cols = 1 ∧ ∀ m < M,
      (pointsOf hist m = [] → be.get m 0 = .pinf) ∧ (∀ p ∈ pointsOf hist m, Flt.lt (f p) (be.get m 0) = false) ∧
      (pointsOf hist m ≠ [] → ∃ p ∈ pointsOf hist m, be.get m 0 = f p ∧ bc.get m 0 = p)

end Verif
