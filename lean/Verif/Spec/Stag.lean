import Verif.Model.Dyn

/-! Specification of the stagnation criterion in terms of a trajectory of `optimize`. -/

namespace Verif

variable {K V : Type} [Zero K] [One K] [Neg K] [Add K] [Sub K] [Mul K] [Inv K] [Div K] [NatCast K] [Pow K ℕ] [LinearOrder K] [Add V] [Sub V] [SMul K V]

/-- `tr 0, ..., tr k` are the states in which `optimize` evaluates its loop condition: between `tr j` and `tr (j+1)` lie
a termination check, a step and a scheduler update. -/
def Trajectory (env : Env K V) (inner : St K V → Except Err (St K V)) (k : ℕ) (tr : ℕ → St K V) : Prop :=
  ∀ j < k, ∃ q u, selectActive env (tr j) = .ok q ∧ step env inner q = .ok u ∧ schedUpdate env u = .ok (tr (j + 1))

/-- The objective value of the consensus point of run 0. -/
def consEnergy (env : Env K V) (s : St K V) : Flt K :=
  match s.cons with
  | some c => env.f (c.get 0 0)
  | none => .pinf

/-- Criterion number `i` was (one of) the reported reason(s) to stop run `m`. -/
def StoppedBy (s : St K V) (m i : ℕ) : Prop := ∃ l, s.reason m = some l ∧ i ∈ l

end Verif
