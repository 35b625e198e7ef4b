import Verif.Model.Resampling

/-! Criteria objects that were used before (C96): the state of a criterion after a number of calls on a new dynamic. -/

namespace Verif

variable {K V : Type} [Zero K] [One K] [Neg K] [Add K] [Sub K] [Mul K] [Inv K] [Div K] [NatCast K] [Pow K ℕ] [LinearOrder K] [Add V] [Sub V] [SMul K V]

/-- State of a `loss_update_resampling` object in state `q` after calls on the states `st 0, ..., st (t-1)` of a dynamic. -/
def lossFrom (thresh : ℕ) (q : Option (LossSt K)) (st : ℕ → St K V) : ℕ → Option (LossSt K)
  | 0 => q
  | t + 1 => some (lossUpdate thresh (lossFrom thresh q st t) (st t)).2

/-- The runs it selects at call `t`. -/
def lossSel (thresh : ℕ) (q : Option (LossSt K)) (st : ℕ → St K V) (t : ℕ) : List ℕ := (lossUpdate thresh (lossFrom thresh q st t) (st t)).1

/-- State of a `consensus_stagnation` object in state `q` after calls on the states `st 0, ..., st (t-1)` of a dynamic. -/
def stagFrom [Zero V] (nd : V → V → Flt K) (patience : ℕ) (thresh : Flt K) (q : StagSt K V) (st : ℕ → St K V) : ℕ → Except Err (StagSt K V)
  | 0 => .ok q
  | t + 1 => do
    let q ← stagFrom nd patience thresh q st t
    let (_, q) ← consensusStagnation nd patience thresh q (st t)
    pure q

/-- The runs it selects at call `t`. -/
def stagSel [Zero V] (nd : V → V → Flt K) (patience : ℕ) (thresh : Flt K) (q : StagSt K V) (st : ℕ → St K V) (t : ℕ) : Except Err (List ℕ) := do
  let q ← stagFrom nd patience thresh q st t
  let (sel, _) ← consensusStagnation nd patience thresh q (st t)
  pure sel

/-- A `consensus_stagnation` object that was used on dynamics with `M` runs. -/
def StagUsed (patience M : ℕ) (q : StagSt K V) : Prop := q.updates.length ≤ patience ∧ ∃ o, q.old = some o ∧ o.rows = M ∧ o.cols = 1

end Verif
