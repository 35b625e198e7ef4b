import Verif.Model.Dyn

/-! Specification for C63. -/

namespace Verif

open Classical in
/-- Follow an execution and remember where particle `n` of run `m` was when the objective was evaluated on it last: before a step whose batch (`consensus_idx` afterwards) contains it.
`none` if that never happened. -/
noncomputable def lastEval {K V : Type} [Zero K] [One K] [Neg K] [Add K] [Sub K] [Mul K] [Inv K] [Div K] [NatCast K] [Pow K ℕ] [LinearOrder K] [Add V] [Sub V] [SMul K V] (env : Env K V) (inner : St K V → Except Err (St K V)) (m n : ℕ) :
    List Op → St K V → Option V → Option V
  | [], _, acc => acc
  | o :: l, s, acc =>
    match exec env inner o s with
    | .error _ => acc
    | .ok s' => lastEval env inner m n l s' (if o = .step ∧ s'.cIdx.Sel m n then some (s.x.get m n) else acc)

end Verif
