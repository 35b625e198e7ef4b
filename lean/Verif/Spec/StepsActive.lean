import Verif.Model.Dyn

/-! Sequences of operations that make no step without an active run (`optimize` makes none, `cbx/dynamics/pdyn.py:345-352`). -/

namespace Verif

variable {K V : Type} [Zero K] [One K] [Neg K] [Add K] [Sub K] [Mul K] [Inv K] [Div K] [NatCast K] [Pow K ℕ] [LinearOrder K] [Add V] [Sub V] [SMul K V]

/-- Whenever a step is made, at least one run is active. -/
def StepsActive (env : Env K V) (inner : St K V → Except Err (St K V)) : List Op → St K V → Prop
  | [], _ => True
  | o :: l, s => (o = .step → s.active ≠ []) ∧ ∀ s', exec env inner o s = .ok s' → StepsActive env inner l s'

end Verif
