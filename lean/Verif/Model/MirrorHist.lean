import Verif.Model.Moves

/-! # The tracker of the dual variable of `MirrorCBO`: `cbx/dynamics/mirrorcbo.py:277-283` -/

namespace Verif

section
variable {K V : Type} [Zero K] [One K] [Neg K] [Add K] [Sub K] [Mul K] [Inv K] [Div K] [NatCast K] [Pow K ℕ] [LinearOrder K] [Add V] [Sub V] [SMul K V]

/-- The list `history['y']` (`none`: no such key) after one operation: `track_y.update` appends a copy of `y` (here `aux1`) whenever `track` records (`mirrorcbo.py:281-283`, `pdyn.py:497-510`); `reset` calls
`init_history` without arguments, so the key is gone (`pdyn.py:464-495,931-934`). -/
def recordY (o : Op) (s s' : St K V) (h : Option (List (Mat V))) : Option (List (Mat V)) :=
  match o with
  | .step => if s.it % s.saveInt = 0 then h.map (· ++ [s'.aux1]) else h
  | .reset => none
  | _ => h

/-- A sequence of operations of a dynamic that tracks `y`, `mirrorcbo.py:277-283`, `pdyn.py:294-410,931-934`. -/
def execAllY (env : Env K V) (inner : St K V → Except Err (St K V)) : List Op → St K V × Option (List (Mat V)) → Except Err (St K V × Option (List (Mat V)))
  | [], q => .ok q
  | o :: l, q => do
    let s ← exec env inner o q.1
    execAllY env inner l (s, recordY o q.1 s q.2)

end
end Verif
