import Verif.Np.Nd

/-!
# Network parameters as particles: `cbx/utils/torch_utils.py:120-165`

`stack_module_state(models)` returns a dictionary from parameter names to tensors of shape `(N, ...)`; here one tensor per
name and model.
-/

namespace Verif

variable {α : Type}

/-- A stacked parameter `params[p]`: the shape of `params[p][0]` and the entries of `params[p][n]` for each model `n`,
`torch_utils.py:151,157`. -/
structure Stacked (α : Type) where
  shape : List ℕ
  rows : List (List α)

/-- `params`, `torch_utils.py:151,157`, in the order of its keys. -/
abbrev NetParams (α : Type) := List (String × Stacked α)

/-- `params[p]`, `torch_utils.py:153,164`: `KeyError` for an unknown name. -/
def getParam (ps : NetParams α) (p : String) : Except Err (Stacked α) :=
  match ps.lookup p with
  | some s => .ok s
  | none => .error .key

/-- An entry of `pprop`: shape, start and end, `torch_utils.py:164`. -/
structure PProp where
  shape : List ℕ
  start : ℕ
  stop : ℕ
deriving DecidableEq

/-- Assignment to an `OrderedDict`, `torch_utils.py:164`: a known key keeps its place, a new one goes to the end. -/
def odSet {β : Type} (d : List (String × β)) (k : String) (v : β) : List (String × β) :=
  if d.any (fun e => e.1 == k) then d.map fun e => if e.1 == k then (k, v) else e else d ++ [(k, v)]

/-- One iteration of the loop, `torch_utils.py:160-164`. -/
def pstep (ps : NetParams α) (d : List (String × PProp)) (p : String) : Except Err (List (String × PProp)) := do
  let s ← getParam ps p
  let a := match d.getLast? with
    | some e => e.2.stop
    | none => 0
  pure (odSet d p ⟨s.shape, a, a + s.shape.prod⟩)

/-- `get_param_properties(models, pnames)`, `torch_utils.py:155-165`. -/
def paramProps (ps : NetParams α) (pnames : Option (List String)) : Except Err (List (String × PProp)) :=
  (pnames.getD (ps.map (·.1))).foldlM (pstep ps) []

/-- `params[pname].view(N, -1)` for the names in order, `torch_utils.py:153`. -/
def gather (ps : NetParams α) (pnames : List String) : Except Err (List (Stacked α)) := pnames.mapM (getParam ps)

/-- `flatten_parameters(models, pnames)`, `torch_utils.py:149-153`: one vector per model. `list(params.values())[-1]` raises for no
parameters, `torch.concatenate` for no names. -/
def flattenParams (ps : NetParams α) (pnames : List String) : Except Err (List (List α)) := do
  match ps.getLast? with
  | none => .error .index
  | some l =>
    let gs ← gather ps pnames
    if gs = [] then .error .runtime
    else pure ((List.range l.2.rows.length).map fun n => (gs.map fun s => s.rows.getD n []).flatten)

/-- `w[a:b].view(shape)`, `torch_utils.py:122`: `view` raises if the sizes differ. -/
def sliceView (w : List α) (q : PProp) : Except Err (Nd α) :=
  let v := (w.drop q.start).take (q.stop - q.start)
  if v.length = q.shape.prod then .ok ⟨q.shape, v⟩ else .error .runtime

/-- The parameters `eval_model` hands to the network, `torch_utils.py:122`. -/
def unflatten (w : List α) (pp : List (String × PProp)) : Except Err (List (String × Nd α)) :=
  pp.mapM fun e => do
    let v ← sliceView w e.2
    pure (e.1, v)

end Verif
