import Verif.Model.TorchParams
import Verif.Np.Flt
import Mathlib.Data.Rat.Defs

/-!
# Losses and accuracies of networks given by flattened parameters: `cbx/utils/torch_utils.py:120-147`

A network is an arbitrary function of its parameters (looked up by name) and its input. Not modelled: exceptions raised inside the network
or the loss, buffers (`{}` is passed, so a network uses its own), the rounding of the quotient to a float, and NaN among the outputs.
-/

namespace Verif

variable {α I O T R X L : Type}

/-- A network `model`, `torch_utils.py:121`: its own parameters and what it computes from parameters and input. -/
structure Net (α I O : Type) where
  own : List (String × Nd α)
  fwd : (String → Option (Nd α)) → I → O

/-- `functional_call(model, (params, {}), x)`, `torch_utils.py:123`: the given parameters replace those of the model, the others are kept. -/
def functionalCall (net : Net α I O) (ps : List (String × Nd α)) (x : I) : O :=
  net.fwd (fun p => match ps.lookup p with
    | some v => some v
    | none => net.own.lookup p) x

/-- `eval_model(x, model, w, pprop)`, `torch_utils.py:121-123`. -/
def evalModel (x : I) (net : Net α I O) (w : List α) (pp : List (String × PProp)) : Except Err O := do
  let ps ← unflatten w pp
  pure (functionalCall net ps x)

/-- `eval_models(x, model, w, pprop)`, `torch_utils.py:126-127`: `vmap` over the first axis of `w`. -/
def evalModels (x : I) (net : Net α I O) (ws : List (List α)) (pp : List (String × PProp)) : Except Err (List O) :=
  ws.mapM fun w => evalModel x net w pp

/-- `eval_loss(x, y, loss_fct, model, w, pprop)`, `torch_utils.py:130-132`. -/
def evalLoss (x : I) (y : T) (loss : O → T → R) (net : Net α I O) (w : List α) (pp : List (String × PProp)) : Except Err R := do
  let o ← evalModel x net w pp
  pure (loss o y)

/-- `eval_losses(x, y, loss_fct, model, w, pprop)`, `torch_utils.py:135-136`: `vmap` over the first axis of `w`. -/
def evalLosses (x : I) (y : T) (loss : O → T → R) (net : Net α I O) (ws : List (List α)) (pp : List (String × PProp)) :
    Except Err (List R) :=
  ws.mapM fun w => evalLoss x y loss net w pp

/-- `.argmax(axis=1)` on one row, `torch_utils.py:145`: the first position of the largest entry; raises for an empty row. -/
def argmaxRow [LinearOrder L] (l : List L) : Except Err ℕ :=
  if l = [] then .error .index else .ok (l.findIdx fun a => l.all fun b => decide (b ≤ a))

/-- `a == y` with broadcasting and `torch.sum`, `torch_utils.py:145`: the number of equal entries. -/
def sumEq (a y : List ℕ) : Except Err ℕ :=
  match Mat.bdim a.length y.length with
  | none => .error .runtime
  | some k => .ok ((List.range k).countP fun i => a.getD (Mat.bpos a.length i) 0 == y.getD (Mat.bpos y.length i) 0)

/-- One pass of the loop of `eval_acc`, `torch_utils.py:142-146`: a batch of inputs and labels. -/
def accStep [LinearOrder L] (net : Net α (List X) (List (List L))) (w : List α) (pp : List (String × PProp)) (st : ℕ × ℕ)
    (b : List X × List ℕ) : Except Err (ℕ × ℕ) := do
  let o ← evalModel b.1 net w pp
  let a ← o.mapM argmaxRow
  let c ← sumEq a b.2
  pure (st.1 + c, st.2 + b.1.length)

/-- `eval_acc(model, w, pprop, loader)`, `torch_utils.py:139-147`: without batches the Python integers `0/0` raise, with batches but without
images the tensor quotient is NaN. -/
def evalAcc [LinearOrder L] (net : Net α (List X) (List (List L))) (w : List α) (pp : List (String × PProp))
    (loader : List (List X × List ℕ)) : Except Err (Flt ℚ) := do
  let r ← loader.foldlM (accStep net w pp) (0, 0)
  if loader = [] then .error .zeroDiv
  else if r.2 = 0 then pure .nan
  else pure (.fin (r.1 / r.2))

end Verif
