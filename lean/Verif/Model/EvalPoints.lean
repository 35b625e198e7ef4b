import Verif.Model.Dyn

/-!
# The points at which the energies were evaluated: option `save_consensus_eval_points`

`maybe_save_consensus_eval_points`, `pdyn.py:970-977`, is called at the beginning of `compute_consensus` (`pdyn.py:960`). The attribute `consensus_eval_points` does not exist
before the first call (`none`) and is not touched by anything else. `PolarCBO` (`polarcbo.py:239-252`), `CBOMemory` (`cbo_memory.py:114-129`) and `PSO` (`pso.py:109-120`) replace
`compute_consensus` by versions without this call, so the option does nothing for them.
-/

namespace Verif

section
variable {K V : Type} [Zero K] [One K] [Neg K] [Add K] [Sub K] [Mul K] [Inv K] [Div K] [NatCast K] [Pow K ℕ] [LinearOrder K] [Add V] [Sub V] [SMul K V]

/-- `maybe_save_consensus_eval_points`, `pdyn.py:970-977`; `on` is `self.save_consensus_eval_points`. The first call copies the whole ensemble, later ones the batch. -/
def savePoints (on : Bool) (s : St K V) (p : Option (Mat V)) : Except Err (Option (Mat V)) :=
  if on then
    match p with
    | none => .ok (some s.x)
    | some q => do
      let g ← s.x.gather s.cIdx
      let q ← q.scatter s.cIdx g
      pure (some q)
  else .ok p

/-- An inner step `compute_consensus(); move`, e.g. `cbo.py:40-50`, with the saved points: `pdyn.py:960-968`. -/
def saveInner (on : Bool) (env : Env K V) (move : St K V → Except Err (St K V)) (q : St K V × Option (Mat V)) : Except Err (St K V × Option (Mat V)) := do
  let p ← savePoints on q.1 q.2
  let s ← computeConsensus env q.1
  let s ← move s
  pure (s, p)

/-- `step`, `pdyn.py:294-311`. -/
def saveStep (on : Bool) (env : Env K V) (move : St K V → Except Err (St K V)) (q : St K V × Option (Mat V)) : Except Err (St K V × Option (Mat V)) := do
  let q ← saveInner on env move (preStep env q.1, q.2)
  let s ← postStep env q.1
  pure (s, q.2)

/-- The inner step without the saved points, `cbo.py:40-50`. -/
def plainInner (env : Env K V) (move : St K V → Except Err (St K V)) (s : St K V) : Except Err (St K V) := do
  let s ← computeConsensus env s
  move s

/-- One operation (`pdyn.py:294,432-436,931`, `scheduler.py:70`); only steps touch the saved points. -/
def saveExec (on : Bool) (env : Env K V) (move : St K V → Except Err (St K V)) (o : Op) (q : St K V × Option (Mat V)) : Except Err (St K V × Option (Mat V)) :=
  match o with
  | .step => saveStep on env move q
  | o => do
    let s ← exec env (plainInner env move) o q.1
    pure (s, q.2)

/-- A sequence of operations (`pdyn.py:355-364` or calls by the user). -/
def saveExecAll (on : Bool) (env : Env K V) (move : St K V → Except Err (St K V)) : List Op → St K V × Option (Mat V) → Except Err (St K V × Option (Mat V))
  | [], q => .ok q
  | o :: l, q => do
    let q ← saveExec on env move o q
    saveExecAll on env move l q

end
end Verif
