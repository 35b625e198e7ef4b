import Verif.Model.Dyn

/-!
# The base class `ParticleDynamic` used directly, `cbx/dynamics/pdyn.py:46-544`

A user subclass overrides `inner_step` (`pdyn.py:250-262`), here the argument `inner`.  The state type is shared with `CBXDynamic`; the fields
that only `CBXDynamic` has (`t`, `dt`, `batch_size`, `consensus`, …) are not read by the definitions below except where the code would raise.
-/

namespace Verif

section
variable {K V : Type} [Zero K] [One K] [Neg K] [Add K] [Sub K] [Mul K] [Inv K] [Div K] [NatCast K] [Pow K ℕ] [LinearOrder K] [Add V] [Sub V] [SMul K V]

/-- `ParticleDynamic.pre_step`, `pdyn.py:236-248`. -/
def basePreStep (s : St K V) : St K V := { s with xOld := some s.x }

/-- `ParticleDynamic.post_step`, `pdyn.py:264-292`: unlike `CBXDynamic.post_step` (`pdyn.py:919-929`) the post processing comes last. -/
def basePostStep (env : Env K V) (s : St K V) : Except Err (St K V) := do
  let s ← updateDiff env s
  let s ← updateBestCur s
  let s := updateBest s
  let s ← track s
  let x ← env.post s
  pure { s with x := x, it := s.it + 1 }

/-- `ParticleDynamic.step`, `pdyn.py:294-311`. -/
def baseStep (env : Env K V) (inner : St K V → Except Err (St K V)) (s : St K V) : Except Err (St K V) := do
  let s ← inner (basePreStep s)
  basePostStep env s

/-- A criterion called on a `ParticleDynamic`, `termination.py:16-128`: the attributes `batch_size` (`termination.py:54`), `t`
(`termination.py:95`) and `consensus` (`termination.py:125`) do not exist. -/
def baseEvalTerm (env : Env K V) (tm : Term K) (s : St K V) : Except Err ((ℕ → Bool) × Term K × St K V) :=
  match tm with
  | .maxEval _ => .error .attribute
  | .maxTime _ => .error .attribute
  | .energyStag _ _ _ => .error .attribute
  | tm => evalTerm env tm s

/-- The loop over the criteria, `pdyn.py:447-449`, for a `ParticleDynamic`. -/
def baseEvalTerms (env : Env K V) : List (Term K) → St K V → Except Err (List (ℕ → Bool) × List (Term K) × St K V)
  | [], s => pure ([], [], s)
  | tm :: l, s => do
    let (b, tm', s) ← baseEvalTerm env tm s
    let (bs, l', s) ← baseEvalTerms env l s
    pure (b :: bs, tm' :: l', s)

/-- `select_active_runs`, `pdyn.py:436-457`, for a `ParticleDynamic`. -/
def baseSelect (env : Env K V) (s : St K V) : Except Err (St K V) := do
  let (bs, tms, s) ← baseEvalTerms env s.terms s
  pure { s with
    terms := tms
    active := (List.range s.M).filter fun m => bs.all fun b => !b m
    reason := fun m =>
      if m < s.M ∧ bs.any (fun b => b m) = true then some (firing bs m) else s.reason m }

/-- `optimize`, `pdyn.py:355-364`, with the default scheduler of the base class (`pdyn.py:313-322`, empty). -/
def baseOptimize (env : Env K V) (inner : St K V → Except Err (St K V)) : ℕ → St K V → Outcome (St K V)
  | 0, _ => .outOfFuel
  | fuel + 1, s =>
    match baseSelect env s with
    | .error e => .raised e
    | .ok s =>
      if s.active.length = 0 then .done s
      else
        match baseStep env inner s with
        | .error e => .raised e
        | .ok s => baseOptimize env inner fuel s

/-- `k` calls of `step()`, `pdyn.py:294`. -/
def baseSteps (env : Env K V) (inner : St K V → Except Err (St K V)) : ℕ → St K V → Except Err (St K V)
  | 0, s => .ok s
  | k + 1, s => do
    let s ← baseSteps env inner k s
    baseStep env inner s

/-- The constructor of `ParticleDynamic`, `pdyn.py:126-168`. -/
def baseInit (env : Env K V) (a : Args K V) : Except Err (St K V) :=
  if a.x0.cols = 0 then .error .index
  else .ok (initHistory a.tracks a.saveInt (if a.checkF then checkFDims env (baseSt a) else baseSt a))

end
end Verif
