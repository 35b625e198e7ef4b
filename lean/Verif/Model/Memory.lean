import Verif.Model.Dyn

/-!
# `CBOMemory` and `PSO`: `cbx/dynamics/cbo_memory.py:48-136`, `cbx/dynamics/pso.py:54-163`

`y` (historical best positions) is `aux1`, `v` (velocities of `PSO`) is `aux2`. The copies `y_old`, `v_old` taken in `pre_step`
(`cbo_memory.py:73`, `pso.py:90-91`) are never read and left out.
-/

namespace Verif

section
variable {K V : Type} [Zero K] [One K] [Neg K] [Add K] [Sub K] [Mul K] [Inv K] [Div K] [NatCast K] [Pow K ℕ] [LinearOrder K] [Add V] [Sub V] [SMul K V]

/-- End of both constructors, `cbo_memory.py:66-67`, `pso.py:84-85`: `energy = f(x)` and `num_f_eval += N` for every run. The arrays `y = copy(x)`
(`cbo_memory.py:59`, `pso.py:77`) and `v = 0 * copy(x)` (`pso.py:74`) come from `Args.aux1`, `Args.aux2`. -/
def memInit (env : Env K V) (a : Args K V) : Except Err (St K V) := do
  let s ← init env a
  let (e, s) := callF env .energy id s.x s
  pure { s with energy := e, nEval := fun m => s.nEval m + s.N }

/-- `CBOMemory.compute_consensus`, `cbo_memory.py:114-129`: the whole energy array with the historical best positions of the batch. -/
def memConsensus (env : Env K V) (s : St K V) : Except Err (St K V) := do
  let yb ← s.aux1.gather s.cIdx
  let w ← Mat.bin (fun a e => (a, e)) (alphaActive s) s.energy
  let wx ← Mat.bin (fun (p : K × Flt K) (v : V) => (p.1, p.2, v)) w yb
  pure { s with cons := some (env.cons.apply wx) }

/-- `CBOMemory.memory_step`, `cbo_memory.py:78-84`, with `lamda_memory` and `sigma_memory`. -/
def memoryStep (env : Env K V) (lm sm : K) (s : St K V) : Except Err (St K V) := do
  let xp ← s.x.gather s.pIdx
  let yp ← s.aux1.gather s.pIdx
  let d ← Mat.bin (fun a b => a - b) xp yp
  let s := { s with drift := some d }
  let n ← env.noise s
  let s := { s with draws := s.draws + 1 }
  let u ← Mat.bin (cboUpdate lm s.dt sm) d n
  let x ← s.x.scatterAdd s.pIdx u
  pure { s with x := x }

/-- `(energy > energy_new) * (x - y)`, `cbo_memory.py:107-110`, `pso.py:143`: a boolean times a vector. -/
def maskMul (b : Bool) (v : V) : V := (if b then (1 : K) else 0) • v

/-- Update of the historical best positions, `cbo_memory.py:103-111`. -/
def memUpdate (env : Env K V) (s : St K V) : Except Err (St K V) := do
  let xp ← s.x.gather s.pIdx
  let (e, s) := evalF env s.pIdx.run xp s
  let b ← Mat.bin (fun a b => Flt.gt a b) s.energy e
  let yp ← s.aux1.gather s.pIdx
  let d ← Mat.bin (fun a b => a - b) xp yp
  let u ← Mat.bin (maskMul (K := K)) b d
  let y ← s.aux1.scatterAdd s.pIdx u
  let en ← Mat.bin Flt.minimum s.energy e
  pure { s with aux1 := y, energy := en }

/-- `CBOMemory.inner_step`, `cbo_memory.py:86-111`. -/
def memInner (env : Env K V) (lm sm : K) (s : St K V) : Except Err (St K V) := do
  let s ← memConsensus env s
  let s ← cboMove env s
  let s ← memoryStep env lm sm s
  memUpdate env s

/-- `CBOMemory.update_best_cur_particle`, `cbo_memory.py:131-136`: the particle is taken from the new positions `x`. -/
def memBestCur (s : St K V) : Except Err (St K V) :=
  if s.energy.cols = 0 then .error .value
  else
    let idx := fun m => Flt.rowArgmin s.energy.cols (s.energy.get m)
    pure { s with
      fMin := fun m => Flt.rowMin s.energy.cols (s.energy.get m)
      fMinIdx := idx
      bestCurP := fun m => s.x.get m (idx m)
      bestCurE := fun m => s.energy.get m (idx m) }

/-- `CBXDynamic.post_step`, `pdyn.py:919-929`, with the method overridden by `CBOMemory`. -/
def memPostStep (env : Env K V) (s : St K V) : Except Err (St K V) := do
  let x ← env.post s
  let s := { s with x := x }
  let s ← updateDiff env s
  let s ← memBestCur s
  let s := updateBest s
  let s ← track s
  pure { s with t := s.t + s.dt, it := s.it + 1 }

/-- `step` of `CBOMemory`, `pdyn.py:294-311`, `cbo_memory.py:70-76`. -/
def memStep (env : Env K V) (lm sm : K) (s : St K V) : Except Err (St K V) := do
  let s ← memInner env lm sm (preStep env s)
  memPostStep env s

/-- The constants of `PSO`, `pso.py:56-82`. -/
structure PsoPar (K : Type) where
  m : K
  gamma : K
  lm : K
  sm : K

/-- Beginning of `PSO.inner_step`, `pso.py:109-132`: consensus of the historical best positions, both drifts, both noise terms and the new
velocities. The division by `m + gamma*dt` raises here if the denominator is zero (NumPy gives infinities and NaN). -/
def psoVelocity (env : Env K V) (p : PsoPar K) (s : St K V) : Except Err (St K V) := do
  let yb ← s.aux1.gather s.cIdx
  let eb ← s.energy.gather s.cIdx
  let w ← Mat.bin (fun a e => (a, e)) (alphaActive s) eb
  let wx ← Mat.bin (fun (p : K × Flt K) (v : V) => (p.1, p.2, v)) w yb
  let c := env.cons.apply wx
  let s := { s with cons := some c }
  let xp ← s.x.gather s.pIdx
  let dc ← Mat.bin (fun a b => a - b) xp c
  let yp ← s.aux1.gather s.pIdx
  let dm ← Mat.bin (fun a b => a - b) xp yp
  let s := { s with drift := some dc }
  let n1 ← env.noise s
  let s := { s with draws := s.draws + 1, drift := some dm }
  let n2 ← env.noise s
  let s := { s with draws := s.draws + 1 }
  if p.m + p.gamma * s.dt = 0 then .error .zeroDiv
  else do
    let vp ← s.aux2.gather s.pIdx
    let (dc', s) ← correction env (dc.map fun d => (s.lamda * s.dt) • d) s
    let a ← Mat.bin (fun v d => (p.m * s.dt) • v + d) vp dc'
    let a ← Mat.bin (fun a d => a + (p.lm * s.dt) • d) a dm
    let a ← Mat.bin (fun a n => a + s.sigma • n) a n1
    let a ← Mat.bin (fun a n => a + p.sm • n) a n2
    let v ← s.aux2.scatter s.pIdx (a.map fun a => (p.m + p.gamma * s.dt)⁻¹ • a)
    pure { s with aux2 := v }

/-- New positions in `PSO.inner_step`, `pso.py:134-135`. -/
def psoPosition (s : St K V) : Except Err (St K V) := do
  let xp ← s.x.gather s.pIdx
  let vp ← s.aux2.gather s.pIdx
  let x ← Mat.bin (fun x v => x + s.dt • v) xp vp
  let x ← s.x.scatter s.pIdx x
  pure { s with x := x }

/-- End of `PSO.inner_step`, `pso.py:137-144`: `num_f_eval` grows for all `M` runs (`pso.py:139`). -/
def psoUpdate (env : Env K V) (s : St K V) : Except Err (St K V) := do
  let xp ← s.x.gather s.pIdx
  let (e, s) := callF env .energy s.pIdx.run xp s
  let s := { s with nEval := fun m => s.nEval m + xp.cols }
  let yp ← s.aux1.gather s.pIdx
  let b ← Mat.bin (fun a b => Flt.gt a b) s.energy e
  let d ← Mat.bin (fun a b => a - b) xp yp
  let u ← Mat.bin (maskMul (K := K)) b d
  let y ← Mat.bin (fun y u => y + u) yp u
  let y ← s.aux1.scatter s.pIdx y
  let en ← Mat.bin Flt.minimum s.energy e
  pure { s with aux1 := y, energy := en }

/-- `PSO.inner_step`, `pso.py:96-144`. -/
def psoInner (env : Env K V) (p : PsoPar K) (s : St K V) : Except Err (St K V) := do
  let s ← psoVelocity env p s
  let s ← psoPosition s
  psoUpdate env s

/-- `step` of `PSO`, `pdyn.py:294-311`, `pso.py:87-94`: `post_step` is the inherited one. -/
def psoStep (env : Env K V) (p : PsoPar K) (s : St K V) : Except Err (St K V) := step env (psoInner env p) s

/-- One operation of a dynamic with the given `step` (`pdyn.py:294,432-436,931`, `scheduler.py:70`). -/
def execBy (env : Env K V) (stp : St K V → Except Err (St K V)) : Op → St K V → Except Err (St K V)
  | .step, s => stp s
  | .select, s => selectActive env s
  | .sched, s => schedUpdate env s
  | .reset, s => .ok (reset s)

/-- A sequence of operations (as in `optimize`, `pdyn.py:355-364`); stops at the first exception. -/
def execAllBy (env : Env K V) (stp : St K V → Except Err (St K V)) : List Op → St K V → Except Err (St K V)
  | [], s => .ok s
  | o :: l, s => do
    let s ← execBy env stp o s
    execAllBy env stp l s

/-- `optimize`, `pdyn.py:355-364`, of a dynamic with the given `step`: `while not terminate(): step(); sched.update()`.
`fuel` bounds the number of evaluations of the loop condition in the model. -/
def optimizeBy (env : Env K V) (stp : St K V → Except Err (St K V)) : ℕ → St K V → Outcome (St K V)
  | 0, _ => .outOfFuel
  | fuel + 1, s =>
    match selectActive env s with
    | .error e => .raised e
    | .ok s =>
      if s.active.length = 0 then .done s
      else
        match stp s with
        | .error e => .raised e
        | .ok s =>
          match schedUpdate env s with
          | .error e => .raised e
          | .ok s => optimizeBy env stp fuel s

end
end Verif
