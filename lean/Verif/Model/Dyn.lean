import Verif.Np.Mat

/-!
# The dynamics machine: `ParticleDynamic` / `CBXDynamic` / `CBO`

Every definition cites the lines of `/repo/cbx` it mirrors.  `K` is the scalar type (exact arithmetic or arithmetic
with rounding: only the operations are given, the laws a theorem needs are stated in the theorem),
`V` the type of one particle position (everything behind the first two array axes).
Randomness is a parameter: `perm` and `sampler` are arbitrary functions of the number of earlier calls.
-/

namespace Verif

/-- Where the objective is called; ghost information, the code has no such tag.
Call sites: `pdyn.py:232` (check), `pdyn.py:963` (energy), `correction.py:80` (corr),
`utils/termination.py:124` (term). -/
inductive Site where
  | check | energy | corr | term
  deriving DecidableEq, Repr

/-- Termination criteria, `cbx/utils/termination.py:6-134`; `energyStag` carries the loss buffer
`self.losses` (`none` before the first call, `termination.py:119,124`).  A callable given by the user
(`termination.py:149`) is `custom id`, resolved by `Env.custom`. -/
inductive Term (K : Type) where
  | energyTol (tol : Flt K)
  | diffTol (tol : Flt K)
  | maxEval (n : ℕ)
  | maxIt (n : Option ℕ)
  | maxTime (T : K)
  | energyStag (patience : ℕ) (thresh : Flt K) (losses : Option (ℕ → ℕ → Flt K))
  | custom (id : ℕ)

/-- Trackers, `cbx/utils/history.py:44-169`; `other id` is `default_track` (`history.py:44-66`) for an
attribute that the dynamic does not have (it then never appends). -/
inductive Track where
  | updateNorm | energy | x | consensus | driftMean | drift | other (id : ℕ)
  deriving DecidableEq, Repr

/-- One history entry: what the tracker appended, `utils/history.py:53-169`. -/
inductive Entry (K V : Type) where
  | updateNorm (u : ℕ → Flt K)
  | energy (e : Mat (Flt K))
  | x (x : Mat V)
  | consensus (c : Option (Mat V))
  | driftMean (d : Option (Mat V))
  | drift (d : Option (Mat V)) (ix : Idx)

/-- The object state (attributes of `ParticleDynamic`, `pdyn.py:126-168`, and `CBXDynamic`,
`pdyn.py:629-658`).  Arrays of shape `(M,)` are functions of the run index. `log` is ghost: the list of
all points on which the objective was called so far, with call site and run.  `aux1`, `aux2` hold the extra
arrays of the subclasses: `m`, `v` of `AdamCBO` (`adamcbo.py:35-36`), `y` of `MirrorCBO`, `CBOMemory`, `PSO`
and `v` of `PSO`; plain `CBO` does not use them. -/
structure St (K V : Type) where
  M : ℕ
  N : ℕ
  x : Mat V
  xOld : Option (Mat V)
  energy : Mat (Flt K)
  bestE : ℕ → Flt K
  bestCurE : ℕ → Flt K
  fMin : ℕ → Flt K
  fMinIdx : ℕ → ℕ
  bestCurP : ℕ → V
  bestP : ℕ → V
  updDiff : ℕ → Flt K
  nEval : ℕ → ℕ
  log : List (Site × ℕ × V)
  alpha : ℕ → K
  lamda : K
  sigma : K
  dt : K
  t : K
  it : ℕ
  active : List ℕ
  reason : ℕ → Option (List ℕ)
  terms : List (Term K)
  cons : Option (Mat V)
  drift : Option (Mat V)
  batchSize : ℕ
  batched : Bool
  batchPartial : Bool
  batchConcat : Bool
  indices : Mat ℕ
  perms : ℕ
  cIdx : Idx
  pIdx : Idx
  saveInt : ℕ
  trackIt : ℕ
  tracks : List Track
  hist : Track → List (Entry K V)
  draws : ℕ
  aux1 : Mat V
  aux2 : Mat V

/-- The parameters a scheduler may change (`scheduler.py:101-106`, `scheduler.py:148-156`). -/
structure Params (K : Type) where
  alpha : ℕ → K
  lamda : K
  sigma : K
  dt : K

/-- Drift corrections, `cbx/correction.py:5-94`: `none` = `no_correction`; `heavi g` =
`heavi_side_correction` with factor `g z` applied to the particle (`correction.py:79-94`);
`custom` = user callable that only returns a value. -/
inductive Corr (K V : Type) where
  | none
  | heavi (g : Flt K → V → V)
  | custom (c : St K V → Mat V → Except Err (Mat V))

/-- Consensus rule on one run, given the list of (alpha, energy, particle): `mean` gives one point per run
(`compute_consensus_default`, `pdyn.py:582-587`, and `compute_consensus_rescale`,
`hypersurfacecbo.py:77-83`), `polar` one point per particle (`compute_polar_consensus`,
`polarcbo.py:145-150`). -/
inductive Cons (K V : Type) where
  | mean (r : List (K × Flt K × V) → V)
  | polar (r : List (K × Flt K × V) → ℕ → V)

/-- Everything the dynamic gets from outside: objective, consensus rule per run, noise, correction, post
processing, RNGs, user criteria, scheduler.
* `f` — objective on one particle (`pdyn.py:214`, `utils/objective_handling.py`);
* `cons` — `self._compute_consensus` (`pdyn.py:668`);
* `noise` — `self.noise()` (`pdyn.py:878-889`), may read the whole state;
* `post` — `self.post_process(self)` (`pdyn.py:41-43`), returns the new `x`;
* `normDiff` — `self.norm(x - x_old, axis=(-2,-1))/N` of one run (`pdyn.py:920`);
* `perm N c r` — row `r` of the `c`-th call of `batch_rng.permuted` (`pdyn.py:735,785`);
* `sampler k i j` — entry `(i,j)` of the `k`-th array drawn by `self.sampler` (`pdyn.py:177`);
* `emptyRaises` — whether a step in which no particle is selected (no active run, or batches of size 0) raises: it does for
  `f_dim='1D'` (`np.apply_along_axis` without rows, `utils/objective_handling.py:75-77`), for isotropic noise without
  active runs (`drift.reshape(*drift.shape[:2], -1)`, `noise.py:116-117`), and for batches of size 0 in versions of SciPy
  whose `logsumexp` needs at least one entry (`pdyn.py:583-585`); otherwise it does not. -/
structure Env (K V : Type) where
  f : V → Flt K
  cons : Cons K V
  noise : St K V → Except Err (Mat V)
  corr : Corr K V
  post : St K V → Except Err (Mat V)
  normDiff : List (V × V) → Flt K
  sqrtK : K → K
  perm : ℕ → ℕ → ℕ → ℕ → ℕ
  sampler : ℕ → ℕ → ℕ → V
  custom : ℕ → St K V → ℕ → Bool
  sched : St K V → Except Err (Params K)
  emptyRaises : Bool := false

section
variable {K V : Type} [Zero K] [One K] [Neg K] [Add K] [Sub K] [Mul K] [Inv K] [Div K] [NatCast K] [Pow K ℕ] [LinearOrder K] [Add V] [Sub V] [SMul K V]

/-- The laws of arithmetic the bookkeeping relies on; they hold in ordered fields and in floating point arithmetic with rounding to nearest:
adding a non-negative time step does not turn the clock back (`self.t += self.dt`, `pdyn.py:928`), adding zero changes nothing
(`utils/resampling.py:123-126`), and a difference is positive exactly when it should be (`np.where(z > 0, 1, 0)`, `correction.py:81`). -/
class SoundArith (K : Type) [Zero K] [Neg K] [Add K] [LinearOrder K] : Prop where
  le_add : ∀ t d : K, 0 ≤ d → t ≤ t + d
  zero_add : ∀ a : K, 0 + a = a
  sub_pos : ∀ a b : K, 0 < a + -b ↔ b < a

instance {K : Type} [Field K] [LinearOrder K] [IsStrictOrderedRing K] : SoundArith K :=
  ⟨fun _ _ h => le_add_of_nonneg_right h, _root_.zero_add, fun a b => by rw [← sub_eq_add_neg, _root_.sub_pos]⟩

/-- Row-major list of the entries of an array together with the run of each row; the order in which the fancy index of `pdyn.py:796` addresses them. -/
def Mat.entries {α : Type} (run : ℕ → ℕ) (a : Mat α) : List (ℕ × α) :=
  (List.range a.rows).flatMap fun i => (List.range a.cols).map fun j => (run i, a.get i j)

/-- `dyn.f(p)`: the objective applied to an array, pointwise (`utils/objective_handling.py:4-101`);
appends the evaluated points to the ghost log. -/
def callF (env : Env K V) (site : Site) (run : ℕ → ℕ) (p : Mat V) (s : St K V) :
    Mat (Flt K) × St K V :=
  (p.map env.f, { s with log := s.log ++ (p.entries run).map fun q => (site, q.1, q.2) })

/-- `CBXDynamic.eval_f`, `pdyn.py:936-938`: `num_f_eval[active_runs_idx] += x.shape[1]`, then `f(x)`. -/
def evalF (env : Env K V) (run : ℕ → ℕ) (p : Mat V) (s : St K V) : Mat (Flt K) × St K V :=
  callF env .energy run p
    { s with nEval := fun m => if m ∈ s.active then s.nEval m + p.cols else s.nEval m }

/-- `set_batch_idx_unbatched`, `pdyn.py:742-760`. -/
def setBatchUnbatched (s : St K V) : St K V :=
  let ix := if s.active.length = s.M then Idx.all s.M s.N else Idx.ofRuns s.active s.N
  { s with cIdx := ix, pIdx := ix }

/-- `np.repeat(np.arange(N)[None,:], M, axis=0)` permuted along axis 1, `pdyn.py:733-735,784-785`. -/
def freshIndices (env : Env K V) (M N c : ℕ) : Mat ℕ := ⟨M, N, fun m j => env.perm N c m j⟩

/-- `np.concatenate((a, b), axis=1)`, `pdyn.py:788`. -/
def Mat.concatCols {α : Type} (a b : Mat α) : Mat α :=
  ⟨a.rows, a.cols + b.cols, fun i j => if j < a.cols then a.get i j else b.get i (j - a.cols)⟩

/-- `a[:, k:]`, `pdyn.py:794`. -/
def Mat.dropCols {α : Type} (a : Mat α) (k : ℕ) : Mat α :=
  ⟨a.rows, a.cols - k, fun i j => a.get i (j + k)⟩

/-- Refill of the index pool, `pdyn.py:783-790`. -/
def refill (env : Env K V) (s : St K V) : St K V :=
  if s.indices.cols < s.batchSize then
    let fresh := freshIndices env s.M s.N s.perms
    { s with
      indices := if s.batchConcat then s.indices.concatCols fresh else fresh
      perms := s.perms + 1 }
  else s

/-- `set_batch_idx_batched`, `pdyn.py:762-800`. -/
def setBatchBatched (env : Env K V) (s : St K V) : St K V :=
  let s1 := refill env s
  let b := s1.indices
  let c := Idx.ofBatch s1.active (min s1.batchSize b.cols) b.get
  { s1 with
    indices := b.dropCols s1.batchSize
    cIdx := c
    pIdx := if s1.batchPartial then c else Idx.ofRuns s1.active s1.N }

/-- `self.set_batch_idx()`, chosen in `init_batch_idx`, `pdyn.py:727-736`. -/
def setBatch (env : Env K V) (s : St K V) : St K V :=
  if s.batched then setBatchBatched env s else setBatchUnbatched s

/-- `CBXDynamic.pre_step`, `pdyn.py:909-914`. -/
def preStep (env : Env K V) (s : St K V) : St K V :=
  setBatch env { s with xOld := some s.x }

/-- Rows `alpha[active_runs_idx, :]` of shape `(k, 1)`, `pdyn.py:966`. -/
def alphaActive (s : St K V) : Mat K := ⟨s.active.length, 1, fun i _ => s.alpha (s.active.getD i 0)⟩

/-- Row `i` of an array as a list, `pdyn.py:582-587`. -/
def Mat.row {α : Type} (a : Mat α) (i : ℕ) : List α := (List.range a.cols).map fun j => a.get i j

/-- Consensus of all rows: shape `(k, 1, ...)` resp. `(k, B, ...)` for the polar rule; `pdyn.py:582-587,948-968`, `polarcbo.py:145-150`. -/
def Cons.apply (c : Cons K V) (wx : Mat (K × Flt K × V)) : Mat V :=
  match c with
  | .mean r => ⟨wx.rows, 1, fun i _ => r (wx.row i)⟩
  | .polar r => ⟨wx.rows, wx.cols, fun i j => r (wx.row i) j⟩

/-- The exceptions for an empty selection of particles (`utils/objective_handling.py:75-77`, `pdyn.py:583-585`,
`noise.py:116-117`, see `Env.emptyRaises`); simplified: the one of the noise is raised already here. -/
def emptyCheck (env : Env K V) (xb : Mat V) : Except Err Unit :=
  if env.emptyRaises = true ∧ (xb.rows = 0 ∨ xb.cols = 0) then .error .value else pure ()

/-- `CBXDynamic.compute_consensus`, `pdyn.py:948-968` (and `polarcbo.py:239-251`); the built-in consensus
rules return the energies unchanged.  `save_consensus_eval_points` is not modelled. -/
def computeConsensus (env : Env K V) (s : St K V) : Except Err (St K V) := do
  let xb ← s.x.gather s.cIdx
  emptyCheck env xb
  let (e, s) := evalF env s.cIdx.run xb s
  let w ← Mat.bin (fun a e => (a, e)) (alphaActive s) e
  let wx ← Mat.bin (fun (p : K × Flt K) (v : V) => (p.1, p.2, v)) w xb
  let c := env.cons.apply wx
  let en ← s.energy.scatter s.cIdx e
  pure { s with cons := some c, energy := en }

/-- `dyn.correction(x)`, `pdyn.py:838-851` and `correction.py:20-94`.  The Heaviside corrections add
`consensus.shape[0]` to *every* entry of `num_f_eval` (`correction.py:76`), evaluate the objective on the
consensus and combine with the full energy array (`correction.py:77-81,93-94`). -/
def correction (env : Env K V) (d : Mat V) (s : St K V) : Except Err (Mat V × St K V) :=
  match env.corr with
  | .none => pure (d, s)
  | .custom c => do let d' ← c s d; pure (d', s)
  | .heavi g =>
    match s.cons with
    | .none => .error .attribute
    | .some c => do
      let s := { s with nEval := fun m => s.nEval m + c.rows }
      let (fc, s) := callF env .corr (fun i => s.active.getD i 0) c s
      let z ← Mat.bin Flt.sub s.energy fc
      let d' ← Mat.bin (fun v z => g z v) d z
      pure (d', s)

/-- `cbo_update`, `cbo.py:3-4`: `-lamda * dt * drift + sigma * noise`. -/
def cboUpdate (lamda dt sigma : K) (d n : V) : V := (-lamda * dt) • d + sigma • n

/-- Update of the particles in `CBO.cbo_step`, `cbo.py:44-50`: drift (with correction), noise, and
`x[particle_idx] += update`. -/
def cboMove (env : Env K V) (s : St K V) : Except Err (St K V) :=
  match s.cons with
  | none => .error .attribute
  | some c => do
    let xp ← s.x.gather s.pIdx
    let d ← Mat.bin (fun a b => a - b) xp c
    let (d, s) ← correction env d s
    let s := { s with drift := some d }
    let n ← env.noise s
    let s := { s with draws := s.draws + 1 }
    let u ← Mat.bin (cboUpdate (K := K) s.lamda s.dt s.sigma) d n
    let x ← s.x.scatterAdd s.pIdx u
    pure { s with x := x }

/-- `CBO.cbo_step`, `cbo.py:40-50`. -/
def cboInner (env : Env K V) (s : St K V) : Except Err (St K V) := do
  let s ← computeConsensus env s
  cboMove env s

/-- `update_diff` in `post_step`, `pdyn.py:921-922`: one norm per run. -/
def updateDiff (env : Env K V) (s : St K V) : Except Err (St K V) :=
  match s.xOld with
  | none => pure s
  | some o => do
    let p ← Mat.bin (fun a b => (a, b)) s.x o
    pure { s with updDiff := fun m => env.normDiff (p.row m) }

/-- `update_best_cur_particle`, `pdyn.py:512-529` (`min`/`argmin` over an empty axis raise). -/
def updateBestCur (s : St K V) : Except Err (St K V) :=
  if s.energy.cols = 0 then .error .value
  else
    let idx := fun m => Flt.rowArgmin s.energy.cols (s.energy.get m)
    let src := s.xOld.getD s.x
    pure { s with
      fMin := fun m => Flt.rowMin s.energy.cols (s.energy.get m)
      fMinIdx := idx
      bestCurP := fun m => src.get m (idx m)
      bestCurE := fun m => s.energy.get m (idx m) }

/-- `update_best_particle`, `pdyn.py:531-544`. -/
def updateBest (s : St K V) : St K V :=
  { s with
    bestE := fun m => if Flt.gt (s.bestE m) (s.bestCurE m) then s.bestCurE m else s.bestE m
    bestP := fun m => if Flt.gt (s.bestE m) (s.bestCurE m) then s.bestCurP m else s.bestP m }

/-- What a tracker appends in `update`, `history.py:53-66,78-91,105-115,128-129,141-142,153-154,167-169`. -/
def trackEntry (s : St K V) : Track → List (Entry K V)
  | .updateNorm => [.updateNorm s.updDiff]
  | .energy => [.energy s.energy]
  | .x => [.x s.x]
  | .consensus => [.consensus s.cons]
  | .driftMean => [.driftMean s.drift]
  | .drift => [.drift s.drift s.pIdx]
  | .other _ => []

/-- `track.init_history`: the initial list, `history.py:50-52,73-76,104-105,...`; `track_x` stores the
current positions as entry 0 (aliasing of that entry is modelled in `Verif/Model/Heap.lean`). -/
def trackInit (s : St K V) : Track → List (Entry K V)
  | .x => [.x s.x]
  | _ => []

/-- Append the entries of a list of trackers, in order, `pdyn.py:494-495,497-510`. -/
def applyTracks (s : St K V) (l : List Track) (h : Track → List (Entry K V)) :
    Track → List (Entry K V) :=
  l.foldl (fun h t => fun t' => if t' = t then h t ++ trackEntry s t else h t') h

/-- `track`, `pdyn.py:497-510`; `it % 0` raises `ZeroDivisionError`. -/
def track (s : St K V) : Except Err (St K V) :=
  if s.saveInt = 0 then .error .zeroDiv
  else if s.it % s.saveInt = 0 then
    pure { s with hist := applyTracks s s.tracks s.hist, trackIt := s.trackIt + 1 }
  else pure s

/-- `init_history`, `pdyn.py:464-495`, for given tracker list and interval. -/
def initHistory (tracks : List Track) (saveInt : ℕ) (s : St K V) : St K V :=
  { s with saveInt := saveInt, trackIt := 0, tracks := tracks, hist := trackInit s }

/-- `CBXDynamic.post_step`, `pdyn.py:919-929`. -/
def postStep (env : Env K V) (s : St K V) : Except Err (St K V) := do
  let x ← env.post s
  let s := { s with x := x }
  let s ← updateDiff env s
  let s ← updateBestCur s
  let s := updateBest s
  let s ← track s
  pure { s with t := s.t + s.dt, it := s.it + 1 }

/-- `step`, `pdyn.py:294-311`, for a given inner step. -/
def step (env : Env K V) (inner : St K V → Except Err (St K V)) (s : St K V) :
    Except Err (St K V) := do
  let s ← inner (preStep env s)
  postStep env s

/-- `energy_stagnation_term.__call__`, `termination.py:118-128`.  `E = f(consensus[active])` has shape
`(k, 1)` and is assigned to `losses[it % patience, active]` of shape `(k,)`, which NumPy accepts only for
`k = 1`.  `it % 0` raises `ZeroDivisionError`. -/
def evalStag (env : Env K V) (p : ℕ) (th : Flt K) (losses : Option (ℕ → ℕ → Flt K)) (s : St K V) :
    Except Err ((ℕ → Bool) × Term K × St K V) :=
  match s.cons with
  | none => pure (fun _ => false, .energyStag p th (some (losses.getD fun _ _ => .pinf)), s)
  | some c =>
    if ∀ m ∈ s.active, m < c.rows then
      let pts : Mat V := ⟨s.active.length, c.cols, fun i j => c.get (s.active.getD i 0) j⟩
      let q := (callF env .term (fun i => s.active.getD i 0) pts s).2
      let q := { q with nEval := fun m => if m ∈ s.active then s.nEval m + 1 else s.nEval m }
      if p = 0 then .error .zeroDiv
      else if s.active.length = 1 ∧ c.cols = 1 then
        let l := fun r m =>
          if r = s.it % p ∧ m = s.active.getD 0 0 then env.f (c.get (s.active.getD 0 0) 0)
          else (losses.getD fun _ _ => .pinf) r m
        pure (fun m => Flt.lt (Flt.std env.sqrtK ((List.range p).map fun r => l r m)) th,
          .energyStag p th (some l), q)
      else .error .value
    else .error .index

/-- One termination criterion called on the dynamic, `termination.py:16-128`: value per run, new criterion
state, new dynamic state. -/
def evalTerm (env : Env K V) (tm : Term K) (s : St K V) :
    Except Err ((ℕ → Bool) × Term K × St K V) :=
  match tm with
  | .energyTol tol => pure (fun m => Flt.lt (s.fMin m) tol, tm, s)
  | .diffTol tol => pure (fun m => Flt.lt (s.updDiff m) tol, tm, s)
  | .maxEval n => pure (fun m => decide (n < s.nEval m + s.batchSize), tm, s)
  | .maxIt none => pure (fun _ => false, tm, s)
  | .maxIt (some n) => pure (fun _ => decide (n ≤ s.it), tm, s)
  | .maxTime T => pure (fun _ => decide (T ≤ s.t), tm, s)
  | .energyStag p th l => evalStag env p th l s
  | .custom i => pure (env.custom i s, tm, s)

/-- The loop over `term_criteria` in `select_active_runs`, `pdyn.py:447-449`. -/
def evalTerms (env : Env K V) : List (Term K) → St K V →
    Except Err (List (ℕ → Bool) × List (Term K) × St K V)
  | [], s => pure ([], [], s)
  | tm :: l, s => do
    let (b, tm', s) ← evalTerm env tm s
    let (bs, l', s) ← evalTerms env l s
    pure (b :: bs, tm' :: l', s)

/-- Positions of the criteria that hold for run `m`, `np.where(loc_term[j,:])[0]`, `pdyn.py:457`. -/
def firing (bs : List (ℕ → Bool)) (m : ℕ) : List ℕ :=
  (List.range bs.length).filter fun i => (bs.getD i fun _ => false) m

/-- `select_active_runs`, `pdyn.py:436-457`. -/
def selectActive (env : Env K V) (s : St K V) : Except Err (St K V) := do
  let (bs, tms, s) ← evalTerms env s.terms s
  pure { s with
    terms := tms
    active := (List.range s.M).filter fun m => bs.all fun b => !b m
    reason := fun m =>
      if m < s.M ∧ bs.any (fun b => b m) = true then some (firing bs m) else s.reason m }

/-- `sched.update(dyn)`, `pdyn.py:359`, `scheduler.py:70-83`: may change the parameters only. -/
def schedUpdate (env : Env K V) (s : St K V) : Except Err (St K V) := do
  let p ← env.sched s
  pure { s with alpha := p.alpha, lamda := p.lamda, sigma := p.sigma, dt := p.dt }

/-- `reset`, `pdyn.py:931-934` (and `397-410`): `it`, `t` and the history; `init_history()` is called
without arguments, so the tracking configuration falls back to the default (`pdyn.py:474-480`). -/
def reset (s : St K V) : St K V :=
  initHistory [.updateNorm, .energy] 1 { s with it := 0, t := 0 }

/-- Result of `optimize` with a bound on the number of loop iterations the model executes, `pdyn.py:324-364`. -/
inductive Outcome (S : Type) where
  | done (s : S)
  | raised (e : Err)
  | outOfFuel

/-- `optimize`, `pdyn.py:355-364` (printing omitted): `while not terminate(): step(); sched.update()`.
`fuel` bounds the number of evaluations of the loop condition in the model. -/
def optimize (env : Env K V) (inner : St K V → Except Err (St K V)) :
    ℕ → St K V → Outcome (St K V)
  | 0, _ => .outOfFuel
  | fuel + 1, s =>
    match selectActive env s with
    | .error e => .raised e
    | .ok s =>
      if s.active.length = 0 then .done s
      else
        match step env inner s with
        | .error e => .raised e
        | .ok s =>
          match schedUpdate env s with
          | .error e => .raised e
          | .ok s => optimize env inner fuel s

/-- Constructor arguments used by the model (`pdyn.py:126-142`, `pdyn.py:629-640`, `pdyn.py:691-739`). `aux1`, `aux2` say how
the constructor of a subclass obtains its extra arrays from `x`: the gradient of the mirror map (`mirrorcbo.py:303`), zero
(`adamcbo.py:35-36`, `pso.py:74`), a copy (`cbo_memory.py:59`, `pso.py:77`). -/
structure Args (K V : Type) where
  x0 : Mat V
  alpha : K
  lamda : K
  sigma : K
  dt : K
  terms : List (Term K)
  tracks : List Track
  saveInt : ℕ
  batchSize : Option ℕ
  batchPartial : Bool
  batchConcat : Bool
  checkF : Bool
  aux1 : V → V := id
  aux2 : V → V := id

/-- `check_f_dims`, `pdyn.py:220-234`: one call of the objective on a sampled array (the shape test always
succeeds for the pointwise `env.f`), `num_f_eval += N`. -/
def checkFDims (env : Env K V) (s : St K V) : St K V :=
  let p : Mat V := ⟨s.M, s.N, fun i j => env.sampler s.draws i j⟩
  let q := (callF env .check id p s).2
  { q with draws := s.draws + 1, nEval := fun m => s.nEval m + s.N }

/-- `self.batch_size`, `pdyn.py:712,721-724`. -/
def batchSizeOf (b : Option ℕ) (N : ℕ) : ℕ :=
  match b with
  | none => N
  | some b => min b N

/-- `init_batch_idx`, `pdyn.py:691-739`. -/
def initBatch (env : Env K V) (a : Args K V) (s : St K V) : St K V :=
  { s with
    batchSize := batchSizeOf a.batchSize s.N
    batchPartial := a.batchPartial, batchConcat := a.batchConcat
    batched := decide (batchSizeOf a.batchSize s.N ≠ s.N)
    cIdx := Idx.all s.M s.N, pIdx := Idx.all s.M s.N
    indices := if batchSizeOf a.batchSize s.N = s.N then s.indices
               else freshIndices env s.M s.N s.perms
    perms := if batchSizeOf a.batchSize s.N = s.N then s.perms else s.perms + 1 }

/-- The attributes set by the constructor before the objective check, `pdyn.py:144-165,640-658`. -/
def baseSt (a : Args K V) : St K V :=
  { M := a.x0.rows, N := a.x0.cols, x := a.x0, xOld := none
    energy := ⟨a.x0.rows, a.x0.cols, fun _ _ => .pinf⟩
    bestE := fun _ => .pinf, bestCurE := fun _ => .pinf, fMin := fun _ => .pinf
    fMinIdx := fun _ => 0
    bestCurP := fun m => a.x0.get m 0, bestP := fun m => a.x0.get m 0
    updDiff := fun _ => .pinf, nEval := fun _ => 0, log := []
    alpha := fun _ => a.alpha, lamda := a.lamda, sigma := a.sigma, dt := a.dt, t := 0, it := 0
    active := List.range a.x0.rows, reason := fun _ => none, terms := a.terms
    cons := none, drift := none
    batchSize := 0, batched := false, batchPartial := true, batchConcat := false
    indices := ⟨0, 0, fun _ _ => 0⟩, perms := 0
    cIdx := Idx.all a.x0.rows a.x0.cols, pIdx := Idx.all a.x0.rows a.x0.cols
    saveInt := 1, trackIt := 0, tracks := [], hist := fun _ => [], draws := 0
    aux1 := a.x0.map a.aux1, aux2 := a.x0.map a.aux2 }

/-- The constructor of `CBO`, `pdyn.py:126-168`, `pdyn.py:629-658`; `x[:, 0, :]` raises for `N = 0`
(`pdyn.py:158`). -/
def init (env : Env K V) (a : Args K V) : Except Err (St K V) :=
  if a.x0.cols = 0 then .error .index
  else .ok (initBatch env a (initHistory a.tracks a.saveInt
    (if a.checkF then checkFDims env (baseSt a) else baseSt a)))

/-- Public operations a user can apply to a dynamic in any order: `step()` (`pdyn.py:294`),
`terminate()` / `select_active_runs()` (`pdyn.py:432-436`), `sched.update(dyn)` (`scheduler.py:70`),
`reset()` (`pdyn.py:931`). -/
inductive Op where
  | step | select | sched | reset
  deriving DecidableEq, Repr

/-- One operation, `pdyn.py:294-311,324-364,397-410,931-934`. -/
def exec (env : Env K V) (inner : St K V → Except Err (St K V)) :
    Op → St K V → Except Err (St K V)
  | .step, s => step env inner s
  | .select, s => selectActive env s
  | .sched, s => schedUpdate env s
  | .reset, s => .ok (reset s)

/-- A sequence of operations; stops at the first exception; the methods called are those of `exec`, `pdyn.py:294-410,931-934`. -/
def execAll (env : Env K V) (inner : St K V → Except Err (St K V)) :
    List Op → St K V → Except Err (St K V)
  | [], s => .ok s
  | o :: l, s => do
    let s ← exec env inner o s
    execAll env inner l s

end
end Verif
