import Verif.Model.Dyn
import Mathlib.Data.Finset.Sort

/-!
# Resampling: `cbx/utils/resampling.py`

`dyn` is the state `St` of the machine. The criteria keep their own state, so each of them is a function from its state and `dyn` to the
selected runs and its new state.
-/

namespace Verif

variable {K V : Type} [Zero K] [One K] [Neg K] [Add K] [Sub K] [Mul K] [Inv K] [Div K] [NatCast K] [Pow K ℕ] [LinearOrder K] [Add V] [Sub V] [SMul K V]

/-- `np.unique` of a list of indices: increasing, without repetitions, `resampling.py:53`. -/
def npUnique (l : List ℕ) : List ℕ := l.toFinset.sort (· ≤ ·)

/-- `apply_resampling_default`, `resampling.py:4-6`: `z` is drawn by the sampler with shape `(len(idx), N, ...)`. `var_name='x'`. -/
def applyResampling (env : Env K V) (sigmaIndep : K) (idx : List ℕ) (s : St K V) : Except Err (St K V) := do
  let z : Mat V := ⟨idx.length, s.N, fun i j => (sigmaIndep * env.sqrtK s.dt) • env.sampler s.draws i j⟩
  let x ← s.x.scatterAdd (Idx.ofRuns idx s.N) z
  pure { s with x := x, draws := s.draws + 1 }

/-- State of a `resampling` object, `resampling.py:32-37,62-64,71-74`: the counter array (`none` before the first call) and
`best_consensus`, `best_consensus_energy` (`none` before they are set). -/
structure ResSt (K V : Type) where
  num : Option (ℕ → ℕ)
  best : Option (Mat V × Mat (Flt K))

/-- `self.num_resampling[idx] += 1`, `resampling.py:56`, with `check_num_resamplings` (`resampling.py:62-64`). -/
def bumpNum (M : ℕ) (num : Option (ℕ → ℕ)) (idx : List ℕ) : Except Err (ℕ → ℕ) :=
  if ∀ i ∈ idx, i < M then .ok fun m => if m ∈ idx then (num.getD fun _ => 0) m + 1 else (num.getD fun _ => 0) m
  else .error .index

/-- `_track_best_consensus`, `resampling.py:66-82`, when it is switched on. `dyn.consensus` is `None` before the first step
(`TypeError`). `np.where(...)[0]` lists the rows with a smaller energy; the energies have one column. -/
def trackConsensus (env : Env K V) (idx : List ℕ) (s : St K V) (best : Option (Mat V × Mat (Flt K))) :
    Except Err (St K V × (Mat V × Mat (Flt K))) :=
  match s.cons with
  | none => .error .type
  | some c => do
    let p ← c.gather (Idx.ofRuns idx c.cols)
    let (e, s) := evalF env (fun i => idx.getD i 0) p s
    match best with
    | none =>
      let be ← (⟨s.M, 1, fun _ _ => .pinf⟩ : Mat (Flt K)).scatter (Idx.ofRuns idx 1) e
      pure (s, c, be)
    | some (bc, be) => do
      let old ← be.gather (Idx.ofRuns idx be.cols)
      let lt ← Mat.bin (fun a b => Flt.lt a b) e old
      let rows := (List.range lt.rows).flatMap fun i => ((List.range lt.cols).filter fun j => lt.get i j).map fun _ => i
      let sel := rows.map fun i => idx.getD i 0
      let src ← c.gather (Idx.ofRuns sel c.cols)
      let bc ← bc.scatter (Idx.ofRuns sel bc.cols) src
      let se ← e.gather (Idx.ofRuns rows e.cols)
      let be ← be.scatter (Idx.ofRuns sel be.cols) se
      pure (s, bc, be)

/-- `resampling.__call__`, `resampling.py:39-61`, on the outputs `sels` of the criteria: `np.concatenate` of an empty list raises. -/
def resample (env : Env K V) (sigmaIndep : K) (trackBest : Bool) (sels : List (List ℕ)) (r : ResSt K V) (s : St K V) :
    Except Err (ResSt K V × St K V) :=
  if sels = [] then .error .value
  else
    let num := r.num.getD fun _ => 0
    let idx := npUnique sels.flatten
    if idx = [] then .ok ({ r with num := some num }, s)
    else do
      let s ← applyResampling env sigmaIndep idx s
      let num ← bumpNum s.M (some num) idx
      if trackBest then
        let (s, b) ← trackConsensus env idx s r.best
        pure (⟨some num, some b⟩, s)
      else pure (⟨some num, r.best⟩, s)

/-- `ensemble_update_resampling.__call__`, `resampling.py:102-103`. -/
def ensembleUpdate (thresh : Flt K) (s : St K V) : List ℕ := (List.range s.M).filter fun m => Flt.lt (s.updDiff m) thresh

/-- State of `consensus_stagnation`, `resampling.py:107-111,139-141`: the recorded differences and `consensus_old`. -/
structure StagSt (K V : Type) where
  updates : List (ℕ → Flt K)
  old : Option (Mat V)

/-- `consensus_updates[-patience:]`, `resampling.py:131`: `[-0:]` is the whole list. -/
def lastK {α : Type} (k : ℕ) (l : List α) : List α := if k = 0 then l else l.drop (l.length - k)

/-- `np.array(updates).max(axis=0)`, `resampling.py:132`. -/
def maxUpdates (l : List (ℕ → Flt K)) (m : ℕ) : Flt K :=
  match l with
  | [] => .ninf
  | u :: l => l.foldl (fun a v => Flt.maximum a (v m)) (u m)

/-- `set_consensus_old`, `resampling.py:139-141`: zeros of the shape of `x[:, 0:1]`, filled with the consensus of the active runs. -/
def setConsensusOld [Zero V] (s : St K V) (c : Mat V) : Except Err (Mat V) :=
  (⟨s.M, 1, fun _ _ => 0⟩ : Mat V).scatter (Idx.ofRuns s.active 1) c

/-- `consensus_stagnation.__call__`, `resampling.py:114-137`: `nd` is the norm of the difference of two consensus points. Returns the selected runs.
`wt` is infinite for stopped runs and before the second call. -/
def consensusStagnation [Zero V] (nd : V → V → Flt K) (patience : ℕ) (thresh : Flt K) (q : StagSt K V) (s : St K V) :
    Except Err (List ℕ × StagSt K V) :=
  match s.cons with
  | none => .error .type
  | some c =>
    let base : ℕ → Flt K := fun m => if m ∈ s.active then .fin 0 else .pinf
    match q.old with
    | none => do
      let o ← setConsensusOld s c
      pure ((List.range s.M).filter fun m => Flt.lt (Flt.add (base m) .pinf) thresh, ⟨q.updates, some o⟩)
    | some old => do
      let og ← old.gather (Idx.ofRuns s.active old.cols)
      let df ← Mat.bin nd c og
      let col : Mat (Flt K) := ⟨df.rows, 1, fun i _ => df.get i 0⟩
      let diffs ← (⟨s.M, 1, fun _ _ => .fin 0⟩ : Mat (Flt K)).scatter (Idx.ofRuns s.active 1) col
      let ups := lastK patience (q.updates ++ [fun m => diffs.get m 0])
      let o ← setConsensusOld s c
      pure ((List.range s.M).filter fun m => Flt.lt (Flt.add (base m) (maxUpdates ups m)) thresh, ⟨ups, some o⟩)

/-- State of `loss_update_resampling`, `resampling.py:176-180`; `none` before the first call. -/
structure LossSt (K : Type) where
  best : ℕ → Flt K
  wait : ℕ → ℕ

/-- `loss_update_resampling.__call__`, `resampling.py:166-174`. `np.mod` by zero is zero. -/
def lossUpdate (thresh : ℕ) (q : Option (LossSt K)) (s : St K V) : List ℕ × LossSt K :=
  let q := q.getD ⟨fun _ => .pinf, fun _ => 0⟩
  let u : ℕ → Bool := fun m => Flt.gt (q.best m) (s.bestE m)
  let wait : ℕ → ℕ := fun m => if u m then 0 else q.wait m + 1
  let best : ℕ → Flt K := fun m => if u m then s.bestE m else q.best m
  let idx := (List.range s.M).filter fun m => decide (thresh ≤ wait m)
  (idx, ⟨best, fun m => if thresh = 0 then 0 else wait m % thresh⟩)

end Verif
