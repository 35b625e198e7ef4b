import Verif.Model.Dyn
import Verif.Proofs.Np

/-! What one step of a consensus dynamic does, as a collection of facts. Helper lemmas. -/

set_option linter.unusedSectionVars false

namespace Verif

variable {K V : Type} [Zero K] [One K] [Neg K] [Add K] [Sub K] [Mul K] [Inv K] [Div K] [NatCast K] [Pow K ℕ] [LinearOrder K] [Add V] [Sub V] [SMul K V]

/-- An inner step that first computes the consensus and then moves the particles. -/
def consThen (env : Env K V) (move : St K V → Except Err (St K V)) (s : St K V) :
    Except Err (St K V) := do
  let s ← computeConsensus env s
  move s

/-- `cboInner` has this shape. -/
theorem cboInner_eq (env : Env K V) : cboInner env = consThen env (cboMove env) := rfl

/-- The part of the state a move may change. -/
def MoveFrame (s s' : St K V) : Prop :=
  s' = { s with
    x := s'.x, drift := s'.drift, draws := s'.draws, aux1 := s'.aux1, aux2 := s'.aux2
    nEval := s'.nEval, log := s'.log }

/-- What is assumed of a move in the general theorems; shown for the built-in dynamics. -/
structure MoveOK (move : St K V → Except Err (St K V)) : Prop where
  frame : ∀ s s', move s = .ok s' → MoveFrame s s'
  rows : ∀ s s', move s = .ok s' → s'.x.rows = s.x.rows
  cols : ∀ s s', move s = .ok s' → s'.x.cols = s.x.cols
  log : ∀ s s', move s = .ok s' → ∃ l, s'.log = s.log ++ l ∧ ∀ q ∈ l, q.1 ≠ Site.energy

/-- Post processing keeps the shape of `x`. -/
def PostOK (env : Env K V) : Prop :=
  ∀ s x', env.post s = .ok x' → x'.rows = s.x.rows ∧ x'.cols = s.x.cols

/-- The RNG's `permuted` returns values in range. -/
def PermOK (env : Env K V) : Prop := ∀ N c m j, j < N → env.perm N c m j < N

/-- Well-formedness of the state between operations. -/
structure WF (s : St K V) : Prop where
  xr : s.x.rows = s.M
  xc : s.x.cols = s.N
  er : s.energy.rows = s.M
  ec : s.energy.cols = s.N
  pos : 0 < s.N
  act : s.active.Sublist (List.range s.M)
  unb : s.batched = false → s.batchSize = s.N
  bat : s.batched = true → s.batchSize < s.N ∧ s.indices.rows = s.M ∧
    ∀ i < s.M, ∀ j < s.indices.cols, s.indices.get i j < s.N

theorem WF.act_lt {s : St K V} (h : WF s) {m : ℕ} (hm : m ∈ s.active) : m < s.M :=
  List.mem_range.1 (h.act.subset hm)

theorem WF.nodup {s : St K V} (h : WF s) : s.active.Nodup :=
  h.act.nodup List.nodup_range

theorem WF.act_full {s : St K V} (h : WF s) (hl : s.active.length = s.M) :
    s.active = List.range s.M :=
  h.act.eq_of_length (by simpa using hl)

/-! ### preStep -/

/-- The part of the state `preStep` changes. -/
theorem preStep_frame (env : Env K V) (s : St K V) :
    preStep env s = { s with
      xOld := some s.x, cIdx := (preStep env s).cIdx, pIdx := (preStep env s).pIdx
      indices := (preStep env s).indices, perms := (preStep env s).perms } := by
  unfold preStep setBatch setBatchBatched setBatchUnbatched refill
  simp only
  split_ifs <;> rfl

/-- The pool after a possible refill. -/
theorem refill_facts (env : Env K V) (hp : PermOK env) {s : St K V} (h : WF s)
    (hb : s.batched = true) :
    let r := refill env s
    r.batchSize ≤ r.indices.cols ∧ r.indices.rows = s.M ∧
      ∀ i < s.M, ∀ j < r.indices.cols, r.indices.get i j < s.N := by
  obtain ⟨h1, h2, h3⟩ := h.bat hb
  unfold refill
  simp only
  split_ifs with hc hcc
  · refine ⟨?_, h2, ?_⟩
    · simp only [Mat.concatCols, freshIndices]; omega
    · intro i hi j hj
      simp only [Mat.concatCols, freshIndices] at hj ⊢
      split_ifs with hj'
      · exact h3 i hi j hj'
      · exact hp _ _ _ _ (by omega)
  · refine ⟨?_, rfl, ?_⟩
    · simp only [freshIndices]; omega
    · intro i _ j hj
      exact hp _ _ _ _ hj
  · exact ⟨by omega, h2, h3⟩

/-- The index selected for evaluation and the one selected for moving. -/
structure IdxFacts (s p : St K V) : Prop where
  cRows : p.cIdx.rows = s.active.length
  cRun : ∀ i < s.active.length, p.cIdx.run i = s.active.getD i 0
  cCols : p.cIdx.cols = s.batchSize
  cIn : p.cIdx.InBounds s.M s.N
  pRows : p.pIdx.rows = s.active.length
  pRun : ∀ i < s.active.length, p.pIdx.run i = s.active.getD i 0
  pIn : p.pIdx.InBounds s.M s.N
  pCols : p.pIdx.cols = s.N ∨ p.pIdx = p.cIdx

theorem getD_mem {l : List ℕ} {i : ℕ} (h : i < l.length) : l.getD i 0 ∈ l := by
  have : l.getD i 0 = l[i] := by simp [List.getD, h]
  rw [this]
  exact List.getElem_mem h

theorem range_getD {M i : ℕ} (h : i < M) : (List.range M).getD i 0 = i := by
  simp [List.getD, h]

theorem setBatch_idx (env : Env K V) (hp : PermOK env) {s : St K V} (h : WF s) :
    IdxFacts s (setBatch env s) := by
  unfold setBatch
  by_cases hb : s.batched = true
  · rw [if_pos hb]
    obtain ⟨r1, r2, r3⟩ := refill_facts env hp h hb
    have ha : (refill env s).active = s.active := by unfold refill; split_ifs <;> rfl
    have hB : (refill env s).batchSize = s.batchSize := by unfold refill; split_ifs <;> rfl
    have hN : (refill env s).N = s.N := by unfold refill; split_ifs <;> rfl
    have cIn : (setBatchBatched env s).cIdx.InBounds s.M s.N := by
      intro i hi j hj
      simp only [setBatchBatched, Idx.ofBatch] at hi hj ⊢
      rw [ha] at hi ⊢
      have := h.act_lt (getD_mem hi)
      exact ⟨this, r3 _ this j (by omega)⟩
    refine ⟨?_, ?_, ?_, cIn, ?_, ?_, ?_, ?_⟩
    · simp [setBatchBatched, Idx.ofBatch, ha]
    · intro i _; simp [setBatchBatched, Idx.ofBatch, ha]
    · simp only [setBatchBatched, Idx.ofBatch]; omega
    · simp only [setBatchBatched]; split_ifs <;> simp [Idx.ofBatch, Idx.ofRuns, ha]
    · intro i _
      simp only [setBatchBatched]; split_ifs <;> simp [Idx.ofBatch, Idx.ofRuns, ha]
    · have : (setBatchBatched env s).pIdx =
          if (refill env s).batchPartial then (setBatchBatched env s).cIdx
          else Idx.ofRuns (refill env s).active (refill env s).N := rfl
      rw [this]
      split_ifs
      · exact cIn
      · intro i hi j hj
        simp only [Idx.ofRuns] at hi hj ⊢
        rw [ha] at hi ⊢
        exact ⟨h.act_lt (getD_mem hi), by omega⟩
    · have : (setBatchBatched env s).pIdx =
          if (refill env s).batchPartial then (setBatchBatched env s).cIdx
          else Idx.ofRuns (refill env s).active (refill env s).N := rfl
      rw [this]
      split_ifs
      · right; rfl
      · left; exact hN
  · rw [if_neg hb]
    have hB := h.unb (by simpa using hb)
    by_cases hl : s.active.length = s.M
    · have ha := h.act_full hl
      have e : (setBatchUnbatched s).cIdx = Idx.all s.M s.N := by
        simp [setBatchUnbatched, hl]
      have e' : (setBatchUnbatched s).pIdx = Idx.all s.M s.N := by
        simp [setBatchUnbatched, hl]
      have hin : (Idx.all s.M s.N).InBounds s.M s.N := fun i hi j hj => ⟨hi, hj⟩
      refine ⟨?_, ?_, ?_, ?_, ?_, ?_, ?_, ?_⟩
      · rw [e, hl]; rfl
      · intro i hi; rw [e, ha, range_getD (by omega)]; rfl
      · rw [e, hB]; rfl
      · rw [e]; exact hin
      · rw [e', hl]; rfl
      · intro i hi; rw [e', ha, range_getD (by omega)]; rfl
      · rw [e']; exact hin
      · left; rw [e']; rfl
    · have e : (setBatchUnbatched s).cIdx = Idx.ofRuns s.active s.N := by
        simp [setBatchUnbatched, hl]
      have e' : (setBatchUnbatched s).pIdx = Idx.ofRuns s.active s.N := by
        simp [setBatchUnbatched, hl]
      have hin : (Idx.ofRuns s.active s.N).InBounds s.M s.N :=
        fun i hi j hj => ⟨h.act_lt (getD_mem hi), hj⟩
      refine ⟨?_, ?_, ?_, ?_, ?_, ?_, ?_, ?_⟩
      · rw [e]; rfl
      · intro i _; rw [e]; rfl
      · rw [e, hB]; rfl
      · rw [e]; exact hin
      · rw [e']; rfl
      · intro i _; rw [e']; rfl
      · rw [e']; exact hin
      · left; rw [e']; rfl

theorem preStep_idx (env : Env K V) (hp : PermOK env) {s : St K V} (h : WF s) :
    IdxFacts s (preStep env s) := by
  have h' : WF { s with xOld := some s.x } := ⟨h.xr, h.xc, h.er, h.ec, h.pos, h.act, h.unb, h.bat⟩
  have := setBatch_idx env hp h'
  exact ⟨this.1, this.2, this.3, this.4, this.5, this.6, this.7, this.8⟩

/-- The pool after `preStep` is still in range. -/
theorem preStep_pool (env : Env K V) (hp : PermOK env) {s : St K V} (h : WF s)
    (hb : s.batched = true) :
    (preStep env s).indices.rows = s.M ∧
      ∀ i < s.M, ∀ j < (preStep env s).indices.cols, (preStep env s).indices.get i j < s.N := by
  have h' : WF { s with xOld := some s.x } := ⟨h.xr, h.xc, h.er, h.ec, h.pos, h.act, h.unb, h.bat⟩
  obtain ⟨r1, r2, r3⟩ := refill_facts env hp h' hb
  have e : (preStep env s).indices =
      (refill env { s with xOld := some s.x }).indices.dropCols
        (refill env { s with xOld := some s.x }).batchSize := by
    unfold preStep setBatch
    rw [if_pos hb]
    rfl
  rw [e]
  refine ⟨r2, fun i hi j hj => ?_⟩
  simp only [Mat.dropCols] at hj ⊢
  exact r3 i hi _ (by omega)

/-! ### computeConsensus -/

/-- The part of the state `computeConsensus` changes. -/
theorem computeConsensus_frame {env : Env K V} {s s' : St K V}
    (h : computeConsensus env s = .ok s') :
    s' = { s with
      cons := s'.cons, energy := s'.energy, nEval := s'.nEval, log := s'.log } := by
  simp only [computeConsensus, bind_ok, pure_ok, evalF, callF] at h
  obtain ⟨xb, _, _, _, w, _, wx, _, en, _, rfl⟩ := h
  rfl

/-- What `computeConsensus` does. -/
structure ConsFacts (env : Env K V) (s s' : St K V) : Prop where
  er : s'.energy.rows = s.energy.rows
  ec : s'.energy.cols = s.energy.cols
  cIn : s.cIdx.InBounds s.x.rows s.x.cols
  fresh : ∀ m n, s.cIdx.Sel m n → s'.energy.get m n = env.f (s.x.get m n)
  stale : ∀ m n, ¬ s.cIdx.Sel m n → s'.energy.get m n = s.energy.get m n
  nEval : s'.nEval = fun m => if m ∈ s.active then s.nEval m + s.cIdx.cols else s.nEval m
  log : s'.log = s.log ++
    ((Mat.entries s.cIdx.run ⟨s.cIdx.rows, s.cIdx.cols, fun i j => s.x.get (s.cIdx.run i) (s.cIdx.par i j)⟩).map
      fun q => (Site.energy, q.1, q.2))
  cons : ∃ c, s'.cons = some c ∧ (c.rows = s.cIdx.rows ∨ c.rows = s.active.length)

theorem computeConsensus_facts {env : Env K V} {s s' : St K V}
    (h : computeConsensus env s = .ok s') : ConsFacts env s s' := by
  simp only [computeConsensus, bind_ok, pure_ok, evalF, callF] at h
  obtain ⟨xb, hxb, _, _, w, hw, wx, hwx, en, hen, rfl⟩ := h
  obtain ⟨hin, hr, hc, hg⟩ := Mat.gather_ok hxb
  obtain ⟨-, e1, e2, e3, e4, -, -⟩ := Mat.scatter_ok hen
  have hxb' : xb = ⟨s.cIdx.rows, s.cIdx.cols, fun i j => s.x.get (s.cIdx.run i) (s.cIdx.par i j)⟩ := by
    cases xb
    simp only at hr hc hg
    subst hr hc
    congr
    funext i j
    exact hg i j
  refine ⟨e1, e2, hin, ?_, e3, ?_, ?_, ?_⟩
  · intro m n hs
    obtain ⟨i, hi, j, hj, r1, r2, r3⟩ := e4 m n hs
    simp only at r3 ⊢
    rw [r3]
    simp only [Mat.map]
    rw [Mat.bpos_lt (by omega), Mat.bpos_lt (by omega), hg, r1, r2]
  · simp only [hc]
  · simp only [hxb']
  · refine ⟨_, rfl, ?_⟩
    obtain ⟨b1, -, -⟩ := Mat.bin_ok hwx
    obtain ⟨b2, -, -⟩ := Mat.bin_ok hw
    have : (Cons.apply env.cons wx).rows = wx.rows := by
      unfold Cons.apply; split <;> rfl
    rw [this]
    simp only [alphaActive, Mat.map] at b2
    obtain ⟨c1, c2⟩ := Mat.bdim_eq_some b1
    obtain ⟨c3, c4⟩ := Mat.bdim_eq_some b2
    rw [hr] at c2 c4
    unfold Mat.bdim at b1 b2
    split_ifs at b1 b2 <;> simp_all

/-! ### postStep -/

/-- What `postStep` does, given the state before it. -/
structure PostFacts (env : Env K V) (s s' : St K V) : Prop where
  frame : s' = { s with
    x := s'.x, updDiff := s'.updDiff, fMin := s'.fMin, fMinIdx := s'.fMinIdx, bestCurP := s'.bestCurP
    bestCurE := s'.bestCurE, bestE := s'.bestE, bestP := s'.bestP, hist := s'.hist
    trackIt := s'.trackIt, t := s.t + s.dt, it := s.it + 1 }
  post : env.post s = .ok s'.x
  ecols : s.energy.cols ≠ 0
  fMinIdx : ∀ m, s'.fMinIdx m = Flt.rowArgmin s.energy.cols (s.energy.get m)
  fMin : ∀ m, s'.fMin m = Flt.rowMin s.energy.cols (s.energy.get m)
  bestCurE : ∀ m, s'.bestCurE m = s.energy.get m (s'.fMinIdx m)
  bestCurP : ∀ m o, s.xOld = some o → s'.bestCurP m = o.get m (s'.fMinIdx m)
  bestE : ∀ m, s'.bestE m = if Flt.gt (s.bestE m) (s'.bestCurE m) then s'.bestCurE m else s.bestE m
  bestP : ∀ m, s'.bestP m = if Flt.gt (s.bestE m) (s'.bestCurE m) then s'.bestCurP m else s.bestP m
  updDiff : ∀ o, s.xOld = some o → ∃ p, Mat.bin (fun a b => (a, b)) s'.x o = .ok p ∧
    s'.updDiff = fun m => env.normDiff (p.row m)
  saveInt : s.saveInt ≠ 0
  hist : ∃ q : St K V, q = { s' with hist := s.hist, trackIt := s.trackIt, t := s.t, it := s.it } ∧
    s'.hist = (if s.it % s.saveInt = 0 then applyTracks q s.tracks s.hist else s.hist)
  trackIt : s'.trackIt = if s.it % s.saveInt = 0 then s.trackIt + 1 else s.trackIt

theorem postStep_facts {env : Env K V} {s s' : St K V} (h : postStep env s = .ok s') :
    PostFacts env s s' := by
  simp only [postStep, bind_ok] at h
  obtain ⟨x, hx, s1, h1, s2, h2, s3, h3, h4⟩ := h
  rw [pure_ok] at h4
  unfold updateBestCur at h2
  split_ifs at h2 with hc
  rw [pure_ok] at h2
  unfold track at h3
  split_ifs at h3 with hs hm
  · rw [pure_ok] at h3
    unfold updateDiff at h1
    simp only at h1
    cases ho : s.xOld with
    | none =>
      rw [ho] at h1
      simp only [pure_ok] at h1
      subst h1 h2 h3 h4
      simp only [updateBest] at hm hs hc
      refine ⟨?_, hx, hc, fun _ => rfl, fun _ => rfl, fun _ => rfl, ?_, fun _ => rfl, fun _ => rfl,
        ?_, hs, ⟨_, rfl, ?_⟩, ?_⟩
      · simp [updateBest, ho]
      · intro m o h; rw [ho] at h; cases h
      · intro o h; rw [ho] at h; cases h
      · simp [updateBest, hm]
      · simp [updateBest, hm]
    | some o =>
      rw [ho] at h1
      simp only [bind_ok, pure_ok] at h1
      obtain ⟨p, hp, h1⟩ := h1
      subst h1 h2 h3 h4
      simp only [updateBest] at hm hs hc
      refine ⟨?_, hx, hc, fun _ => rfl, fun _ => rfl, fun _ => rfl, ?_, fun _ => rfl, fun _ => rfl,
        ?_, hs, ⟨_, rfl, ?_⟩, ?_⟩
      · simp [updateBest, ho]
      · intro m o' h; rw [ho] at h; cases h; simp [updateBest]
      · intro o' h; rw [ho] at h; cases h; exact ⟨p, hp, rfl⟩
      · simp [updateBest, hm]
      · simp [updateBest, hm]
  · rw [pure_ok] at h3
    unfold updateDiff at h1
    simp only at h1
    cases ho : s.xOld with
    | none =>
      rw [ho] at h1
      simp only [pure_ok] at h1
      subst h1 h2 h3 h4
      simp only [updateBest] at hm hs hc
      refine ⟨?_, hx, hc, fun _ => rfl, fun _ => rfl, fun _ => rfl, ?_, fun _ => rfl, fun _ => rfl,
        ?_, hs, ⟨_, rfl, ?_⟩, ?_⟩
      · simp [updateBest, ho]
      · intro m o h; rw [ho] at h; cases h
      · intro o h; rw [ho] at h; cases h
      · simp [updateBest, hm]
      · simp [updateBest, hm]
    | some o =>
      rw [ho] at h1
      simp only [bind_ok, pure_ok] at h1
      obtain ⟨p, hp, h1⟩ := h1
      subst h1 h2 h3 h4
      simp only [updateBest] at hm hs hc
      refine ⟨?_, hx, hc, fun _ => rfl, fun _ => rfl, fun _ => rfl, ?_, fun _ => rfl, fun _ => rfl,
        ?_, hs, ⟨_, rfl, ?_⟩, ?_⟩
      · simp [updateBest, ho]
      · intro m o' h; rw [ho] at h; cases h; simp [updateBest]
      · intro o' h; rw [ho] at h; cases h; exact ⟨p, hp, rfl⟩
      · simp [updateBest, hm]
      · simp [updateBest, hm]

end Verif
