import Verif.Proofs.Step

/-! Facts about whole operations (`step`, `selectActive`, `schedUpdate`, `reset`) and preservation of
well-formedness.  Helper lemmas. -/

set_option linter.unusedSectionVars false

namespace Verif

variable {K V : Type} [Zero K] [One K] [Neg K] [Add K] [Sub K] [Mul K] [Inv K] [Div K] [NatCast K] [Pow K ℕ] [LinearOrder K] [Add V] [Sub V] [SMul K V]

/-- The part of the state any modelled inner step may change. -/
def InnerFrame (inner : St K V → Except Err (St K V)) : Prop :=
  ∀ s s', inner s = .ok s' → s' = { s with
    x := s'.x, drift := s'.drift, draws := s'.draws, aux1 := s'.aux1, aux2 := s'.aux2
    nEval := s'.nEval, log := s'.log, cons := s'.cons, energy := s'.energy }

theorem consThen_split {env : Env K V} {move : St K V → Except Err (St K V)} {s s' : St K V} :
    consThen env move s = .ok s' ↔ ∃ c, computeConsensus env s = .ok c ∧ move c = .ok s' := by
  simp only [consThen, bind_ok]

theorem consThen_frame {env : Env K V} {move : St K V → Except Err (St K V)} (hm : MoveOK move) :
    InnerFrame (consThen env move) := by
  intro s s' h
  obtain ⟨c, hc, hv⟩ := consThen_split.1 h
  have h1 := computeConsensus_frame hc
  have h2 := hm.frame _ _ hv
  unfold MoveFrame at h2
  rw [h2, h1]

theorem step_split {env : Env K V} {inner : St K V → Except Err (St K V)} {s s' : St K V} :
    step env inner s = .ok s' ↔
      ∃ v, inner (preStep env s) = .ok v ∧ postStep env v = .ok s' := by
  simp only [step, bind_ok]

/-- Everything a step leaves alone or changes in a fixed way, for any inner step. -/
structure StepFrame (env : Env K V) (s s' : St K V) : Prop where
  M : s'.M = s.M
  N : s'.N = s.N
  xOld : s'.xOld = some s.x
  active : s'.active = s.active
  terms : s'.terms = s.terms
  reason : s'.reason = s.reason
  it : s'.it = s.it + 1
  t : s'.t = s.t + s.dt
  alpha : s'.alpha = s.alpha
  lamda : s'.lamda = s.lamda
  sigma : s'.sigma = s.sigma
  dt : s'.dt = s.dt
  batchSize : s'.batchSize = s.batchSize
  batched : s'.batched = s.batched
  batchPartial : s'.batchPartial = s.batchPartial
  batchConcat : s'.batchConcat = s.batchConcat
  saveInt : s'.saveInt = s.saveInt
  tracks : s'.tracks = s.tracks
  cIdx : s'.cIdx = (preStep env s).cIdx
  pIdx : s'.pIdx = (preStep env s).pIdx
  indices : s'.indices = (preStep env s).indices
  perms : s'.perms = (preStep env s).perms

theorem step_frame {env : Env K V} {inner : St K V → Except Err (St K V)} (hi : InnerFrame inner)
    {s s' : St K V} (h : step env inner s = .ok s') : StepFrame env s s' := by
  obtain ⟨v, hv, hs⟩ := step_split.1 h
  have h1 := preStep_frame env s
  have h2 := hi _ _ hv
  have h3 := (postStep_facts hs).frame
  constructor
  all_goals rw [h3]
  all_goals simp only
  all_goals rw [h2]
  all_goals simp only
  all_goals rw [h1]

/-- Summary of a step of a dynamic that first computes the consensus. -/
structure StepSum (env : Env K V) (s s' : St K V) : Prop extends StepFrame env s s' where
  xr : s'.x.rows = s.x.rows
  xc : s'.x.cols = s.x.cols
  er : s'.energy.rows = s.energy.rows
  ec : s'.energy.cols = s.energy.cols
  fresh : ∀ m n, s'.cIdx.Sel m n → s'.energy.get m n = env.f (s.x.get m n)
  stale : ∀ m n, ¬ s'.cIdx.Sel m n → s'.energy.get m n = s.energy.get m n
  fMinIdx : ∀ m, s'.fMinIdx m = Flt.rowArgmin s'.energy.cols (s'.energy.get m)
  fMin : ∀ m, s'.fMin m = Flt.rowMin s'.energy.cols (s'.energy.get m)
  bestCurE : ∀ m, s'.bestCurE m = s'.energy.get m (s'.fMinIdx m)
  bestCurP : ∀ m, s'.bestCurP m = s.x.get m (s'.fMinIdx m)
  bestE : ∀ m, s'.bestE m = if Flt.gt (s.bestE m) (s'.bestCurE m) then s'.bestCurE m else s.bestE m
  bestP : ∀ m, s'.bestP m = if Flt.gt (s.bestE m) (s'.bestCurE m) then s'.bestCurP m else s.bestP m
  log : ∃ l, s'.log = s.log ++
    ((Mat.entries s'.cIdx.run
      ⟨s'.cIdx.rows, s'.cIdx.cols, fun i j => s.x.get (s'.cIdx.run i) (s'.cIdx.par i j)⟩).map
      fun q => (Site.energy, q.1, q.2)) ++ l ∧ ∀ q ∈ l, q.1 ≠ Site.energy

theorem step_sum {env : Env K V} {move : St K V → Except Err (St K V)} (hm : MoveOK move)
    (hpost : PostOK env) {s s' : St K V} (h : step env (consThen env move) s = .ok s') :
    StepSum env s s' := by
  have hf := step_frame (consThen_frame hm) h
  obtain ⟨v, hv, hs⟩ := step_split.1 h
  obtain ⟨c, hc, hmv⟩ := consThen_split.1 hv
  have p1 := preStep_frame env s
  have cf := computeConsensus_frame hc
  have mf := hm.frame _ _ hmv
  unfold MoveFrame at mf
  have pf := postStep_facts hs
  have cc := computeConsensus_facts hc
  have ev : v.energy = c.energy := by rw [mf]
  have es : s'.energy = v.energy := by rw [pf.frame]
  have px : (preStep env s).x = s.x := by rw [p1]
  have pe : (preStep env s).energy = s.energy := by rw [p1]
  have cx : c.x = s.x := by rw [cf]; exact px
  have ci : s'.cIdx = (preStep env s).cIdx := hf.cIdx
  have vo : v.xOld = some s.x := by rw [mf]; simp only; rw [cf]; simp only; rw [p1]
  have vb : v.bestE = s.bestE := by rw [mf]; simp only; rw [cf]; simp only; rw [p1]
  have vp : v.bestP = s.bestP := by rw [mf]; simp only; rw [cf]; simp only; rw [p1]
  obtain ⟨px1, px2⟩ := hpost _ _ pf.post
  refine { toStepFrame := hf, xr := ?_, xc := ?_, er := ?_, ec := ?_, fresh := ?_, stale := ?_,
           fMinIdx := ?_, fMin := ?_, bestCurE := ?_, bestCurP := ?_, bestE := ?_, bestP := ?_,
           log := ?_ }
  · rw [px1, hm.rows _ _ hmv, cx]
  · rw [px2, hm.cols _ _ hmv, cx]
  · rw [es, ev, cc.er, pe]
  · rw [es, ev, cc.ec, pe]
  · intro m n hsel
    rw [es, ev, cc.fresh m n (ci ▸ hsel), px]
  · intro m n hsel
    rw [es, ev, cc.stale m n (ci ▸ hsel), pe]
  · intro m; rw [pf.fMinIdx, es]
  · intro m; rw [pf.fMin, es]
  · intro m; rw [pf.bestCurE, es]
  · intro m; exact pf.bestCurP m _ vo
  · intro m; rw [pf.bestE, vb]
  · intro m; rw [pf.bestP, vb, vp]
  · obtain ⟨l, hl, hl'⟩ := hm.log _ _ hmv
    refine ⟨l, ?_, hl'⟩
    have e1 : s'.log = v.log := by rw [pf.frame]
    have e2 : (preStep env s).log = s.log := by rw [p1]
    rw [e1, hl, cc.log, e2, ci, px]

theorem step_wf {env : Env K V} {move : St K V → Except Err (St K V)} (hm : MoveOK move)
    (hpost : PostOK env) (hp : PermOK env) {s s' : St K V} (hw : WF s)
    (h : step env (consThen env move) s = .ok s') : WF s' := by
  have q := step_sum hm hpost h
  refine ⟨?_, ?_, ?_, ?_, ?_, ?_, ?_, ?_⟩
  · rw [q.xr, q.M, hw.xr]
  · rw [q.xc, q.N, hw.xc]
  · rw [q.er, q.M, hw.er]
  · rw [q.ec, q.N, hw.ec]
  · rw [q.N]; exact hw.pos
  · rw [q.active, q.M]; exact hw.act
  · rw [q.batched, q.batchSize, q.N]; exact hw.unb
  · rw [q.batched, q.batchSize, q.N, q.M, q.indices]
    intro hb
    obtain ⟨h1, h2⟩ := preStep_pool env hp hw hb
    exact ⟨(hw.bat hb).1, h1, h2⟩

/-! ### selectActive -/

theorem evalTerm_frame {env : Env K V} {tm : Term K} {s : St K V} {r : (ℕ → Bool) × Term K × St K V}
    (h : evalTerm env tm s = .ok r) :
    r.2.2 = { s with nEval := r.2.2.nEval, log := r.2.2.log } := by
  unfold evalTerm at h
  split at h
  case h_7 p th l =>
    unfold evalStag at h
    simp only [callF] at h
    split at h
    · rw [pure_ok] at h; subst h; rfl
    · split_ifs at h
      rw [pure_ok] at h; subst h; rfl
  all_goals (rw [pure_ok] at h; subst h; rfl)

theorem evalTerms_frame {env : Env K V} : ∀ {l : List (Term K)} {s : St K V}
    {r : List (ℕ → Bool) × List (Term K) × St K V}, evalTerms env l s = .ok r →
    r.2.2 = { s with nEval := r.2.2.nEval, log := r.2.2.log }
  | [], s, r, h => by
    simp only [evalTerms, pure_ok] at h; subst h; rfl
  | tm :: l, s, r, h => by
    simp only [evalTerms, bind_ok, pure_ok] at h
    obtain ⟨a, ha, b, hb, rfl⟩ := h
    have h1 := evalTerm_frame ha
    have h2 := evalTerms_frame hb
    simp only
    rw [h2, h1]

/-- The part of the state `selectActive` changes. -/
theorem select_frame {env : Env K V} {s s' : St K V} (h : selectActive env s = .ok s') :
    s' = { s with nEval := s'.nEval, log := s'.log, terms := s'.terms, active := s'.active,
                  reason := s'.reason } := by
  simp only [selectActive, bind_ok, pure_ok] at h
  obtain ⟨r, hr, rfl⟩ := h
  have := evalTerms_frame hr
  simp only
  rw [this]

theorem select_active {env : Env K V} {s s' : St K V} (h : selectActive env s = .ok s') :
    ∃ bs l q, evalTerms env s.terms s = .ok (bs, l, q) ∧ s'.terms = l ∧
      s'.active = (List.range s.M).filter (fun m => bs.all fun b => !b m) ∧
      s'.reason = fun m =>
        if m < s.M ∧ bs.any (fun b => b m) = true then some (firing bs m) else s.reason m := by
  simp only [selectActive, bind_ok, pure_ok] at h
  obtain ⟨⟨bs, l, q⟩, hr, rfl⟩ := h
  have hM := evalTerms_frame hr
  simp only at hM
  refine ⟨bs, l, q, hr, rfl, ?_, ?_⟩
  · simp only; rw [hM]
  · simp only; rw [hM]

theorem select_wf {env : Env K V} {s s' : St K V} (hw : WF s) (h : selectActive env s = .ok s') :
    WF s' := by
  have hf := select_frame h
  obtain ⟨bs, l, q, _, _, ha, _⟩ := select_active h
  have hs : s'.active.Sublist (List.range s.M) := by rw [ha]; exact List.filter_sublist
  rw [hf]
  exact ⟨hw.xr, hw.xc, hw.er, hw.ec, hw.pos, hs, hw.unb, hw.bat⟩

theorem sched_frame {env : Env K V} {s s' : St K V} (h : schedUpdate env s = .ok s') :
    s' = { s with alpha := s'.alpha, lamda := s'.lamda, sigma := s'.sigma, dt := s'.dt } := by
  simp only [schedUpdate, bind_ok, pure_ok] at h
  obtain ⟨p, _, rfl⟩ := h
  rfl

theorem sched_wf {env : Env K V} {s s' : St K V} (hw : WF s) (h : schedUpdate env s = .ok s') :
    WF s' := by
  rw [sched_frame h]
  exact ⟨hw.xr, hw.xc, hw.er, hw.ec, hw.pos, hw.act, hw.unb, hw.bat⟩

theorem reset_wf {s : St K V} (hw : WF s) : WF (reset s) :=
  ⟨hw.xr, hw.xc, hw.er, hw.ec, hw.pos, hw.act, hw.unb, hw.bat⟩

/-! ### init -/

theorem init_wf {env : Env K V} (hp : PermOK env) {a : Args K V} {s : St K V}
    (h : init env a = .ok s) : WF s := by
  unfold init at h
  split_ifs at h with h0 hc
  all_goals
    injection h with h
    subst h
    refine ⟨rfl, rfl, rfl, rfl, Nat.pos_of_ne_zero h0, List.Sublist.refl _, fun hb => ?_,
      fun hb => ?_⟩
    · simpa [initBatch] using hb
    · have hne : batchSizeOf a.batchSize a.x0.cols ≠ a.x0.cols :=
        of_decide_eq_true (p := batchSizeOf a.batchSize a.x0.cols ≠ a.x0.cols) hb
      have hle : batchSizeOf a.batchSize a.x0.cols ≤ a.x0.cols := by
        unfold batchSizeOf; split <;> omega
      have hlt : batchSizeOf a.batchSize a.x0.cols < a.x0.cols := by omega
      refine ⟨hlt, ?_, ?_⟩
      · simp [initBatch, initHistory, checkFDims, callF, baseSt, hne, freshIndices]
      · simp only [initBatch, initHistory, checkFDims, callF, baseSt, hne, freshIndices, if_false]
        exact fun i _ j hj => hp _ _ _ _ hj

/-- Operation sequences preserve well-formedness. -/
theorem exec_wf {env : Env K V} {move : St K V → Except Err (St K V)} (hm : MoveOK move)
    (hpost : PostOK env) (hp : PermOK env) {o : Op} {s s' : St K V} (hw : WF s)
    (h : exec env (consThen env move) o s = .ok s') : WF s' := by
  cases o with
  | step => exact step_wf hm hpost hp hw h
  | select => exact select_wf hw h
  | sched => exact sched_wf hw h
  | reset =>
    simp only [exec] at h
    injection h with h
    subst h
    exact reset_wf hw

/-- Induction principle over operation sequences: a property of well-formed states that every operation
preserves holds after every sequence of operations. -/
theorem execAll_induct {env : Env K V} {move : St K V → Except Err (St K V)} (hm : MoveOK move)
    (hpost : PostOK env) (hp : PermOK env) {P : St K V → Prop}
    (hstep : ∀ o s s', WF s → P s → exec env (consThen env move) o s = .ok s' → P s') :
    ∀ (l : List Op) (s s' : St K V), WF s → P s →
      execAll env (consThen env move) l s = .ok s' → WF s' ∧ P s'
  | [], s, s', hw, hP, h => by
    simp only [execAll] at h
    injection h with h
    subst h
    exact ⟨hw, hP⟩
  | o :: l, s, s', hw, hP, h => by
    simp only [execAll, bind_ok] at h
    obtain ⟨q, hq, hl⟩ := h
    exact execAll_induct hm hpost hp hstep l q s' (exec_wf hm hpost hp hw hq)
      (hstep o s q hw hP hq) hl

/-! ### optimize as a sequence of operations -/

/-- A completed `optimize` is a sequence of select / step / sched operations ending in a select that
leaves no active run. -/
theorem optimize_done {env : Env K V} {inner : St K V → Except Err (St K V)} :
    ∀ {fuel : ℕ} {s s' : St K V}, optimize env inner fuel s = .done s' →
      s'.active.length = 0 ∧ ∃ q, selectActive env q = .ok s' ∧
        ∃ k, execAll env inner (List.flatten (List.replicate k [.select, .step, .sched])) s = .ok q
  | 0, s, s', h => by simp [optimize] at h
  | fuel + 1, s, s', h => by
    simp only [optimize] at h
    cases h1 : selectActive env s with
    | error e => simp [h1] at h
    | ok a =>
      simp only [h1] at h
      split_ifs at h with ha
      · injection h with h
        subst h
        exact ⟨ha, s, h1, 0, rfl⟩
      · cases h2 : step env inner a with
        | error e => simp [h2] at h
        | ok b =>
          simp only [h2] at h
          cases h3 : schedUpdate env b with
          | error e => simp [h3] at h
          | ok c =>
            simp only [h3] at h
            obtain ⟨e1, q, e2, k, e3⟩ := optimize_done h
            refine ⟨e1, q, e2, k + 1, ?_⟩
            simp only [List.replicate_succ, List.flatten_cons, List.cons_append, List.nil_append,
              execAll, exec, bind_ok]
            exact ⟨a, h1, b, h2, c, h3, e3⟩

/-! ### The CBO move meets the contract -/

theorem correction_facts {env : Env K V} {d : Mat V} {s : St K V} {r : Mat V × St K V}
    (h : correction env d s = .ok r) :
    r.2 = { s with nEval := r.2.nEval, log := r.2.log } ∧
      ∃ l, r.2.log = s.log ++ l ∧ ∀ q ∈ l, q.1 ≠ Site.energy := by
  unfold correction at h
  split at h
  · rw [pure_ok] at h; subst h; exact ⟨rfl, [], by simp⟩
  · simp only [bind_ok, pure_ok] at h
    obtain ⟨_, _, rfl⟩ := h
    exact ⟨rfl, [], by simp⟩
  · split at h
    · simp at h
    · simp only [bind_ok, pure_ok, callF] at h
      obtain ⟨_, _, _, _, rfl⟩ := h
      refine ⟨rfl, _, rfl, ?_⟩
      intro q hq
      simp only [List.mem_map] at hq
      obtain ⟨a, _, rfl⟩ := hq
      simp

theorem cboMove_ok (env : Env K V) : MoveOK (cboMove env) := by
  have key : ∀ s s', cboMove env s = .ok s' → MoveFrame s s' ∧
      (s'.x.rows = s.x.rows ∧ s'.x.cols = s.x.cols) ∧
      ∃ l, s'.log = s.log ++ l ∧ ∀ q ∈ l, q.1 ≠ Site.energy := by
    intro s s' h
    unfold cboMove at h
    split at h
    · simp at h
    · simp only [bind_ok, pure_ok] at h
      obtain ⟨xp, _, d, _, ⟨d', s1⟩, hc, n, _, u, _, x, hx, rfl⟩ := h
      obtain ⟨h1, l, h2, h3⟩ := correction_facts hc
      simp only at h1 h2
      obtain ⟨-, e1, e2, -⟩ := Mat.scatterAdd_ok hx
      have ex : s1.x = s.x := by rw [h1]
      refine ⟨?_, ⟨by simp only [e1, ex], by simp only [e2, ex]⟩, l, h2, h3⟩
      unfold MoveFrame
      simp only
      rw [h1]
  exact ⟨fun s s' h => (key s s' h).1, fun s s' h => (key s s' h).2.1.1,
    fun s s' h => (key s s' h).2.1.2, fun s s' h => (key s s' h).2.2⟩

end Verif
