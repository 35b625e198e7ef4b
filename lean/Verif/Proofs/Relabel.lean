import Verif.Spec.Relabel
import Verif.Proofs.Sim

/-! Renumbering the particles: helper lemmas for C104. -/

set_option linter.unusedSectionVars false

namespace Verif

variable {K V : Type} [Zero K] [One K] [Neg K] [Add K] [Sub K] [Mul K] [Inv K] [Div K] [NatCast K] [Pow K ℕ] [LinearOrder K] [Add V] [Sub V] [SMul K V]

theorem Renumbers.lt {π : ℕ → ℕ} {N : ℕ} (h : Renumbers π N) {n : ℕ} (hn : n < N) : π n < N :=
  List.mem_range.1 (h.subset (List.mem_map.2 ⟨n, List.mem_range.2 hn, rfl⟩))

theorem Renumbers.surj {π : ℕ → ℕ} {N : ℕ} (h : Renumbers π N) {n : ℕ} (hn : n < N) : ∃ k < N, π k = n := by
  obtain ⟨k, hk, e⟩ := List.mem_map.1 (h.symm.subset (List.mem_range.2 hn))
  exact ⟨k, List.mem_range.1 hk, e⟩

/-- A list over the renumbered particles is a permutation of the list over the particles. -/
theorem Renumbers.map_perm {α : Type} {π : ℕ → ℕ} {N : ℕ} (h : Renumbers π N) (g g' : ℕ → α) (hg : ∀ n < N, g' n = g (π n)) :
    ((List.range N).map g').Perm ((List.range N).map g) := by
  have e : (List.range N).map g' = ((List.range N).map π).map g := by
    rw [List.map_map]
    exact List.map_congr_left fun n hn => hg n (List.mem_range.1 hn)
  rw [e]
  exact h.map g

/-- The minimum of a row does not depend on the order of its entries. -/
theorem rowMin_relabel {π : ℕ → ℕ} {N : ℕ} (hN : 0 < N) (h : Renumbers π N) (g g' : ℕ → Flt K) (hg : ∀ n < N, g' n = g (π n)) :
    Flt.rowMin N g' = Flt.rowMin N g := by
  rw [Flt.rowMin_eq, Flt.rowMin_eq]
  by_cases hn : ∃ i < N, g i = .nan
  · obtain ⟨i, hi, e⟩ := hn
    obtain ⟨k, hk, ek⟩ := h.surj hi
    rw [Flt.rowArgmin_nan g hi e, Flt.rowArgmin_nan g' hk (by rw [hg k hk, ek, e])]
  · push Not at hn
    have hn' : ∀ i < N, g' i ≠ .nan := fun i hi => by rw [hg i hi]; exact hn _ (h.lt hi)
    have l1 := Flt.rowArgmin_lt hN g
    have l2 := Flt.rowArgmin_lt hN g'
    apply Flt.eq_of_not_lt (hn' _ l2) (hn _ l1)
    · rw [hg _ l2]
      exact Flt.rowArgmin_min g hn _ (h.lt l2)
    · obtain ⟨k, hk, ek⟩ := h.surj l1
      rw [← ek, ← hg k hk]
      exact Flt.rowArgmin_min g' hn' _ hk

/-- A step keeps the correspondence. -/
theorem step_relabel {π : ℕ → ℕ} {r : List (K × Flt K × V) → V} {p : V → V} {env env' : Env K V} {s s' u : St K V} (hπ : Renumbers π s.N) (he : EnvRelabel π s.N r p env env') (hp : PermOK env) (hp' : PermOK env')
    (hw : WF s) (hw' : WF u) (hb : s.batched = false) (hsi : s.saveInt ≠ 0) (hs : Relabelled π s u) (h : step env (cboInner env) s = .ok s') :
    ∃ u', step env' (cboInner env') u = .ok u' ∧ Relabelled π s' u' := by
  obtain ⟨ν, ν', hν, hν', hνν⟩ := he.noise
  have hbu : u.batched = false := by rw [hs.batched]; exact hb
  -- the step does not raise
  obtain ⟨u', hu⟩ := cboStep_total_of (env := env') (s := u) he.corr' ⟨r, he.cons'⟩ (fun q => ⟨_, he.post' q, rfl, rfl⟩) hp' hw' (by rw [hs.saveInt]; exact hsi)
    (fun hr => by
      rw [he.empty] at hr
      obtain ⟨v, hv, -⟩ := step_split.1 h
      rw [cboInner_eq] at hv
      obtain ⟨q0, hcc, -⟩ := consThen_split.1 hv
      have := computeConsensus_nonempty hcc hr
      rw [(preStep_idx env hp hw).cCols, (preStep_idx env hp hw).cRows] at this
      exact ⟨fun h0 => this.1 (by rw [← hs.active, h0]; rfl), by rw [hs.batchSize]; exact this.2⟩)
    (fun q d hd _ _ _ _ _ _ => hν'.ok q d hd)
  refine ⟨u', hu, ?_⟩
  obtain ⟨c, d, n, xm, C⟩ := cboStep_facts he.corr hν.ok.shape he.cons hp hw h
  obtain ⟨c', d', n', xm', C'⟩ := cboStep_facts he.corr' hν'.ok.shape he.cons' hp' hw' hu
  have h1 := h
  have hu1 := hu
  rw [cboInner_eq] at h1 hu1
  have q := step_sum (cboMove_ok env) he.post.ok h1
  have q' := step_sum (cboMove_ok env') he.post'.ok hu1
  obtain ⟨i1, i2, i3, i4, i5⟩ := (preStep_pIdx env s hw).2.2 hb
  obtain ⟨j1, j2, j3, j4, j5⟩ := (preStep_pIdx env' u hw').2.2 hbu
  have ec : s'.cIdx = s'.pIdx := by rw [q.cIdx, q.pIdx, i1]
  have ec' : u'.cIdx = u'.pIdx := by rw [q'.cIdx, q'.pIdx, j1]
  rw [← q.pIdx] at i2 i3 i4 i5
  rw [← q'.pIdx] at j2 j3 j4 j5
  rw [hs.active] at j2 j4
  rw [hs.N] at j3
  have hact : ∀ i < s.active.length, s.active.getD i 0 < s.M := fun i hi => hw.act_lt (getD_mem hi)
  -- consensus points
  have hc : ∀ i < s.active.length, c'.get i 0 = c.get i 0 := by
    intro i hi
    rw [C.cget i hi, C'.cget i (by rw [hs.active]; exact hi)]
    apply he.sym
    simp only [sampleOf]
    rw [ec, ec', i3, j3, hs.alpha, hs.active]
    apply hπ.map_perm
    intro j hj
    rw [i4 i hi, j4 i hi, i5, j5, he.f, hs.x _ (hact i hi) j hj]
  -- selected slots
  have hsel : ∀ m k, s'.pIdx.Sel m k ↔ m ∈ s.active ∧ k < s.N := by
    intro m k
    constructor
    · rintro ⟨i, hi, j, hj, e1, e2⟩
      rw [i2] at hi
      rw [i3] at hj
      rw [i4 i hi] at e1
      rw [i5] at e2
      subst e1 e2
      exact ⟨getD_mem hi, hj⟩
    · rintro ⟨h1, h2⟩
      obtain ⟨i, hi, e⟩ := List.mem_iff_getElem.1 h1
      exact ⟨i, by rw [i2]; exact hi, k, by rw [i3]; exact h2, by rw [i4 i hi]; simp [List.getD, hi, e], i5 i k⟩
  have hsel' : ∀ m k, u'.pIdx.Sel m k ↔ m ∈ s.active ∧ k < s.N := by
    intro m k
    constructor
    · rintro ⟨i, hi, j, hj, e1, e2⟩
      rw [j2] at hi
      rw [j3] at hj
      rw [j4 i hi] at e1
      rw [j5] at e2
      subst e1 e2
      exact ⟨getD_mem hi, hj⟩
    · rintro ⟨h1, h2⟩
      obtain ⟨i, hi, e⟩ := List.mem_iff_getElem.1 h1
      exact ⟨i, by rw [j2]; exact hi, k, by rw [j3]; exact h2, by rw [j4 i hi]; simp [List.getD, hi, e], j5 i k⟩
  -- positions
  have hmove : ∀ m < s.M, ∀ k < s.N, xm'.get m k = xm.get m (π k) := by
    intro m hm k hk
    have hk' := hπ.lt hk
    by_cases ha : m ∈ s.active
    · obtain ⟨i, hi, j, hj, e1, e2, e3⟩ := C.sel m (π k) ((hsel _ _).2 ⟨ha, hk'⟩)
      obtain ⟨i', hi', j', hj', f1, f2, f3⟩ := C'.sel m k ((hsel' _ _).2 ⟨ha, hk⟩)
      rw [hs.active] at hi'
      rw [i5] at e2
      rw [j5] at f2
      subst e2 f2
      have g1 := e1
      have g2 := f1
      rw [i4 i hi] at g1
      rw [j4 i' hi'] at g2
      have hii : i' = i := getD_inj hw.nodup hi' hi (by rw [g1, g2])
      subst hii
      obtain ⟨w, w1, w2, w3, -, w5, -⟩ := C.noise
      obtain ⟨w', v1, v2, v3, -, v5, -⟩ := C'.noise
      obtain ⟨nn, n1, -, -, n4⟩ := hν w d w2
      obtain ⟨nn', o1, -, -, o4⟩ := hν' w' d' v2
      rw [w1] at n1
      rw [v1] at o1
      injection n1 with n1
      injection o1 with o1
      subst n1 o1
      have hd : d'.get i' j' = d.get i' (π j') := by
        rw [C.dget i' hi (π j') hj, C'.dget i' (by rw [hs.active]; exact hi) j' hj', hc i' hi, e1, f1, i5, j5, hs.x m hm j' hk]
      rw [e3, f3, hs.x m hm j' hk, hs.lamda, hs.dt, hs.sigma, hd, n4, o4, w3, v3, w5, v5, hs.draws, hs.dt, hνν _ _ _ _ hk, hd]
    · rw [C.unsel m (π k) (fun hc => ha ((hsel _ _).1 hc).1), C'.unsel m k (fun hc => ha ((hsel' _ _).1 hc).1), hs.x m hm k hk]
  have hx : ∀ m < s.M, ∀ k < s.N, u'.x.get m k = s'.x.get m (π k) := by
    intro m hm k hk
    obtain ⟨w, w1, w2⟩ := C.post
    obtain ⟨w', v1, v2⟩ := C'.post
    rw [he.post] at w2
    rw [he.post'] at v2
    injection w2 with w2
    injection v2 with v2
    rw [← w2, ← v2]
    simp only [Mat.map]
    rw [w1, v1, hmove m hm k hk]
  -- energies
  have hen : ∀ m < s.M, ∀ k < s.N, u'.energy.get m k = s'.energy.get m (π k) := by
    intro m hm k hk
    have hk' := hπ.lt hk
    by_cases ha : m ∈ s.active
    · rw [q.fresh m (π k) (by rw [ec]; exact (hsel _ _).2 ⟨ha, hk'⟩), q'.fresh m k (by rw [ec']; exact (hsel' _ _).2 ⟨ha, hk⟩), he.f, hs.x m hm k hk]
    · rw [q.stale m (π k) (by rw [ec]; exact fun hc => ha ((hsel _ _).1 hc).1), q'.stale m k (by rw [ec']; exact fun hc => ha ((hsel' _ _).1 hc).1), hs.energy m hm k hk]
  have hcol : s'.energy.cols = s.N := by rw [q.ec, hw.ec]
  have hcol' : u'.energy.cols = s.N := by rw [q'.ec, hw'.ec, hs.N]
  have hmin : ∀ m < s.M, u'.fMin m = s'.fMin m := by
    intro m hm
    rw [q.fMin, q'.fMin, hcol, hcol']
    exact rowMin_relabel hw.pos hπ _ _ (hen m hm)
  have hcur : ∀ m < s.M, u'.bestCurE m = s'.bestCurE m := by
    intro m hm
    have := hmin m hm
    rw [q.fMin, q'.fMin, Flt.rowMin_eq, Flt.rowMin_eq] at this
    rw [q.bestCurE, q'.bestCurE, q.fMinIdx, q'.fMinIdx, this]
  exact {
    M := by rw [q.M, q'.M, hs.M]
    N := by rw [q.N, q'.N, hs.N]
    x := by rw [q.M, q.N]; exact hx
    energy := by rw [q.M, q.N]; exact hen
    consNone := fun h0 => by rw [C.cons] at h0; cases h0
    cons := fun c0 h0 => by
      rw [C.cons] at h0
      injection h0 with h0
      subst h0
      exact ⟨c', C'.cons, by rw [C.crows, C'.crows, hs.active], by rw [C.ccols, C'.ccols], fun i hi => hc i (by rw [← C.crows]; exact hi)⟩
    bestE := fun m hm => by rw [q.M] at hm; rw [q.bestE, q'.bestE, hcur m hm, hs.bestE m hm]
    bestCurE := by rw [q.M]; exact hcur
    fMin := by rw [q.M]; exact hmin
    updDiff := fun m hm => by
      rw [q.M] at hm
      rw [step_updDiff (cboMove_ok env) he.post.ok hw hm h1, step_updDiff (cboMove_ok env') he.post'.ok hw' (by rw [hs.M]; exact hm) hu1, he.norm, hs.N]
      apply he.normSym
      apply hπ.map_perm
      intro j hj
      rw [hx m hm j hj, hs.x m hm j hj]
    nEval := by
      funext m
      rw [step_nEval (cboMove_ok env) (cboMove_quiet (by rw [he.corr]; simp)) hp hw h1, step_nEval (cboMove_ok env') (cboMove_quiet (by rw [he.corr']; simp)) hp' hw' hu1, hs.active, hs.nEval, hs.batchSize]
    alpha := by rw [q.alpha, q'.alpha, hs.alpha]
    lamda := by rw [q.lamda, q'.lamda, hs.lamda]
    sigma := by rw [q.sigma, q'.sigma, hs.sigma]
    dt := by rw [q.dt, q'.dt, hs.dt]
    t := by rw [q.t, q'.t, hs.t, hs.dt]
    it := by rw [q.it, q'.it, hs.it]
    active := by rw [q.active, q'.active, hs.active]
    terms := by rw [q.terms, q'.terms, hs.terms]
    draws := by rw [C.draws, C'.draws, hs.draws]
    batched := by rw [q.batched, q'.batched, hs.batched]
    batchSize := by rw [q.batchSize, q'.batchSize, hs.batchSize]
    saveInt := by rw [q.saveInt, q'.saveInt, hs.saveInt] }

theorem fires_relabel {π : ℕ → ℕ} {env env' : Env K V} {s u : St K V} (hs : Relabelled π s u) {tm : Term K} (hb : BuiltIn tm) {m : ℕ} (hm : m < s.M) :
    Fires env' u m tm ↔ Fires env s m tm := by
  cases tm with
  | energyTol tol => simp only [Fires, hs.fMin m hm]
  | diffTol tol => simp only [Fires, hs.updDiff m hm]
  | maxEval n => simp only [Fires, hs.nEval, hs.batchSize]
  | maxIt o => simp only [Fires, hs.it]
  | maxTime T => simp only [Fires, hs.t]
  | energyStag _ _ _ => simp [BuiltIn] at hb
  | custom _ => simp [BuiltIn] at hb

theorem select_relabel {π : ℕ → ℕ} {env env' : Env K V} {s s' u : St K V} (hs : Relabelled π s u) (hb : ∀ tm ∈ s.terms, BuiltIn tm) (h : selectActive env s = .ok s') :
    ∃ u', selectActive env' u = .ok u' ∧ Relabelled π s' u' := by
  obtain ⟨q, e, es, hact, -⟩ := select_stateless (env := env) (fun tm htm => (hb tm htm).stateless)
  rw [h] at e
  injection e with e
  subst e
  have hb1 : ∀ tm ∈ u.terms, BuiltIn tm := by rw [hs.terms]; exact hb
  obtain ⟨q1, e1, es1, hact1, -⟩ := select_stateless (env := env') (fun tm htm => (hb1 tm htm).stateless)
  refine ⟨q1, e1, ?_⟩
  have ha : q1.active = s'.active := by
    obtain ⟨_, _, _, -, -, a1, -⟩ := select_active h
    obtain ⟨_, _, _, -, -, a2, -⟩ := select_active e1
    rw [a1, a2, hs.M]
    apply List.filter_congr
    intro m hm
    have key : m ∈ q1.active ↔ m ∈ s'.active := by
      rw [hact, hact1, hs.M, hs.terms]
      exact and_congr_right fun hM => forall_congr' fun tm => forall_congr' fun htm => not_congr (fires_relabel hs (hb tm htm) hM)
    rw [a1, a2, List.mem_filter, List.mem_filter, hs.M] at key
    simp only [hm, true_and] at key
    exact Bool.eq_iff_iff.2 key
  have key : Relabelled π { s with active := s'.active, reason := s'.reason } { u with active := q1.active, reason := q1.reason } := { hs with active := ha }
  rw [es, es1]
  exact key

theorem sched_relabel {π : ℕ → ℕ} {env env' : Env K V} {ga gl gs gd : K → K} (h : SchedLocal env ga gl gs gd)
    (h1 : SchedLocal env' ga gl gs gd) {s s' u : St K V} (hs : Relabelled π s u) (hc : schedUpdate env s = .ok s') :
    ∃ u', schedUpdate env' u = .ok u' ∧ Relabelled π s' u' := by
  simp only [schedUpdate, bind_ok, pure_ok, h s] at hc
  obtain ⟨q, hq, rfl⟩ := hc
  injection hq with hq
  subst hq
  refine ⟨{ u with alpha := fun m => ga (u.alpha m), lamda := gl u.lamda, sigma := gs u.sigma, dt := gd u.dt },
    by simp only [schedUpdate, h1 u]; rfl, ?_⟩
  exact { hs with
    alpha := by simp only [hs.alpha], lamda := by simp only [hs.lamda], sigma := by simp only [hs.sigma]
    dt := by simp only [hs.dt] }

theorem init_relabel {π : ℕ → ℕ} {env env' : Env K V} {a : Args K V} {s : St K V} (h : init env a = .ok s) :
    ∃ u, init env' (a.relabel π) = .ok u ∧ Relabelled π s u := by
  unfold init at h
  split_ifs at h with hc hf
  · injection h with h
    subst h
    refine ⟨_, by unfold init; rw [if_neg (by exact hc)], ?_⟩
    simp only [Args.relabel, hf, if_true, Bool.false_eq_true, if_false]
    constructor
    all_goals first | rfl | exact fun _ _ => rfl | exact fun _ _ _ _ => rfl | exact fun _ => rfl | (intro c hc; cases hc)
  · injection h with h
    subst h
    refine ⟨_, by unfold init; rw [if_neg (by exact hc)], ?_⟩
    simp only [Args.relabel, hf, if_true, Bool.false_eq_true, if_false]
    constructor
    all_goals first | rfl | exact fun _ _ => rfl | exact fun _ _ _ _ => rfl | exact fun _ => rfl | (intro c hc; cases hc)

/-- The attributes the constructor sets. -/
theorem relabel_init {env : Env K V} {a : Args K V} {s : St K V} (h : init env a = .ok s) (hb : ∀ b, a.batchSize = some b → a.x0.cols ≤ b) :
    s.N = a.x0.cols ∧ s.batched = false ∧ s.saveInt = a.saveInt ∧ s.terms = a.terms := by
  have hB : batchSizeOf a.batchSize a.x0.cols = a.x0.cols := by
    unfold batchSizeOf
    split
    · rfl
    · next b e => exact min_eq_right (hb b e)
  unfold init at h
  split_ifs at h with hc hf
  all_goals
    injection h with h
    subst h
    refine ⟨rfl, ?_, rfl, rfl⟩
    simp only [initBatch, decide_eq_false_iff_not, not_not]
    exact hB

/-- One operation keeps the correspondence. -/
theorem exec_relabel {π : ℕ → ℕ} {N : ℕ} {r : List (K × Flt K × V) → V} {p : V → V} {env env' : Env K V} (hπ : Renumbers π N) (he : EnvRelabel π N r p env env') (hp : PermOK env) (hp' : PermOK env') (o : Op) {s s' u : St K V}
    (hw : WF s) (hw' : WF u) (hN : s.N = N) (hb : s.batched = false) (hsi : s.saveInt ≠ 0) (hterms : ∀ tm ∈ s.terms, BuiltIn tm) (hs : Relabelled π s u) (h : exec env (cboInner env) o s = .ok s') :
    ∃ u', exec env' (cboInner env') o u = .ok u' ∧ Relabelled π s' u' ∧ WF s' ∧ WF u' ∧ s'.N = N ∧ s'.batched = false ∧ s'.saveInt ≠ 0 ∧ ∀ tm ∈ s'.terms, BuiltIn tm := by
  subst hN
  have e1 : cboInner env = consThen env (cboMove env) := cboInner_eq _
  have e2 : cboInner env' = consThen env' (cboMove env') := cboInner_eq _
  have main : ∃ u', exec env' (cboInner env') o u = .ok u' ∧ Relabelled π s' u' := by
    cases o with
    | step => exact step_relabel hπ he hp hp' hw hw' hb hsi hs h
    | select => exact select_relabel hs hterms h
    | sched =>
      obtain ⟨ga, gl, gs, gd, h1, h2⟩ := he.sched
      exact sched_relabel h1 h2 hs h
    | reset =>
      simp only [exec] at h
      injection h with h
      subst h
      exact ⟨_, rfl, { hs with t := rfl, it := rfl, saveInt := rfl }⟩
  obtain ⟨u', hu, hr⟩ := main
  have w1 : WF s' := exec_wf (cboMove_ok env) he.post.ok hp hw (by rw [← e1]; exact h)
  have w2 : WF u' := exec_wf (cboMove_ok env') he.post'.ok hp' hw' (by rw [← e2]; exact hu)
  refine ⟨u', hu, hr, w1, w2, ?_⟩
  cases o with
  | step =>
    have f := step_frame (by rw [e1]; exact consThen_frame (cboMove_ok env)) h
    exact ⟨f.N, by rw [f.batched]; exact hb, by rw [f.saveInt]; exact hsi, by rw [f.terms]; exact hterms⟩
  | select =>
    obtain ⟨q, e, es, -⟩ := select_stateless (env := env) (fun tm htm => (hterms tm htm).stateless)
    simp only [exec] at h
    rw [h] at e
    injection e with e
    subst e
    rw [es]
    exact ⟨rfl, hb, hsi, hterms⟩
  | sched =>
    have f := sched_frame h
    rw [f]
    exact ⟨rfl, hb, hsi, hterms⟩
  | reset =>
    simp only [exec] at h
    injection h with h
    subst h
    exact ⟨rfl, hb, one_ne_zero, hterms⟩

theorem execAll_relabel {π : ℕ → ℕ} {N : ℕ} {r : List (K × Flt K × V) → V} {p : V → V} {env env' : Env K V} (hπ : Renumbers π N) (he : EnvRelabel π N r p env env') (hp : PermOK env) (hp' : PermOK env') :
    ∀ (ops : List Op) (s s' u : St K V), WF s → WF u → s.N = N → s.batched = false → s.saveInt ≠ 0 → (∀ tm ∈ s.terms, BuiltIn tm) → Relabelled π s u → execAll env (cboInner env) ops s = .ok s' →
      ∃ u', execAll env' (cboInner env') ops u = .ok u' ∧ Relabelled π s' u'
  | [], s, s', u, _, _, _, _, _, _, hs, h => by
    simp only [execAll] at h
    injection h with h
    subst h
    exact ⟨u, rfl, hs⟩
  | o :: l, s, s', u, hw, hw', hN, hb, hsi, ht, hs, h => by
    simp only [execAll, bind_ok] at h
    obtain ⟨q, hq, h⟩ := h
    obtain ⟨v, hv, a1, a2, a3, a4, a5, a6, a7⟩ := exec_relabel hπ he hp hp' o hw hw' hN hb hsi ht hs hq
    obtain ⟨u', hu, hr⟩ := execAll_relabel hπ he hp hp' l q s' v a2 a3 a4 a5 a6 a7 a1 h
    exact ⟨u', by simp only [execAll, bind_ok]; exact ⟨v, hv, hu⟩, hr⟩

theorem optimize_relabel {π : ℕ → ℕ} {N : ℕ} {r : List (K × Flt K × V) → V} {p : V → V} {env env' : Env K V} (hπ : Renumbers π N) (he : EnvRelabel π N r p env env') (hp : PermOK env) (hp' : PermOK env') :
    ∀ (fuel : ℕ) (s s' u : St K V), WF s → WF u → s.N = N → s.batched = false → s.saveInt ≠ 0 → (∀ tm ∈ s.terms, BuiltIn tm) → Relabelled π s u → optimize env (cboInner env) fuel s = .done s' →
      ∃ u', optimize env' (cboInner env') fuel u = .done u' ∧ Relabelled π s' u'
  | 0, s, s', u, _, _, _, _, _, _, _, h => by simp [optimize] at h
  | fuel + 1, s, s', u, hw, hw', hN, hb, hsi, ht, hs, h => by
    simp only [optimize] at h ⊢
    cases h1 : selectActive env s with
    | error e => simp [h1] at h
    | ok a =>
      obtain ⟨v, hv, a1, a2, a3, a4, a5, a6, a7⟩ := exec_relabel hπ he hp hp' .select hw hw' hN hb hsi ht hs h1
      simp only [exec] at hv
      simp only [h1] at h
      simp only [hv]
      rw [a1.active]
      split_ifs at h ⊢ with hE
      · injection h with h
        subst h
        exact ⟨v, rfl, a1⟩
      · cases h2 : step env (cboInner env) a with
        | error e => simp [h2] at h
        | ok b =>
          obtain ⟨w, hw2, b1, b2, b3, b4, b5, b6, b7⟩ := exec_relabel hπ he hp hp' .step a2 a3 a4 a5 a6 a7 a1 h2
          simp only [exec] at hw2
          simp only [h2] at h
          simp only [hw2]
          cases h3 : schedUpdate env b with
          | error e => simp [h3] at h
          | ok c =>
            obtain ⟨z, hz, c1, c2, c3, c4, c5, c6, c7⟩ := exec_relabel hπ he hp hp' .sched b2 b3 b4 b5 b6 b7 b1 h3
            simp only [exec] at hz
            simp only [h3] at h
            simp only [hz]
            exact optimize_relabel hπ he hp hp' fuel c s' z c2 c3 c4 c5 c6 c7 c1 h

end Verif
