import Verif.Proofs.SimRows

/-! A run of a multi-run dynamic simulated by a dynamic of its own. Helper lemmas. -/

set_option linter.unusedSectionVars false

namespace Verif

variable {K V : Type} [Zero K] [One K] [Neg K] [Add K] [Sub K] [Mul K] [Inv K] [Div K] [NatCast K] [Pow K ℕ] [LinearOrder K] [Add V] [Sub V] [SMul K V]

/-- Run `r` of `s` and the only run of `s1` are in the same state; if `cnt` holds, this includes the evaluation counts. -/
structure Sim (cnt : Prop) (r : ℕ) (s s1 : St K V) : Prop where
  M1 : s1.M = 1
  N : s1.N = s.N
  x : s1.x.get 0 = s.x.get r
  energy : s1.energy.get 0 = s.energy.get r
  bestE : s1.bestE 0 = s.bestE r
  bestP : s1.bestP 0 = s.bestP r
  fMin : s1.fMin 0 = s.fMin r
  updDiff : s1.updDiff 0 = s.updDiff r
  nEval : cnt → s1.nEval 0 = s.nEval r
  alpha : s1.alpha 0 = s.alpha r
  lamda : s1.lamda = s.lamda
  sigma : s1.sigma = s.sigma
  dt : s1.dt = s.dt
  t : s1.t = s.t
  it : s1.it = s.it
  terms : s1.terms = s.terms
  batchSize : s1.batchSize = s.batchSize
  batched : s1.batched = s.batched
  batchPartial : s1.batchPartial = s.batchPartial
  batchConcat : s1.batchConcat = s.batchConcat
  icols : s1.indices.cols = s.indices.cols
  idx : s1.indices.get 0 = s.indices.get r
  perms : s1.perms = s.perms
  draws : s1.draws = s.draws
  saveInt : s1.saveInt = s.saveInt
  aux1 : s1.aux1.get 0 = s.aux1.get r
  aux2 : s1.aux2.get 0 = s.aux2.get r
  shape1 : s1.aux1.rows = s1.M ∧ s1.aux1.cols = s1.N
  shape2 : s1.aux2.rows = s1.M ∧ s1.aux2.cols = s1.N

theorem refill_sim {cnt : Prop} {env env1 : Env K V} {r : ℕ} {s s1 : St K V} (hs : Sim cnt r s s1)
    (hperm : ∀ N c j, env1.perm N c 0 j = env.perm N c r j) :
    (refill env1 s1).indices.get 0 = (refill env s).indices.get r ∧
    (refill env1 s1).indices.cols = (refill env s).indices.cols ∧
    (refill env1 s1).perms = (refill env s).perms := by
  unfold refill
  rw [hs.icols, hs.batchSize]
  split_ifs with h1 h2 h3 h3
  · refine ⟨?_, ?_, ?_⟩
    · funext j
      simp only [Mat.concatCols, freshIndices, hs.icols, hs.idx, hs.N, hs.perms, hperm]
    · simp only [Mat.concatCols, freshIndices, hs.icols, hs.N]
    · simp only [hs.perms]
  · rw [hs.batchConcat] at h2; exact absurd h2 h3
  · rw [hs.batchConcat] at h2; exact absurd h3 h2
  · refine ⟨?_, ?_, ?_⟩
    · funext j; simp only [freshIndices, hs.N, hs.perms, hperm]
    · simp only [freshIndices, hs.N]
    · simp only [hs.perms]
  · exact ⟨hs.idx, hs.icols, hs.perms⟩

/-- What `preStep` selects for one row. -/
theorem preStep_row (env : Env K V) (s : St K V) :
    (s.batched = true →
      (∀ i j, (preStep env s).cIdx.par i j = (refill env s).indices.get (s.active.getD i 0) j) ∧
      (preStep env s).indices = (refill env s).indices.dropCols s.batchSize ∧
      (preStep env s).perms = (refill env s).perms) ∧
    (s.batched = false →
      (∀ i j, (preStep env s).cIdx.par i j = j) ∧ (preStep env s).indices = s.indices ∧
      (preStep env s).perms = s.perms) := by
  constructor
  · intro hb
    unfold preStep setBatch
    rw [if_pos hb]
    unfold setBatchBatched refill
    simp only
    split_ifs <;> exact ⟨fun _ _ => rfl, rfl, rfl⟩
  · intro hb
    unfold preStep setBatch
    rw [if_neg (by rw [hb]; simp)]
    unfold setBatchUnbatched
    simp only
    split_ifs <;> refine ⟨fun _ _ => rfl, ?_, ?_⟩ <;> trivial

/-- `update_diff` after a step. -/
theorem step_updDiff {env : Env K V} {move : St K V → Except Err (St K V)}
    (hm : MoveOK move) (hpost : PostOK env) {s s' : St K V} (hw : WF s) {m : ℕ} (hM : m < s.M)
    (h : step env (consThen env move) s = .ok s') :
    s'.updDiff m = env.normDiff ((List.range s.N).map fun j => (s'.x.get m j, s.x.get m j)) := by
  have q := step_sum hm hpost h
  obtain ⟨v, hv, hps⟩ := step_split.1 h
  have p1 := preStep_frame env s
  obtain ⟨c, hcc, hmv⟩ := consThen_split.1 hv
  have cf := computeConsensus_frame hcc
  have mf := hm.frame _ _ hmv
  unfold MoveFrame at mf
  have vo : v.xOld = some s.x := by rw [mf]; simp only; rw [cf]; simp only; rw [p1]
  obtain ⟨pp, hpp, hu⟩ := (postStep_facts hps).updDiff _ vo
  rw [hu]
  obtain ⟨d1, d2, d3⟩ := Mat.bin_ok hpp
  rw [q.xr, Mat.bdim_self] at d1
  rw [q.xc, Mat.bdim_self] at d2
  simp only [Option.some.injEq] at d1 d2
  simp only [Mat.row]
  rw [← d2, hw.xc]
  congr 1
  apply List.map_congr_left
  intro j hj
  have hj' := List.mem_range.1 hj
  rw [d3]
  have hr1 : m < s'.x.rows := by rw [q.xr, hw.xr]; exact hM
  have hr2 : m < s.x.rows := by rw [hw.xr]; exact hM
  have hc1 : j < s'.x.cols := by rw [q.xc, hw.xc]; exact hj'
  have hc2 : j < s.x.cols := by rw [hw.xc]; exact hj'
  rw [Mat.bpos_lt hr1, Mat.bpos_lt hr2, Mat.bpos_lt hc1, Mat.bpos_lt hc2]

theorem WF.single {s : St K V} (hw : WF s) (h1 : s.M = 1) (h0 : 0 ∈ s.active) : s.active = [0] := by
  have h := hw.act
  rw [h1] at h
  have : s.active.length ≤ 1 := by simpa using h.length_le
  match hl : s.active with
  | [] => rw [hl] at h0; simp at h0
  | [a] => rw [hl] at h0; simp at h0; simp [h0]
  | a :: b :: l => rw [hl] at this; simp at this

/-- The states behind the consensus correspond. `i` is the row of run `r` among the active runs. -/
theorem cons_sim {cnt : Prop} {env env1 : Env K V} {r c₀ : ℕ} {pos : ℕ → ℕ} {p : V → V}
    (he : SimEnv cnt r pos c₀ p env env1) (hp : PermOK env) (hp1 : PermOK env1) {s s1 q0 q1 : St K V} (hw : WF s)
    (hw1 : WF s1) (hs : Sim cnt r s s1) {i : ℕ} (hi : i < s.active.length) (hir : s.active.getD i 0 = r)
    (h0 : 0 ∈ s1.active) (hpos : pos s.draws = i) (hcc : computeConsensus env (preStep env s) = .ok q0)
    (hcc1 : computeConsensus env1 (preStep env1 s1) = .ok q1) : RowCorr r (pos q0.draws) q0 q1 := by
  obtain ⟨g, hg, hg1⟩ := he.cons
  have p0 := preStep_frame env s
  have p01 := preStep_frame env1 s1
  have cf := computeConsensus_frame hcc
  have cf1 := computeConsensus_frame hcc1
  have cc := computeConsensus_facts hcc
  have cc1 := computeConsensus_facts hcc1
  have hact1 := hw1.single hs.M1 h0
  have ix := preStep_idx env hp hw
  have ix1 := preStep_idx env1 hp1 hw1
  have pact : (preStep env s).active = s.active := by rw [p0]
  have pact1 : (preStep env1 s1).active = s1.active := by rw [p01]
  obtain ⟨c, hcs, cr, ccl, cget⟩ := computeConsensus_mean hg (by rw [pact]; exact ix.cRows) hcc
  obtain ⟨c1, hcs1, cr1, ccl1, cget1⟩ := computeConsensus_mean hg1 (by rw [pact1]; exact ix1.cRows) hcc1
  obtain ⟨rf1, rf2, rf3⟩ := refill_sim hs he.perm
  have a0 : s1.active.getD 0 0 = 0 := by rw [hact1]; rfl
  have len1 : s1.active.length = 1 := by rw [hact1]; rfl
  -- the batches agree
  have hpar : ∀ j, (preStep env1 s1).cIdx.par 0 j = (preStep env s).cIdx.par i j := by
    intro j
    by_cases hb : s.batched = true
    · rw [((preStep_row env s).1 hb).1, ((preStep_row env1 s1).1 (by rw [hs.batched]; exact hb)).1, hir, a0, rf1]
    · have hb' : s.batched = false := by simpa using hb
      rw [((preStep_row env s).2 hb').1, ((preStep_row env1 s1).2 (by rw [hs.batched]; exact hb')).1]
  have hcols : (preStep env1 s1).cIdx.cols = (preStep env s).cIdx.cols := by rw [ix.cCols, ix1.cCols, hs.batchSize]
  have crun : (preStep env s).cIdx.run i = r := by rw [ix.cRun i hi, hir]
  have crun1 : (preStep env1 s1).cIdx.run 0 = 0 := by rw [ix1.cRun 0 (by omega), a0]
  have cix : IdxCorr r i (preStep env s).cIdx (preStep env1 s1).cIdx := by
    refine ⟨by rw [ix.cRows]; exact hi, ?_, crun, by rw [ix1.cRows, len1], crun1, hcols, hpar⟩
    intro i' hi' e
    rw [ix.cRows] at hi'
    apply getD_inj hw.nodup hi' hi
    rw [hir, ← e, ix.cRun i' hi']
  -- the moved slots agree
  have pIdx : ((preStep env s).pIdx = (preStep env s).cIdx ∧ (preStep env1 s1).pIdx = (preStep env1 s1).cIdx) ∨
      ((preStep env s).pIdx = Idx.ofRuns s.active s.N ∧ (preStep env1 s1).pIdx = Idx.ofRuns s1.active s1.N) := by
    obtain ⟨u1, u2, u3⟩ := preStep_pIdx env s hw
    obtain ⟨w1, w2, w3⟩ := preStep_pIdx env1 s1 hw1
    rw [hs.batched, hs.batchPartial] at w1 w2
    rw [hs.batched] at w3
    by_cases hb : s.batched = true
    · by_cases hpa : s.batchPartial = true
      · exact .inl ⟨u1 hb hpa, w1 hb hpa⟩
      · exact .inr ⟨u2 hb (by simpa using hpa), w2 hb (by simpa using hpa)⟩
    · exact .inl ⟨(u3 (by simpa using hb)).1, (w3 (by simpa using hb)).1⟩
  have ppar : ∀ j, (preStep env1 s1).pIdx.par 0 j = (preStep env s).pIdx.par i j := by
    intro j
    rcases pIdx with ⟨e, e1⟩ | ⟨e, e1⟩
    · rw [e, e1]; exact hpar j
    · rw [e, e1]; rfl
  have pcols : (preStep env1 s1).pIdx.cols = (preStep env s).pIdx.cols := by
    rcases pIdx with ⟨e, e1⟩ | ⟨e, e1⟩
    · rw [e, e1]; exact hcols
    · rw [e, e1]; exact hs.N
  have prun : (preStep env s).pIdx.run i = r := by rw [ix.pRun i hi, hir]
  have prun1 : (preStep env1 s1).pIdx.run 0 = 0 := by rw [ix1.pRun 0 (by omega), a0]
  have prows : (preStep env s).pIdx.rows = s.active.length := ix.pRows
  have prows1 : (preStep env1 s1).pIdx.rows = 1 := by rw [ix1.pRows, len1]
  have ex : (preStep env s).x = s.x := by rw [p0]
  have ex1 : (preStep env1 s1).x = s1.x := by rw [p01]
  have ee : (preStep env s).energy = s.energy := by rw [p0]
  have ee1 : (preStep env1 s1).energy = s1.energy := by rw [p01]
  -- the consensus points agree
  have hcons : c1.get 0 0 = c.get i 0 := by
    rw [cget i (by rw [pact]; exact hi), cget1 0 (by rw [pact1]; omega)]
    congr 1
    have ea : (preStep env s).alpha = s.alpha := by rw [p0]
    have ea1 : (preStep env1 s1).alpha = s1.alpha := by rw [p01]
    simp only [sampleOf, ex, ex1, ea, ea1, pact, pact1]
    rw [hcols]
    apply List.map_congr_left
    intro j _
    rw [a0, hir, crun, crun1, hpar, hs.x, hs.alpha, he.f]
  -- the energies agree
  have hen : q1.energy.get 0 = q0.energy.get r := by
    funext k
    by_cases hk : (preStep env s).cIdx.Sel r k
    · rw [cc.fresh r k hk, cc1.fresh 0 k ((cix.sel k).2 hk), ex, ex1, hs.x, he.f]
    · rw [cc.stale r k hk, cc1.stale 0 k (fun hc => hk ((cix.sel k).1 hc)), ee, ee1, hs.energy]
  have ep : q0.pIdx = (preStep env s).pIdx := by rw [cf]
  have ep1 : q1.pIdx = (preStep env1 s1).pIdx := by rw [cf1]
  have qd : q0.draws = s.draws := by rw [cf]; simp only; rw [p0]
  have qM : q0.M = s.M := by rw [cf]; simp only; rw [p0]
  have qM1 : q1.M = s1.M := by rw [cf1]; simp only; rw [p01]
  have qN1 : q1.N = s1.N := by rw [cf1]; simp only; rw [p01]
  have qx1 : q1.x = s1.x := by rw [cf1]; exact ex1
  have hle := hw.act.length_le
  simp only [List.length_range] at hle
  rw [qd, hpos]
  exact {
    ix := by
      rw [ep, ep1]
      refine ⟨by rw [prows]; exact hi, ?_, prun, prows1, prun1, pcols, ppar⟩
      intro i' hi' e
      rw [prows] at hi'
      apply getD_inj hw.nodup hi' hi
      rw [hir, ← e, ix.pRun i' hi']
    cons := ⟨c, c1, hcs, hcs1, by rw [cr, pact, ep, prows], ccl, by rw [cr1, pact1, len1], ccl1, hcons⟩
    x := by rw [cf, cf1]; simp only; rw [p0, p01]; exact hs.x
    aux1 := by rw [cf, cf1]; simp only; rw [p0, p01]; exact hs.aux1
    aux2 := by rw [cf, cf1]; simp only; rw [p0, p01]; exact hs.aux2
    lamda := by rw [cf, cf1]; simp only; rw [p0, p01]; exact hs.lamda
    sigma := by rw [cf, cf1]; simp only; rw [p0, p01]; exact hs.sigma
    dt := by rw [cf, cf1]; simp only; rw [p0, p01]; exact hs.dt
    it := by rw [cf, cf1]; simp only; rw [p0, p01]; exact hs.it
    draws := by rw [cf, cf1]; simp only; rw [p0, p01]; exact hs.draws
    M1 := by rw [qM1, hs.M1]
    rows_le := by rw [ep, prows, qM]; exact hle
    full := by
      rw [ep, prows, qM]
      intro hfull
      have hall : s.active = List.range s.M := hw.act.eq_of_length (by rw [hfull, List.length_range])
      rw [hall] at hir hi
      rw [List.length_range] at hi
      simpa [List.getD, hi] using hir
    alpha := by rw [cf, cf1]; simp only; rw [p0, p01]; exact hs.alpha
    energy := hen
    er := by rw [cc.er, ee, hw.er, qM]
    er1 := by rw [cc1.er, ee1, hw1.er, qM1]
    ec1 := by rw [cc1.ec, cc.ec, ee1, ee, hw1.ec, hw.ec, hs.N]
    pin1 := by rw [ep1, qM1, qN1]; exact ix1.pIn
    xs1 := by rw [qx1, qM1, qN1]; exact ⟨hw1.xr, hw1.xc⟩
    as1 := by rw [qM1, qN1, cf1]; simp only; rw [p01]; exact hs.shape1
    bs1 := by rw [qM1, qN1, cf1]; simp only; rw [p01]; exact hs.shape2 }

/-- One step keeps the correspondence. `i` is the row of run `r` among the active runs. -/
theorem step_sim {cnt : Prop} {env env1 : Env K V} {r c₀ : ℕ} {pos : ℕ → ℕ} {p : V → V} {move move1 : St K V → Except Err (St K V)}
    (he : SimEnv cnt r pos c₀ p env env1) (kit : MoveKit cnt r pos c₀ move move1) (hp : PermOK env) (hp1 : PermOK env1) {s s' s1 : St K V} (hw : WF s)
    (hw1 : WF s1) (hs : Sim cnt r s s1) {i : ℕ} (hi : i < s.active.length) (hir : s.active.getD i 0 = r)
    (h0 : 0 ∈ s1.active) (hpos : pos s.draws = i) (hc : c₀ ≤ s.draws) (hsi : s.saveInt ≠ 0)
    (h : step env (consThen env move) s = .ok s') :
    ∃ s1', step env1 (consThen env1 move1) s1 = .ok s1' ∧ Sim cnt r s' s1' ∧ s'.draws = s.draws + 1 := by
  obtain ⟨g, hg, hg1⟩ := he.cons
  have p0 := preStep_frame env s
  have p01 := preStep_frame env1 s1
  obtain ⟨v, hv, hps⟩ := step_split.1 h
  obtain ⟨q0, hcc, hmv⟩ := consThen_split.1 hv
  have cf := computeConsensus_frame hcc
  have qd : q0.draws = s.draws := by rw [cf]; simp only; rw [p0]
  obtain ⟨s1', h1⟩ := step_total_of kit.ok1 ⟨g, hg1⟩ (fun s => ⟨_, he.post1 s, rfl, rfl⟩) hp1 hw1 (by rw [hs.saveInt]; exact hsi)
    (fun hr => ⟨List.ne_nil_of_mem h0, by
      have := (computeConsensus_nonempty hcc (by rw [← he.empty]; exact hr)).2
      rw [(preStep_idx env hp hw).cCols] at this
      rw [hs.batchSize]; exact this⟩)
    (fun c cm hc1 _ => by
      obtain ⟨v1, hv1, -⟩ := kit.sim q0 c v (cons_sim he hp hp1 hw hw1 hs hi hir h0 hpos hcc hc1) (by rw [qd]; exact hc) hmv
      exact ⟨v1, hv1⟩)
  obtain ⟨v1, hv1, hps1⟩ := step_split.1 h1
  obtain ⟨q1, hcc1, hmv1⟩ := consThen_split.1 hv1
  have cf1 := computeConsensus_frame hcc1
  have hrM : r < s.M := hir ▸ hw.act_lt (getD_mem hi)
  have hr : r ∈ s.active := hir ▸ getD_mem hi
  have q := step_sum kit.ok he.post.ok h
  have q1' := step_sum kit.ok1 he.post1.ok h1
  obtain ⟨rf1, rf2, rf3⟩ := refill_sim hs he.perm
  have qd1 : q1.draws = s1.draws := by rw [cf1]; simp only; rw [p01]
  have hcorr := cons_sim he hp hp1 hw hw1 hs hi hir h0 hpos hcc hcc1
  obtain ⟨v1', hv1', mx, ma1, ma2, md, md1, ⟨sh1, sh2⟩, sh3, sh4⟩ := kit.sim q0 q1 v hcorr (by rw [qd]; exact hc) hmv
  rw [hmv1] at hv1'
  injection hv1' with hv1'
  subst hv1'
  have pf := postStep_facts hps
  have pf1 := postStep_facts hps1
  have hx : s1'.x.get 0 = s'.x.get r := by
    have w2 := pf.post
    have v2 := pf1.post
    rw [he.post] at w2
    rw [he.post1] at v2
    injection w2 with w2
    injection v2 with v2
    funext k
    rw [← w2, ← v2]
    simp only [Mat.map]
    rw [mx]
  have hdr : s'.draws = s.draws + 1 := by rw [pf.frame]; simp only; rw [md, qd]
  have hdr1 : s1'.draws = s1.draws + 1 := by rw [pf1.frame]; simp only; rw [md1, qd1]
  have hen : s1'.energy.get 0 = s'.energy.get r := by
    have e1 : s'.energy = q0.energy := by
      have mf := kit.ok.frame _ _ hmv
      unfold MoveFrame at mf
      rw [pf.frame]; simp only; rw [mf]
    have e2 : s1'.energy = q1.energy := by
      have mf := kit.ok1.frame _ _ hmv1
      unfold MoveFrame at mf
      rw [pf1.frame]; simp only; rw [mf]
    rw [e1, e2]
    exact hcorr.energy
  have hec : s1'.energy.cols = s'.energy.cols := by rw [q.ec, q1'.ec, hw.ec, hw1.ec, hs.N]
  have hfi : s1'.fMinIdx 0 = s'.fMinIdx r := by rw [q.fMinIdx, q1'.fMinIdx, hen, hec]
  have hcE : s1'.bestCurE 0 = s'.bestCurE r := by rw [q.bestCurE, q1'.bestCurE, hen, hfi]
  have hcP : s1'.bestCurP 0 = s'.bestCurP r := by rw [q.bestCurP, q1'.bestCurP, hfi, hs.x]
  refine ⟨s1', h1, ?_, hdr⟩
  exact {
    M1 := by rw [q1'.M, hs.M1]
    N := by rw [q1'.N, q.N, hs.N]
    x := hx
    energy := hen
    bestE := by rw [q1'.bestE, q.bestE, hcE, hs.bestE]
    bestP := by rw [q1'.bestP, q.bestP, hcE, hcP, hs.bestE, hs.bestP]
    fMin := by rw [q1'.fMin, q.fMin, hen, hec]
    updDiff := by
      rw [step_updDiff kit.ok he.post.ok hw hrM h,
        step_updDiff kit.ok1 he.post1.ok hw1 (by rw [hs.M1]; omega) h1, hx, hs.x, hs.N, he.norm]
    nEval := by
      intro hcnt
      rw [step_nEval kit.ok (kit.quiet hcnt) hp hw h r, step_nEval kit.ok1 (kit.quiet1 hcnt) hp1 hw1 h1 0,
        if_pos h0, if_pos hr, hs.nEval hcnt, hs.batchSize]
    alpha := by rw [q1'.alpha, q.alpha, hs.alpha]
    lamda := by rw [q1'.lamda, q.lamda, hs.lamda]
    sigma := by rw [q1'.sigma, q.sigma, hs.sigma]
    dt := by rw [q1'.dt, q.dt, hs.dt]
    t := by rw [q1'.t, q.t, hs.t, hs.dt]
    it := by rw [q1'.it, q.it, hs.it]
    terms := by rw [q1'.terms, q.terms, hs.terms]
    batchSize := by rw [q1'.batchSize, q.batchSize, hs.batchSize]
    batched := by rw [q1'.batched, q.batched, hs.batched]
    batchPartial := by rw [q1'.batchPartial, q.batchPartial, hs.batchPartial]
    batchConcat := by rw [q1'.batchConcat, q.batchConcat, hs.batchConcat]
    icols := by
      rw [q1'.indices, q.indices]
      by_cases hb : s.batched = true
      · rw [((preStep_row env s).1 hb).2.1, ((preStep_row env1 s1).1 (by rw [hs.batched]; exact hb)).2.1]
        simp only [Mat.dropCols, rf2, hs.batchSize]
      · have hb' : s.batched = false := by simpa using hb
        rw [((preStep_row env s).2 hb').2.1, ((preStep_row env1 s1).2 (by rw [hs.batched]; exact hb')).2.1, hs.icols]
    idx := by
      rw [q1'.indices, q.indices]
      by_cases hb : s.batched = true
      · rw [((preStep_row env s).1 hb).2.1, ((preStep_row env1 s1).1 (by rw [hs.batched]; exact hb)).2.1]
        simp only [Mat.dropCols, rf1, hs.batchSize]
      · have hb' : s.batched = false := by simpa using hb
        rw [((preStep_row env s).2 hb').2.1, ((preStep_row env1 s1).2 (by rw [hs.batched]; exact hb')).2.1, hs.idx]
    perms := by
      rw [q1'.perms, q.perms]
      by_cases hb : s.batched = true
      · rw [((preStep_row env s).1 hb).2.2, ((preStep_row env1 s1).1 (by rw [hs.batched]; exact hb)).2.2, rf3]
      · have hb' : s.batched = false := by simpa using hb
        rw [((preStep_row env s).2 hb').2.2, ((preStep_row env1 s1).2 (by rw [hs.batched]; exact hb')).2.2, hs.perms]
    draws := by rw [hdr1, hdr, hs.draws]
    saveInt := by rw [q1'.saveInt, q.saveInt, hs.saveInt]
    aux1 := by rw [pf.frame, pf1.frame]; exact ma1
    aux2 := by rw [pf.frame, pf1.frame]; exact ma2
    shape1 := by
      rw [q1'.M, q1'.N, pf1.frame]
      simp only
      rw [sh1, sh2, cf1]
      simp only
      rw [p01]
      exact hs.shape1
    shape2 := by
      rw [q1'.M, q1'.N, pf1.frame]
      simp only
      rw [sh3, sh4, cf1]
      simp only
      rw [p01]
      exact hs.shape2 }

theorem sched_sim {cnt : Prop} {env env1 : Env K V} {r : ℕ} {ga gl gs gd : K → K} (h : SchedLocal env ga gl gs gd)
    (h1 : SchedLocal env1 ga gl gs gd) {s s' s1 : St K V} (hs : Sim cnt r s s1) (hc : schedUpdate env s = .ok s') :
    ∃ s1', schedUpdate env1 s1 = .ok s1' ∧ Sim cnt r s' s1' ∧ s1'.active = s1.active ∧ s'.draws = s.draws := by
  simp only [schedUpdate, bind_ok, pure_ok, h s] at hc
  obtain ⟨q, hq, rfl⟩ := hc
  injection hq with hq
  subst hq
  refine ⟨{ s1 with alpha := fun m => ga (s1.alpha m), lamda := gl s1.lamda, sigma := gs s1.sigma, dt := gd s1.dt },
    by simp only [schedUpdate, h1 s1]; rfl, ?_, rfl, rfl⟩
  exact { hs with
    alpha := by simp only [hs.alpha], lamda := by simp only [hs.lamda], sigma := by simp only [hs.sigma]
    dt := by simp only [hs.dt] }

/-- The criteria whose decision does not depend on the evaluation counts, unless `cnt` holds. -/
def Countless (cnt : Prop) (tm : Term K) : Prop := BuiltIn tm ∧ (cnt ∨ ∀ n, tm ≠ .maxEval n)

theorem fires_sim {cnt : Prop} {env env1 : Env K V} {r : ℕ} {s s1 : St K V} (hs : Sim cnt r s s1) {tm : Term K} (hb : Countless cnt tm) :
    Fires env1 s1 0 tm ↔ Fires env s r tm := by
  cases tm with
  | energyTol tol => simp only [Fires, hs.fMin]
  | diffTol tol => simp only [Fires, hs.updDiff]
  | maxEval n =>
    rcases hb.2 with hc | hc
    · simp only [Fires, hs.nEval hc, hs.batchSize]
    · exact absurd rfl (hc n)
  | maxIt o => simp only [Fires, hs.it]
  | maxTime T => simp only [Fires, hs.t]
  | energyStag _ _ _ => simp [Countless, BuiltIn] at hb
  | custom _ => simp [Countless, BuiltIn] at hb

theorem select_sim {cnt : Prop} {env env1 : Env K V} {r : ℕ} {s s' s1 : St K V} (hs : Sim cnt r s s1)
    (hb : ∀ tm ∈ s.terms, Countless cnt tm) (hr : r < s.M) (h : selectActive env s = .ok s') :
    ∃ s1', selectActive env1 s1 = .ok s1' ∧ Sim cnt r s' s1' ∧ (0 ∈ s1'.active ↔ r ∈ s'.active) ∧ s'.draws = s.draws := by
  obtain ⟨q, e, es, hact, -⟩ := select_stateless (env := env) (fun tm htm => (hb tm htm).1.stateless)
  rw [h] at e
  injection e with e
  subst e
  have hb1 : ∀ tm ∈ s1.terms, Countless cnt tm := by rw [hs.terms]; exact hb
  obtain ⟨q1, e1, es1, hact1, -⟩ := select_stateless (env := env1) (fun tm htm => (hb1 tm htm).1.stateless)
  refine ⟨q1, e1, ?_, ?_, by rw [es]⟩
  · have key : Sim cnt r { s with active := s'.active, reason := s'.reason }
        { s1 with active := q1.active, reason := q1.reason } := { hs with }
    rw [es, es1]
    exact key
  · rw [hact, hact1, hs.M1, hs.terms]
    constructor
    · rintro ⟨-, h2⟩
      exact ⟨hr, fun tm htm hf => h2 tm htm ((fires_sim hs (hb tm htm)).2 hf)⟩
    · rintro ⟨-, h2⟩
      exact ⟨by omega, fun tm htm hf => h2 tm htm ((fires_sim hs (hb tm htm)).1 hf)⟩

theorem initBatch_idx (env : Env K V) (a : Args K V) (s : St K V) : (initBatch env a s).indices =
    if batchSizeOf a.batchSize s.N = s.N then s.indices else freshIndices env s.M s.N s.perms := rfl

theorem init_sim {cnt : Prop} {env env1 : Env K V} {a : Args K V} {r : ℕ} {s : St K V}
    (hperm : ∀ N c j, env1.perm N c 0 j = env.perm N c r j) (h : init env a = .ok s) :
    ∃ s1, init env1 (a.single r) = .ok s1 ∧ Sim cnt r s s1 := by
  unfold init at h
  split_ifs at h with hc hf
  · injection h with h
    subst h
    refine ⟨_, by unfold init; rw [if_neg (by exact hc)], ?_⟩
    simp only [Args.single, hf, if_true, Bool.false_eq_true, if_false]
    constructor
    all_goals first | rfl | exact ⟨rfl, rfl⟩ | exact fun _ => rfl | skip
    · rw [initBatch_idx, initBatch_idx]
      by_cases hB : batchSizeOf a.batchSize a.x0.cols = a.x0.cols
      · rw [if_pos (by exact hB), if_pos (by exact hB)]; rfl
      · rw [if_neg (by exact hB), if_neg (by exact hB)]; rfl
    · rw [initBatch_idx, initBatch_idx]
      by_cases hB : batchSizeOf a.batchSize a.x0.cols = a.x0.cols
      · rw [if_pos (by exact hB), if_pos (by exact hB)]; rfl
      · rw [if_neg (by exact hB), if_neg (by exact hB)]
        funext j
        exact hperm _ _ _
  · injection h with h
    subst h
    refine ⟨_, by unfold init; rw [if_neg (by exact hc)], ?_⟩
    simp only [Args.single, hf, if_true, Bool.false_eq_true, if_false]
    constructor
    all_goals first | rfl | exact ⟨rfl, rfl⟩ | exact fun _ => rfl | skip
    · rw [initBatch_idx, initBatch_idx]
      by_cases hB : batchSizeOf a.batchSize a.x0.cols = a.x0.cols
      · rw [if_pos (by exact hB), if_pos (by exact hB)]; rfl
      · rw [if_neg (by exact hB), if_neg (by exact hB)]; rfl
    · rw [initBatch_idx, initBatch_idx]
      by_cases hB : batchSizeOf a.batchSize a.x0.cols = a.x0.cols
      · rw [if_pos (by exact hB), if_pos (by exact hB)]; rfl
      · rw [if_neg (by exact hB), if_neg (by exact hB)]
        funext j
        exact hperm _ _ _

/-- The rest of a completed `optimize` after the check, as a sequence of further loop iterations. -/
theorem optimize_further {env : Env K V} {inner : St K V → Except Err (St K V)} :
    ∀ {fuel : ℕ} {s s' : St K V}, optimize env inner fuel s = .done s' →
      ∃ q, selectActive env s = .ok q ∧ ∃ k, execAll env inner (further k) q = .ok s'
  | 0, s, s', h => by simp [optimize] at h
  | fuel + 1, s, s', h => by
    simp only [optimize] at h
    cases h1 : selectActive env s with
    | error e => simp [h1] at h
    | ok a =>
      simp only [h1] at h
      refine ⟨a, rfl, ?_⟩
      split_ifs at h with ha
      · injection h with h
        subst h
        exact ⟨0, rfl⟩
      · cases h2 : step env inner a with
        | error e => simp [h2] at h
        | ok b =>
          simp only [h2] at h
          cases h3 : schedUpdate env b with
          | error e => simp [h3] at h
          | ok c =>
            simp only [h3] at h
            obtain ⟨d, e1, k, e2⟩ := optimize_further h
            refine ⟨k + 1, ?_⟩
            have er : further (k + 1) = [.step, .sched, .select] ++ further k := rfl
            rw [er]
            simp only [List.cons_append, List.nil_append, execAll, exec, bind_ok]
            exact ⟨b, h2, c, h3, d, e1, e2⟩

theorem Sim.result {cnt : Prop} {r : ℕ} {s s1 : St K V} (h : Sim cnt r s s1) : SameValues r s s1 ∧ (cnt → s1.nEval 0 = s.nEval r) :=
  ⟨⟨fun _ _ => by rw [h.x], fun _ _ => by rw [h.energy], h.bestE, h.bestP, h.fMin⟩, h.nEval⟩

theorem SameValues.trans {r : ℕ} {s s' s1 : St K V} (h : SameValues r s s1) (hN : s'.N = s.N) (hs : SameRun r s s') :
    SameValues r s' s1 :=
  ⟨fun n hn => by rw [h.x n (hN ▸ hn), hs.x n (hN ▸ hn)], fun n hn => by rw [h.energy n (hN ▸ hn), hs.energy n (hN ▸ hn)],
    by rw [h.bestE, hs.bestE], by rw [h.bestP, hs.bestP], by rw [h.fMin, hs.fMin]⟩

theorem execAll_N {env : Env K V} {inner : St K V → Except Err (St K V)} (hi : InnerFrame inner) :
    ∀ {l : List Op} {s s' : St K V}, execAll env inner l s = .ok s' → s'.N = s.N
  | [], s, s', h => by
    simp only [execAll] at h
    injection h with h
    rw [h]
  | o :: l, s, s', h => by
    simp only [execAll, bind_ok] at h
    obtain ⟨q, hq, h⟩ := h
    rw [execAll_N hi h]
    cases o with
    | step => exact (step_frame hi hq).N
    | select => rw [select_frame hq]
    | sched => rw [sched_frame hq]
    | reset =>
      simp only [exec] at hq
      injection hq with hq
      subst hq
      rfl

/-- Simulation of a whole `optimize` call. -/
theorem optimize_sim {cnt : Prop} {env : Env K V} {r : ℕ} {p : V → V}
    {move : Env K V → St K V → Except Err (St K V)} {J : St K V → Prop} (hmok : MoveOK (move env))
    (hkit : ∀ pos c₀ env1, SimEnv cnt r pos c₀ p env env1 → MoveKit cnt r pos c₀ (move env) (move env1))
    (hJ : ∀ s s', s'.x = s.x → s'.aux1 = s.aux1 → s'.N = s.N → J s → J s')
    (hfrozen : ∀ s q, WF s → BestFit s → 0 ≤ s.dt → (∀ tm ∈ s.terms, BuiltIn tm) → selectActive env s = .ok q → r < s.M → r ∉ q.active →
      q.active ≠ [] → J s → ∀ (k : ℕ) (s' : St K V), execAll env (consThen env (move env)) (further k) q = .ok s' → SameRun r q s')
    (hafter : ∀ s s', step env (consThen env (move env)) s = .ok s' → J s')
    (hpm : PostMap env p) (hp : PermOK env) (hno : NormOK env)
    (hsched : ∀ s q, env.sched s = .ok q → 0 ≤ s.dt → 0 ≤ q.dt) :
    ∀ {fuel : ℕ} {s s' : St K V}, WF s → BestFit s → (∀ tm ∈ s.terms, Countless cnt tm) → r < s.M → 0 ≤ s.dt →
      s.saveInt ≠ 0 → (∀ q, selectActive env s = .ok q → r ∉ q.active → J s ∨ q.active = []) →
      optimize env (consThen env (move env)) fuel s = .done s' →
      ∃ pos : ℕ → ℕ, (∀ c, pos c < s.M) ∧ ∀ env1, SimEnv cnt r pos s.draws p env env1 → PermOK env1 →
        ∀ s1, WF s1 → Sim cnt r s s1 →
        ∃ s1', optimize env1 (consThen env1 (move env1)) fuel s1 = .done s1' ∧ SameValues r s' s1' ∧ (cnt → s1'.nEval 0 = s'.nEval r)
  | 0, s, s', _, _, _, _, _, _, _, h => by simp [optimize] at h
  | fuel + 1, s, s', hw, hbf, hbi, hr, hdt, hsi, hfix, h => by
    obtain ⟨q₀, hq₀, k₀, hk₀⟩ := optimize_further h
    simp only [optimize] at h
    rw [hq₀] at h
    simp only at h
    have hqf := select_frame hq₀
    have hqN : q₀.N = s.N := by rw [hqf]
    have hqM : q₀.M = s.M := by rw [hqf]
    have hqx : q₀.x = s.x := by rw [hqf]
    have hqw := select_wf hw hq₀
    by_cases hra : r ∈ q₀.active
    · -- the run continues
      have hne : q₀.active.length ≠ 0 := fun hc => by
        rw [List.length_eq_zero_iff.1 hc] at hra; simp at hra
      rw [if_neg hne] at h
      obtain ⟨i, hi, hir⟩ := mem_getD hra
      cases h2 : step env (consThen env (move env)) q₀ with
      | error e => simp [h2] at h
      | ok b =>
        simp only [h2] at h
        cases h3 : schedUpdate env b with
        | error e => simp [h3] at h
        | ok c =>
          simp only [h3] at h
          have fb := step_frame (consThen_frame hmok) h2
          have fc := sched_frame h3
          have hbw := step_wf hmok hpm.ok hp hqw h2
          have hcw := sched_wf hbw h3
          obtain ⟨q', e', es, -⟩ := select_stateless (env := env) (fun tm htm => (hbi tm htm).1.stateless)
          rw [hq₀] at e'
          injection e' with e'
          subst e'
          have qt : q₀.terms = s.terms := by rw [es]
          have qd : q₀.draws = s.draws := by rw [es]
          have qdt : q₀.dt = s.dt := by rw [es]
          have qs : q₀.saveInt = s.saveInt := by rw [es]
          have cM : c.M = s.M := by rw [fc]; simp only; rw [fb.M, hqM]
          have cN : c.N = s.N := by rw [fc]; simp only; rw [fb.N, hqN]
          have hcdt : 0 ≤ c.dt := by
            have h3' := h3
            simp only [schedUpdate, bind_ok, pure_ok] at h3'
            obtain ⟨z, hz, rfl⟩ := h3'
            exact hsched _ _ hz (by rw [fb.dt, qdt]; exact hdt)
          have hbc : BestFit c := bestFit_exec hno hmok hpm.ok (o := .sched)
            (bestFit_step hno hmok hpm.ok h2) h3
          obtain ⟨pos', hlt, hpos'⟩ := optimize_sim (r := r) (cnt := cnt) hmok hkit hJ hfrozen hafter hpm hp hno hsched hcw hbc
            (by rw [fc]; simp only; rw [fb.terms, qt]; exact hbi) (by rw [cM]; exact hr) hcdt
            (by rw [fc]; simp only; rw [fb.saveInt, qs]; exact hsi)
            (fun _ _ _ => .inl (hJ b c (by rw [fc]) (by rw [fc]) (by rw [fc]) (hafter _ _ h2))) h
          refine ⟨fun k => if k = s.draws then i else pos' k, ?_, ?_⟩
          · intro k
            simp only
            split_ifs
            · have := hqw.act.length_le
              simp only [List.length_range] at this
              omega
            · rw [← cM]; exact hlt k
          · intro env1 he hp1 s1 hw1 hs
            obtain ⟨q1, hq1, hqs, hqa, hqd⟩ := select_sim (env1 := env1) hs hbi hr hq₀
            have hq1w := select_wf hw1 hq1
            have h01 : 0 ∈ q1.active := hqa.2 hra
            obtain ⟨b1, hb1, hbs, hbd⟩ := step_sim he (hkit _ _ _ he) hp hp1 hqw hq1w hqs hi hir h01 (by simp [qd]) (by rw [qd])
              (by rw [qs]; exact hsi) h2
            obtain ⟨ga, gl, gs, gd, hl1, hl2⟩ := he.sched
            obtain ⟨c1, hc1, hcs, -, hcd⟩ := sched_sim hl1 hl2 hbs h3
            have hb1w := step_wf (hkit _ _ _ he |>.ok1) he.post1.ok hp1 hq1w hb1
            have he' : SimEnv cnt r pos' c.draws p env env1 := { he with
              noise := by
                intro w w1 d d1 n R hk
                rw [hcd, hbd, qd] at hk
                have hne : w.draws ≠ s.draws := by omega
                have := he.noise w w1 d d1 n
                simp only [if_neg hne] at this
                exact this R (by omega) }
            obtain ⟨s1', e1, e2⟩ := hpos' env1 he' hp1 c1 (sched_wf hb1w hc1) hcs
            refine ⟨s1', ?_, e2⟩
            simp only [optimize, hq1, hb1, hc1]
            rw [if_neg (fun hc => by rw [List.length_eq_zero_iff.1 hc] at h01; simp at h01)]
            exact e1
    · -- the run has stopped: it stays frozen
      refine ⟨fun _ => 0, fun _ => Nat.lt_of_le_of_lt (Nat.zero_le _) hr, ?_⟩
      intro env1 he hp1 s1 hw1 hs
      obtain ⟨q1, hq1, hqs, hqa, -⟩ := select_sim (env1 := env1) hs hbi hr hq₀
      have hq1w := select_wf hw1 hq1
      have h01 : 0 ∉ q1.active := fun hc => hra (hqa.1 hc)
      have hlen : q1.active.length = 0 := by
        have h := hq1w.act
        rw [hqs.M1] at h
        match hl : q1.active with
        | [] => rfl
        | a :: l =>
          rw [hl] at h h01
          have : a ∈ List.range 1 := h.subset (by simp)
          simp only [List.mem_range] at this
          exact absurd (by simp; omega) h01
      refine ⟨q1, by simp only [optimize, hq1]; rw [if_pos hlen], ?_⟩
      by_cases hnil : q₀.active = []
      · rw [if_pos (by rw [hnil]; rfl)] at h
        injection h with h
        rw [← h]
        exact hqs.result
      have hsame := hfrozen s q₀ hw hbf hdt (fun tm htm => (hbi tm htm).1) hq₀ hr hra hnil ((hfix q₀ hq₀ hra).resolve_right hnil) k₀ s' hk₀
      obtain ⟨r1, r2⟩ := hqs.result
      exact ⟨r1.trans (execAll_N (consThen_frame hmok) hk₀) hsame, fun hc => by rw [r2 hc, hsame.nEval]⟩

/-- In the constructed state the built-in criteria do not tell the runs apart. -/
theorem init_fires {env : Env K V} {a : Args K V} {s : St K V} (h0 : init env a = .ok s) {tm : Term K} (hb : BuiltIn tm) (r m : ℕ) :
    Fires env s r tm ↔ Fires env s m tm := by
  have : s.fMin r = s.fMin m ∧ s.updDiff r = s.updDiff m ∧ s.nEval r = s.nEval m := by
    unfold init at h0
    split_ifs at h0 <;> (injection h0 with h0; subst h0; exact ⟨rfl, rfl, rfl⟩)
  obtain ⟨e1, e2, e3⟩ := this
  cases tm with
  | energyTol tol => simp only [Fires, e1]
  | diffTol tol => simp only [Fires, e2]
  | maxEval n => simp only [Fires, e3]
  | maxIt o => simp only [Fires]
  | maxTime T => simp only [Fires]
  | energyStag _ _ _ => simp [BuiltIn] at hb
  | custom _ => simp [BuiltIn] at hb

/-- If the first check stops one run, it stops all of them. -/
theorem init_all_fire {env : Env K V} {a : Args K V} {s q : St K V} (hb : ∀ tm ∈ s.terms, BuiltIn tm) {r : ℕ} (hr : r < s.M)
    (h0 : init env a = .ok s) (hq : selectActive env s = .ok q) (hra : r ∉ q.active) : q.active = [] := by
  obtain ⟨q', e, -, hact, -⟩ := select_stateless (env := env) (fun tm htm => (hb tm htm).stateless)
  rw [hq] at e
  injection e with e
  subst e
  rw [List.eq_nil_iff_forall_not_mem]
  intro m hm
  rw [hact] at hm
  exact hra ((hact r).2 ⟨hr, fun tm htm hf => hm.2 tm htm ((init_fires h0 (hb tm htm) r m).1 hf)⟩)

/-- Independence of the runs, for any move with a `MoveKit`, any family `E` of surroundings of the single run. -/
theorem independent_gen {cnt : Prop} (env : Env K V) (r : ℕ) (p : V → V)
    {move : Env K V → St K V → Except Err (St K V)} {J : St K V → Prop} (hmok : MoveOK (move env))
    (hkit : ∀ pos c₀ env1, SimEnv cnt r pos c₀ p env env1 → MoveKit cnt r pos c₀ (move env) (move env1))
    (hJ : ∀ s s', s'.x = s.x → s'.aux1 = s.aux1 → s'.N = s.N → J s → J s')
    (hfrozen : ∀ s q, WF s → BestFit s → 0 ≤ s.dt → (∀ tm ∈ s.terms, BuiltIn tm) → selectActive env s = .ok q → r < s.M → r ∉ q.active →
      q.active ≠ [] → J s → ∀ (k : ℕ) (s' : St K V), execAll env (consThen env (move env)) (further k) q = .ok s' → SameRun r q s')
    (hafter : ∀ s s', step env (consThen env (move env)) s = .ok s' → J s')
    (hpm : PostMap env p) (hp : PermOK env) (hno : NormOK env) (hsched : ∀ s q, env.sched s = .ok q → 0 ≤ s.dt → 0 ≤ q.dt)
    (E : (ℕ → ℕ) → Env K V) (hE : ∀ pos c₀, SimEnv cnt r pos c₀ p env (E pos)) (hpE : ∀ pos, PermOK (E pos))
    (a : Args K V) (hr : r < a.x0.rows) (hdt : 0 ≤ a.dt) (hsi : a.saveInt ≠ 0) (hterms : ∀ tm ∈ a.terms, Countless cnt tm)
    (s₀ s' : St K V) (fuel : ℕ) (h0 : init env a = .ok s₀)
    (h : optimize env (consThen env (move env)) fuel s₀ = .done s') :
    ∃ pos : ℕ → ℕ, (∀ c, pos c < a.x0.rows) ∧
      ∃ s₁ s₁', init (E pos) (a.single r) = .ok s₁ ∧
        optimize (E pos) (consThen (E pos) (move (E pos))) fuel s₁ = .done s₁' ∧ SameValues r s' s₁' ∧ (cnt → s₁'.nEval 0 = s'.nEval r) := by
  have hb := bestFit_init h0
  have hw := init_wf hp h0
  have hfacts : s₀.M = a.x0.rows ∧ s₀.N = a.x0.cols ∧ s₀.dt = a.dt ∧ s₀.saveInt = a.saveInt ∧ s₀.terms = a.terms ∧
      s₀.x = a.x0 := by
    unfold init at h0
    split_ifs at h0 <;> (injection h0 with h0; subst h0; exact ⟨rfl, rfl, rfl, rfl, rfl, rfl⟩)
  obtain ⟨e1, e2, e3, e4, e5, e6⟩ := hfacts
  obtain ⟨pos, hpos, hsim⟩ := optimize_sim (r := r) (cnt := cnt) hmok hkit hJ hfrozen hafter hpm hp hno hsched
    hw hb (by rw [e5]; exact hterms) (by rw [e1]; exact hr) (by rw [e3]; exact hdt) (by rw [e4]; exact hsi)
    (fun q hq hq1 => .inr (init_all_fire (by rw [e5]; exact fun tm htm => (hterms tm htm).1) (by rw [e1]; exact hr) h0 hq hq1)) h
  obtain ⟨s₁, hs₁, sim⟩ := init_sim (cnt := cnt) (env1 := E pos) (r := r) (hE pos 0).perm h0
  obtain ⟨s₁', h1, h2⟩ := hsim (E pos) (hE pos _) (hpE pos) s₁ (init_wf (hpE pos) hs₁) sim
  exact ⟨pos, by rw [← e1]; exact hpos, s₁, s₁', hs₁, h1, h2⟩

/-- Independence of the runs, for any move with a `MoveKit` that does not evaluate the objective. -/
theorem independent_quiet [SoundArith K] (env : Env K V) (r : ℕ) (p : V → V)
    {move : Env K V → St K V → Except Err (St K V)} {J : ℕ → St K V → Prop} (hmok : MoveOK (move env)) (hquiet : MoveQuiet (move env))
    (hkit : ∀ pos c₀ env1, SimEnv True r pos c₀ p env env1 → MoveKit True r pos c₀ (move env) (move env1))
    (hkeep : Keeps env (move env) J) (hafter : ∀ s s' m, step env (consThen env (move env)) s = .ok s' → J m s')
    (hpm : PostMap env p) (hp : PermOK env) (hno : NormOK env) {ga gl gs gd : K → K} (hsched : SchedLocal env ga gl gs gd)
    (hgd : ∀ v, 0 ≤ v → 0 ≤ gd v)
    (E : (ℕ → ℕ) → Env K V) (hE : ∀ pos c₀, SimEnv True r pos c₀ p env (E pos)) (hpE : ∀ pos, PermOK (E pos))
    (a : Args K V) (hr : r < a.x0.rows) (hdt : 0 ≤ a.dt) (hsi : a.saveInt ≠ 0) (hterms : ∀ tm ∈ a.terms, BuiltIn tm)
    (s₀ s' : St K V) (fuel : ℕ) (h0 : init env a = .ok s₀)
    (h : optimize env (consThen env (move env)) fuel s₀ = .done s') :
    ∃ pos : ℕ → ℕ, (∀ c, pos c < a.x0.rows) ∧
      ∃ s₁ s₁', init (E pos) (a.single r) = .ok s₁ ∧
        optimize (E pos) (consThen (E pos) (move (E pos))) fuel s₁ = .done s₁' ∧ SameResult r s' s₁' := by
  have hs : ∀ s q, env.sched s = .ok q → 0 ≤ s.dt → 0 ≤ q.dt := fun s q hq hd => by
    rw [hsched s] at hq; injection hq with hq; subst hq; exact hgd _ hd
  obtain ⟨pos, hpos, s₁, s₁', h1, h2, h3, h4⟩ := independent_gen (cnt := True) env r p (J := J r) hmok hkit (fun s s' => hkeep.congr s s' r)
    (fun s q hw hb hd ht hq hM hna _ hJ k s' hk => (frozen_gen env (move env) J hmok hkeep hquiet hpm.ok hp hno hs s q hw hb hd ht hq r hM hna hJ k s' hk).2)
    (fun s s' h => hafter s s' r h) hpm hp hno hs E hE hpE a hr hdt hsi (fun tm htm => ⟨hterms tm htm, .inl trivial⟩) s₀ s' fuel h0 h
  exact ⟨pos, hpos, s₁, s₁', h1, h2, ⟨h3, h4 trivial⟩⟩

/-- The surroundings of the run alone, for row-wise noise. -/
theorem simEnv_rows {cnt : Prop} {env : Env K V} {r : ℕ} {ν : ℕ → K → ℕ → ℕ → V → V} {p : V → V} {g : List (K × Flt K × V) → V} {ga gl gs gd : K → K}
    (hcons : env.cons = .mean g) (hnoise : NoiseRows env ν) (hpm : PostMap env p) (hsched : SchedLocal env ga gl gs gd) (pos : ℕ → ℕ) (c₀ : ℕ)
    (hcorr : CorrSim r env (env.alone r pos ν)) (hcnt : cnt → ∀ g', env.corr ≠ .heavi g') :
    SimEnv cnt r pos c₀ p env (env.alone r pos ν) :=
  { f := rfl, cons := ⟨g, hcons, hcons⟩, corr := hcorr, noHeavi := fun hc => ⟨hcnt hc, hcnt hc⟩
    noise := noiseSim_rows (ν1 := fun c dt _ j v => ν c dt (pos c) j v) hnoise (by
      intro s d hd
      refine ⟨⟨d.rows, d.cols, fun i j => ν s.draws s.dt (pos s.draws) j (d.get i j)⟩, ?_, rfl, rfl, ?_⟩
      · simp only [Env.alone, hd]
      · intro i j; rfl) (fun c _ dt j v => rfl)
    post := hpm, post1 := hpm, norm := rfl, empty := rfl, perm := fun _ _ _ => rfl, sched := ⟨ga, gl, gs, gd, hsched, hsched⟩ }

/-- Independence of the runs, for any move with a `MoveKit` that does not evaluate the objective, and row-wise noise. -/
theorem independent_core [SoundArith K] (env : Env K V) (r : ℕ) (ν : ℕ → K → ℕ → ℕ → V → V) (p : V → V)
    {move : Env K V → St K V → Except Err (St K V)} {J : ℕ → St K V → Prop} (hmok : MoveOK (move env)) (hquiet : MoveQuiet (move env))
    (hkit : ∀ pos c₀ env1, SimEnv True r pos c₀ p env env1 → MoveKit True r pos c₀ (move env) (move env1))
    (hkeep : Keeps env (move env) J) (hafter : ∀ s s' m, step env (consThen env (move env)) s = .ok s' → J m s')
    (g : List (K × Flt K × V) → V) (ga gl gs gd : K → K)
    (hcons : env.cons = .mean g) (hcorr : env.corr = .none) (hnoise : NoiseRows env ν) (hpm : PostMap env p)
    (hp : PermOK env) (hno : NormOK env) (hsched : SchedLocal env ga gl gs gd)
    (hgd : ∀ v, 0 ≤ v → 0 ≤ gd v)
    (a : Args K V) (hr : r < a.x0.rows) (hdt : 0 ≤ a.dt) (hsi : a.saveInt ≠ 0) (hterms : ∀ tm ∈ a.terms, BuiltIn tm)
    (s₀ s' : St K V) (fuel : ℕ) (h0 : init env a = .ok s₀)
    (h : optimize env (consThen env (move env)) fuel s₀ = .done s') :
    ∃ pos : ℕ → ℕ, (∀ c, pos c < a.x0.rows) ∧
      ∃ s₁ s₁', init (env.alone r pos ν) (a.single r) = .ok s₁ ∧
        optimize (env.alone r pos ν) (consThen (env.alone r pos ν) (move (env.alone r pos ν))) fuel s₁ = .done s₁' ∧ SameResult r s' s₁' :=
  independent_quiet env r p hmok hquiet hkit hkeep hafter hpm hp hno hsched hgd (fun pos => env.alone r pos ν)
    (fun pos c₀ => simEnv_rows hcons hnoise hpm hsched pos c₀ (corrSim_none hcorr hcorr) fun _ g' h => (nomatch hcorr.symm.trans h))
    (fun pos N c m j hj => hp N c r j hj) a hr hdt hsi hterms s₀ s' fuel h0 h

/-- Positions in the image of an idempotent map are fixed by it. -/
theorem image_fixed {env : Env K V} {p : V → V} (hpm : PostMap env p) (hid : ∀ v, p (p v) = p v) {inner : St K V → Except Err (St K V)} :
    ∀ s s' m, step env inner s = .ok s' → ∀ n < s'.N, p (s'.x.get m n) = s'.x.get m n := by
  intro s s' m h n _
  obtain ⟨v, hv⟩ := step_image hpm h m n
  rw [hv, hid]

end Verif
