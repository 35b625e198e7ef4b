import Verif.Proofs.Total
import Verif.Proofs.Count
import Verif.Spec.Post

/-! Stopped runs and unselected particles. Helper lemmas. -/

set_option linter.unusedSectionVars false

namespace Verif

variable {K V : Type} [Zero K] [One K] [Neg K] [Add K] [Sub K] [Mul K] [Inv K] [Div K] [NatCast K] [Pow K ℕ] [LinearOrder K] [Add V] [Sub V] [SMul K V]

/-- A move that leaves everything outside its particle index alone. -/
def MoveLocal (move : St K V → Except Err (St K V)) : Prop :=
  ∀ s s', move s = .ok s' → ∀ m n, ¬ s.pIdx.Sel m n → s'.x.get m n = s.x.get m n

theorem cboMove_local (env : Env K V) : MoveLocal (cboMove env) := by
  intro s s' h m n hs
  unfold cboMove at h
  split at h
  · simp at h
  · simp only [bind_ok, pure_ok] at h
    obtain ⟨xp, _, d, _, ⟨d', s1⟩, hcc, nn, _, u, _, x, hx, rfl⟩ := h
    obtain ⟨h1, -, -⟩ := correction_facts hcc
    simp only at h1 hx ⊢
    have e1 : s1.x = s.x := by rw [h1]
    have e2 : s1.pIdx = s.pIdx := by rw [h1]
    obtain ⟨-, -, -, x3, -⟩ := Mat.scatterAdd_ok hx
    rw [x3 m n (by rw [e2]; exact hs), e1]

theorem PostMap.ok {env : Env K V} {p : V → V} (h : PostMap env p) : PostOK env := by
  intro s x' hx
  rw [h s] at hx
  injection hx with hx
  subst hx
  exact ⟨rfl, rfl⟩

/-- Which particles a step selects for evaluation. -/
theorem cSel_active {env : Env K V} (hp : PermOK env) {s : St K V} (hw : WF s) {m n : ℕ}
    (h : (preStep env s).cIdx.Sel m n) : m ∈ s.active ∧ n < s.N := by
  have hix := preStep_idx env hp hw
  obtain ⟨i, hi, j, hj, e1, e2⟩ := h
  have hin := hix.cIn i hi j hj
  rw [hix.cRows] at hi
  rw [hix.cRun i hi] at e1
  exact ⟨e1 ▸ getD_mem hi, e2 ▸ hin.2⟩

theorem pSel_active {env : Env K V} (hp : PermOK env) {s : St K V} (hw : WF s) {m n : ℕ}
    (h : (preStep env s).pIdx.Sel m n) : m ∈ s.active ∧ n < s.N := by
  have hix := preStep_idx env hp hw
  obtain ⟨i, hi, j, hj, e1, e2⟩ := h
  have hin := hix.pIn i hi j hj
  rw [hix.pRows] at hi
  rw [hix.pRun i hi] at e1
  exact ⟨e1 ▸ getD_mem hi, e2 ▸ hin.2⟩

theorem mem_getD {l : List ℕ} {m : ℕ} (h : m ∈ l) : ∃ i < l.length, l.getD i 0 = m := by
  obtain ⟨i, hi, rfl⟩ := List.mem_iff_getElem.1 h
  exact ⟨i, hi, by simp [List.getD, hi]⟩

/-- The particle index in the different modes. -/
theorem preStep_pIdx (env : Env K V) (s : St K V) (hw : WF s) :
    (s.batched = true → s.batchPartial = true → (preStep env s).pIdx = (preStep env s).cIdx) ∧
    (s.batched = true → s.batchPartial = false → (preStep env s).pIdx = Idx.ofRuns s.active s.N) ∧
    (s.batched = false → (preStep env s).pIdx = (preStep env s).cIdx ∧
      (preStep env s).pIdx.rows = s.active.length ∧ (preStep env s).pIdx.cols = s.N ∧
      (∀ i < s.active.length, (preStep env s).pIdx.run i = s.active.getD i 0) ∧
      ∀ i j, (preStep env s).pIdx.par i j = j) := by
  refine ⟨?_, ?_, ?_⟩
  · intro hb hpa
    unfold preStep setBatch
    rw [if_pos hb]
    unfold setBatchBatched refill
    simp only
    split_ifs <;> first | rfl | (simp_all)
  · intro hb hpa
    unfold preStep setBatch
    rw [if_pos hb]
    unfold setBatchBatched refill
    simp only
    split_ifs <;> first | rfl | (simp_all)
  · intro hb
    unfold preStep setBatch
    rw [if_neg (by rw [hb]; simp)]
    unfold setBatchUnbatched
    simp only
    split_ifs with hl
    · refine ⟨trivial, hl.symm, rfl, ?_, fun _ _ => rfl⟩
      intro i hi
      rw [hw.act_full hl, range_getD (by omega)]; rfl
    · exact ⟨trivial, rfl, rfl, fun _ _ => rfl, fun _ _ => rfl⟩

theorem preStep_pSel {env : Env K V} (hp : PermOK env) {s : St K V} (hw : WF s) (m n : ℕ) :
    (preStep env s).pIdx.Sel m n ↔ m ∈ s.active ∧ n < s.N ∧
      (s.batched = true → s.batchPartial = true → (preStep env s).cIdx.Sel m n) := by
  obtain ⟨h1, h2, h3⟩ := preStep_pIdx env s hw
  constructor
  · intro h
    obtain ⟨a, b⟩ := pSel_active hp hw h
    exact ⟨a, b, fun hb hpa => h1 hb hpa ▸ h⟩
  · rintro ⟨hm, hn, hc⟩
    by_cases hb : s.batched = true
    · by_cases hpa : s.batchPartial = true
      · rw [h1 hb hpa]; exact hc hb hpa
      · rw [h2 hb (by simpa using hpa)]
        obtain ⟨i, hi, e⟩ := mem_getD hm
        exact ⟨i, hi, n, hn, e, rfl⟩
    · obtain ⟨-, r1, r2, r3, r4⟩ := h3 (by simpa using hb)
      obtain ⟨i, hi, e⟩ := mem_getD hm
      exact ⟨i, by omega, n, by omega, (r3 i hi).trans e, r4 i n⟩

theorem preStep_cSel_unbatched {env : Env K V} (hp : PermOK env) {s : St K V} (hw : WF s)
    (hb : s.batched = false) (m n : ℕ) :
    (preStep env s).cIdx.Sel m n ↔ m ∈ s.active ∧ n < s.N := by
  obtain ⟨-, -, h3⟩ := preStep_pIdx env s hw
  rw [← (h3 hb).1, preStep_pSel hp hw]
  simp [hb]

/-- Positions after a step: unselected particles are only post-processed. -/
theorem step_unsel {env : Env K V} {move : St K V → Except Err (St K V)} (hm : MoveOK move)
    (hl : MoveLocal move) {p : V → V} (hpm : PostMap env p) {s s' : St K V}
    (h : step env (consThen env move) s = .ok s') (m n : ℕ) (hs : ¬ s'.pIdx.Sel m n) :
    s'.x.get m n = p (s.x.get m n) := by
  have f := step_frame (consThen_frame hm) h
  obtain ⟨v, hv, hps⟩ := step_split.1 h
  obtain ⟨c, hcc, hmv⟩ := consThen_split.1 hv
  have p1 := preStep_frame env s
  have cf := computeConsensus_frame hcc
  have hx := (postStep_facts hps).post
  rw [hpm v] at hx
  injection hx with hx
  rw [← hx]
  simp only [Mat.map]
  have cx : c.x = s.x := by rw [cf]; simp only; rw [p1]
  rw [hl _ _ hmv m n (by
    have : c.pIdx = s'.pIdx := by rw [f.pIdx, cf]
    rw [this]; exact hs), cx]

theorem step_image {env : Env K V} {inner : St K V → Except Err (St K V)} {p : V → V} (hpm : PostMap env p)
    {s s' : St K V} (h : step env inner s = .ok s') (m n : ℕ) : ∃ v, s'.x.get m n = p v := by
  obtain ⟨v, hv, hps⟩ := step_split.1 h
  have hx := (postStep_facts hps).post
  rw [hpm v] at hx
  injection hx with hx
  rw [← hx]
  exact ⟨_, rfl⟩

/-- Best values and minimal energies fit to the current energies. -/
structure BestFit (s : St K V) : Prop where
  fMin : ∀ m < s.M, s.fMin m = Flt.rowMin s.energy.cols (s.energy.get m)
  best : ∀ m < s.M, Flt.gt (s.bestE m) (s.energy.get m (Flt.rowArgmin s.energy.cols (s.energy.get m))) = false
  diff : ∀ m < s.M, Flt.lt (s.updDiff m) (.fin 0) = false

theorem bestFit_step {env : Env K V} (hno : NormOK env) {move : St K V → Except Err (St K V)} (hm : MoveOK move)
    (hpost : PostOK env) {s s' : St K V} (h : step env (consThen env move) s = .ok s') : BestFit s' := by
  have q := step_sum hm hpost h
  refine ⟨fun m _ => q.fMin m, fun m _ => ?_, fun m _ => ?_⟩
  · rw [← q.fMinIdx m, ← q.bestCurE m, q.bestE m]
    split_ifs with hg
    · exact Flt.lt_irrefl _
    · simpa using hg
  · obtain ⟨v, hv, hps⟩ := step_split.1 h
    have p1 := preStep_frame env s
    obtain ⟨c, hcc, hmv⟩ := consThen_split.1 hv
    have cf := computeConsensus_frame hcc
    have mf := hm.frame _ _ hmv
    unfold MoveFrame at mf
    have vo : v.xOld = some s.x := by rw [mf]; simp only; rw [cf]; simp only; rw [p1]
    obtain ⟨pp, -, hu⟩ := (postStep_facts hps).updDiff _ vo
    rw [hu]
    exact hno.nonneg _

theorem bestFit_congr {s s' : St K V} (hb : BestFit s) (e1 : s'.M = s.M) (e2 : s'.fMin = s.fMin)
    (e3 : s'.energy = s.energy) (e4 : s'.bestE = s.bestE) (e5 : s'.updDiff = s.updDiff) : BestFit s' := by
  refine ⟨?_, ?_, ?_⟩
  · rw [e1, e2, e3]; exact hb.fMin
  · rw [e1, e3, e4]; exact hb.best
  · rw [e1, e5]; exact hb.diff

theorem bestFit_exec {env : Env K V} (hno : NormOK env) {move : St K V → Except Err (St K V)} (hm : MoveOK move)
    (hpost : PostOK env) {o : Op} {s s' : St K V} (hb : BestFit s)
    (h : exec env (consThen env move) o s = .ok s') : BestFit s' := by
  cases o with
  | step => exact bestFit_step hno hm hpost h
  | select =>
    have f := select_frame h
    exact bestFit_congr hb (by rw [f]) (by rw [f]) (by rw [f]) (by rw [f]) (by rw [f])
  | sched =>
    have f := sched_frame h
    exact bestFit_congr hb (by rw [f]) (by rw [f]) (by rw [f]) (by rw [f]) (by rw [f])
  | reset =>
    simp only [exec] at h
    injection h with h
    subst h
    exact bestFit_congr hb rfl rfl rfl rfl rfl

theorem rowMin_const (n : ℕ) (a : Flt K) : Flt.rowMin n (fun _ => a) = a := by
  rw [Flt.rowMin_eq]

theorem bestFit_init {env : Env K V} {a : Args K V} {s : St K V} (h : init env a = .ok s) : BestFit s := by
  unfold init at h
  split_ifs at h
  all_goals
    injection h with h
    subst h
    refine ⟨fun m _ => ?_, fun m _ => ?_, fun m _ => rfl⟩
    · simp only [initBatch, initHistory, checkFDims, callF, baseSt]
      exact (rowMin_const _ _).symm
    · simp [initBatch, initHistory, checkFDims, callF, baseSt, Flt.gt, Flt.lt]

/-- What a step does to a run that is not active. -/
theorem step_stopped {env : Env K V} {move : St K V → Except Err (St K V)} (hm : MoveOK move)
    (hq : MoveQuiet move) (hpost : PostOK env) (hp : PermOK env)
    {s s' : St K V} (hw : WF s) (hb : BestFit s) {m : ℕ} (hM : m < s.M) (hna : m ∉ s.active)
    (h : step env (consThen env move) s = .ok s') (hx : ∀ n < s.N, s'.x.get m n = s.x.get m n) :
    SameRun m s s' := by
  have q := step_sum hm hpost h
  have cs : ∀ n, ¬ s'.cIdx.Sel m n := by
    intro n hn
    rw [q.cIdx] at hn
    exact hna (cSel_active hp hw hn).1
  have een : s'.energy.get m = s.energy.get m := by
    funext n; exact q.stale m n (cs n)
  have hcur : s'.bestCurE m = s.energy.get m (Flt.rowArgmin s.energy.cols (s.energy.get m)) := by
    rw [q.bestCurE, q.fMinIdx, een, q.ec]
  have hgt := hb.best m hM
  rw [← hcur] at hgt
  refine ⟨hx, fun n _ => q.stale m n (cs n), ?_, ?_, ?_, ?_⟩
  · rw [q.bestE, hgt]; rfl
  · rw [q.bestP, hgt]; rfl
  · obtain ⟨v, hv, hps⟩ := step_split.1 h
    obtain ⟨c, hcc, hmv⟩ := consThen_split.1 hv
    have p1 := preStep_frame env s
    have hc := (computeConsensus_facts hcc).nEval
    have n1 : s'.nEval = v.nEval := by rw [(postStep_facts hps).frame]
    have n0 : (preStep env s).nEval = s.nEval := by rw [p1]
    have pact : (preStep env s).active = s.active := by rw [p1]
    rw [n1, (hq _ _ hmv).1, hc, n0, pact]
    simp only
    rw [if_neg hna]
  · rw [q.fMin, een, q.ec, hb.fMin m hM]

/-- `update_diff` of a run that is not active. -/
theorem step_stopped_diff {env : Env K V} (hno : NormOK env) {move : St K V → Except Err (St K V)}
    (hm : MoveOK move) (hpost : PostOK env) {s s' : St K V} (hw : WF s) {m : ℕ} (hM : m < s.M)
    (hsame : ∀ n < s.N, s'.x.get m n = s.x.get m n)
    (h : step env (consThen env move) s = .ok s') : s'.updDiff m = .fin 0 := by
  have q := step_sum hm hpost h
  obtain ⟨v, hv, hps⟩ := step_split.1 h
  have p1 := preStep_frame env s
  obtain ⟨c, hcc, hmv⟩ := consThen_split.1 hv
  have cf := computeConsensus_frame hcc
  have mf := hm.frame _ _ hmv
  unfold MoveFrame at mf
  have vo : v.xOld = some s.x := by rw [mf]; simp only; rw [cf]; simp only; rw [p1]
  obtain ⟨pp, hpp, hu⟩ := (postStep_facts hps).updDiff _ vo
  rw [hu]
  apply hno.zero
  obtain ⟨d1, d2, d3⟩ := Mat.bin_ok hpp
  rw [q.xr, Mat.bdim_self] at d1
  rw [q.xc, Mat.bdim_self] at d2
  simp only [Option.some.injEq] at d1 d2
  intro z hz
  simp only [Mat.row, List.mem_map, List.mem_range] at hz
  obtain ⟨j, hj, rfl⟩ := hz
  rw [d3]
  have hr1 : m < s'.x.rows := by rw [q.xr, hw.xr]; exact hM
  have hr2 : m < s.x.rows := by rw [hw.xr]; exact hM
  have hc1 : j < s'.x.cols := by rw [q.xc]; omega
  have hc2 : j < s.x.cols := by omega
  rw [Mat.bpos_lt hr1, Mat.bpos_lt hr2, Mat.bpos_lt hc1, Mat.bpos_lt hc2]
  exact hsame j (by rw [← hw.xc]; omega)

end Verif
