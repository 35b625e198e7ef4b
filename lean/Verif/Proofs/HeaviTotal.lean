import Verif.Proofs.Correction
import Verif.Proofs.NeverRaises
import Verif.Model.Post

/-! Helper lemmas for `Props/HeaviTotal.lean`: CBO steps with a Heaviside correction that do not raise. -/

set_option linter.unusedSectionVars false

namespace Verif

variable {K V : Type} [Zero K] [One K] [Neg K] [Add K] [Sub K] [Mul K] [Inv K] [Div K] [NatCast K] [Pow K ℕ] [LinearOrder K] [Add V] [Sub V] [SMul K V]

theorem correction_heavi_total {env : Env K V} {g : Flt K → V → V} (hg : env.corr = .heavi g) {s : St K V} {c : Mat V} (hcons : s.cons = some c) (hcols : c.cols = 1)
    {d : Mat V} (h1 : Mat.bdim s.energy.rows c.rows = some d.rows) (h2 : s.energy.cols = d.cols) :
    ∃ (d' : Mat V) (k : ℕ → ℕ) (L : List (Site × ℕ × V)), correction env d s = .ok (d', { s with nEval := k, log := L }) ∧ d'.rows = d.rows ∧ d'.cols = d.cols := by
  unfold correction
  rw [hg, hcons]
  simp only [callF, bind, Except.bind, pure, Except.pure]
  rw [Mat.bin_of_dims (r := d.rows) (c := d.cols) (by simpa only [Mat.map] using h1) (by simp only [Mat.map]; rw [hcols, h2]; exact Mat.bdim_one_right _)]
  simp only
  generalize (fun i j => (s.energy.get (Mat.bpos s.energy.rows i) (Mat.bpos s.energy.cols j)).sub
    ((Mat.map env.f c).get (Mat.bpos (Mat.map env.f c).rows i) (Mat.bpos (Mat.map env.f c).cols j))) = G
  rw [Mat.bin_of_dims (a := d) (b := ⟨d.rows, d.cols, G⟩) (r := d.rows) (c := d.cols) (Mat.bdim_self _) (Mat.bdim_self _)]
  exact ⟨_, _, _, rfl, rfl, rfl⟩

theorem heaviMove_total {env : Env K V} {g : Flt K → V → V} (hg : env.corr = .heavi g) {s : St K V} (hn : NoiseOK env) {c : Mat V}
    (hcons : s.cons = some c) (hrows : c.rows = s.pIdx.rows) (hcols : c.cols = 1) (hin : s.pIdx.InBounds s.x.rows s.x.cols)
    (h1 : Mat.bdim s.energy.rows s.pIdx.rows = some s.pIdx.rows) (h2 : s.energy.cols = s.pIdx.cols) : ∃ s', cboMove env s = .ok s' := by
  unfold cboMove
  rw [hcons]
  simp only
  rw [Mat.gather_of_inBounds hin]
  simp only [bind, Except.bind, pure, Except.pure]
  rw [Mat.bin_of_dims (r := s.pIdx.rows) (c := s.pIdx.cols) (by simp only; rw [hrows]; exact Mat.bdim_self _)
    (by simp only; rw [hcols]; exact Mat.bdim_one_right _)]
  simp only
  generalize hd : (fun i j => s.x.get (s.pIdx.run (Mat.bpos s.pIdx.rows i)) (s.pIdx.par (Mat.bpos s.pIdx.rows i) (Mat.bpos s.pIdx.cols j)) -
        c.get (Mat.bpos c.rows i) (Mat.bpos c.cols j)) = D
  obtain ⟨d, k, L, hco, d1, d2⟩ := correction_heavi_total hg hcons hcols (d := ⟨s.pIdx.rows, s.pIdx.cols, D⟩) (by rw [hrows]; exact h1) h2
  rw [hco]
  simp only at d1 d2 ⊢
  obtain ⟨n, hn', n1, n2⟩ := hn { s with nEval := k, log := L, drift := some d } d rfl
  rw [hn']
  simp only
  rw [Mat.bin_of_dims (r := s.pIdx.rows) (c := s.pIdx.cols) (by rw [n1, d1]; exact Mat.bdim_self _) (by rw [n2, d2]; exact Mat.bdim_self _)]
  simp only
  obtain ⟨x, hx⟩ := Mat.scatterAdd_of_shape (v := ⟨s.pIdx.rows, s.pIdx.cols, fun i j =>
      cboUpdate s.lamda s.dt s.sigma (d.get (Mat.bpos d.rows i) (Mat.bpos d.cols j)) (n.get (Mat.bpos n.rows i) (Mat.bpos n.cols j))⟩) hin rfl rfl
  rw [hx]
  exact ⟨_, rfl⟩

theorem heaviStep_total {env : Env K V} {g : Flt K → V → V} (hg : env.corr = .heavi g) (hmean : ∃ r, env.cons = .mean r) (hn : NoiseOK env)
    (hpost : ∀ s, ∃ x', env.post s = .ok x' ∧ x'.rows = s.x.rows ∧ x'.cols = s.x.cols) (hp : PermOK env) {s : St K V}
    (hw : WF s) (hsi : s.saveInt ≠ 0) (hne : NonEmpty env s) (hfull : s.batched = false ∨ s.batchPartial = false) (hall : s.active.length = s.M ∨ s.M = 1) :
    ∃ s', step env (cboInner env) s = .ok s' := by
  have hix := preStep_idx env hp hw
  have p1 := preStep_frame env s
  have pact : (preStep env s).active = s.active := by rw [p1]
  have px : (preStep env s).x = s.x := by rw [p1]
  have pe : (preStep env s).energy = s.energy := by rw [p1]
  obtain ⟨c, hc⟩ := computeConsensus_total (env := env) (s := preStep env s) hne.pre
    (by rw [px, hw.xr, hw.xc]; exact hix.cIn) (by rw [pe, hw.er, hw.ec]; exact hix.cIn)
    (by rw [pact]; exact hix.cRows) (by rw [preStep_batchSize]; exact hix.cCols)
  have cf := computeConsensus_frame hc
  have cfacts := computeConsensus_facts hc
  obtain ⟨r, hr⟩ := hmean
  obtain ⟨cm, hcm, cm1, cm2, -⟩ := computeConsensus_mean hr (by rw [pact]; exact hix.cRows) hc
  have cx : c.x = s.x := by rw [cf]; exact px
  have cp : c.pIdx = (preStep env s).pIdx := by rw [cf]
  have hpc : c.pIdx.cols = s.N := by
    rw [cp]
    obtain ⟨e1, e2, e3⟩ := preStep_pIdx env s hw
    by_cases hb : s.batched = true
    · rcases hfull with hf | hf
      · rw [hb] at hf; cases hf
      · rw [e2 hb hf]; rfl
    · exact (e3 (by simpa using hb)).2.2.1
  have hpr : c.pIdx.rows = s.active.length := by rw [cp]; exact hix.pRows
  obtain ⟨v, hv⟩ := heaviMove_total hg hn hcm (by rw [cm1, hpr, pact]) cm2 (by rw [cx, cp, hw.xr, hw.xc]; exact hix.pIn)
    (by
      rw [cfacts.er, pe, hw.er, hpr]
      rcases hall with h | h
      · rw [h]; exact Mat.bdim_self _
      · rw [h]; exact Mat.bdim_one_left _)
    (by rw [cfacts.ec, pe, hw.ec, hpc])
  have mok := cboMove_ok env
  have mf := mok.frame _ _ hv
  unfold MoveFrame at mf
  have hin : cboInner env (preStep env s) = .ok v := by
    rw [cboInner_eq]; exact consThen_split.2 ⟨c, hc, hv⟩
  obtain ⟨s', hs'⟩ := postStep_total hpost (s := v)
    (by
      have : v.energy.cols = s.N := by
        have e1 : v.energy = c.energy := by rw [mf]
        rw [e1, cfacts.ec, pe, hw.ec]
      rw [this]; exact hw.pos.ne')
    (by
      have : v.saveInt = s.saveInt := by rw [mf]; simp only; rw [cf]; simp only; rw [p1]
      rw [this]; exact hsi)
    (by
      intro o ho
      have e2 : v.xOld = some s.x := by rw [mf]; simp only; rw [cf]; simp only; rw [p1]
      rw [e2] at ho
      injection ho with ho
      subst ho
      rw [mok.rows _ _ hv, mok.cols _ _ hv, cx]
      exact ⟨rfl, rfl⟩)
  exact ⟨s', step_split.2 ⟨v, hin, hs'⟩⟩

/-- The charge of a successful step with a Heaviside correction: the batch for active runs, plus one evaluation per active run for *every* run. -/
theorem heaviStep_nEval {env : Env K V} {g : Flt K → V → V} (hg : env.corr = .heavi g) {r : List (K × Flt K × V) → V} (hr : env.cons = .mean r) (hp : PermOK env)
    {s s' : St K V} (hw : WF s) (h : step env (cboInner env) s = .ok s') (m : ℕ) :
    s'.nEval m = (if m ∈ s.active then s.nEval m + s.batchSize else s.nEval m) + s.active.length := by
  rw [cboInner_eq] at h
  obtain ⟨v, hv, hs⟩ := step_split.1 h
  obtain ⟨c, hcc, hmv⟩ := consThen_split.1 hv
  have p1 := preStep_frame env s
  have hix := preStep_idx env hp hw
  have hc := (computeConsensus_facts hcc).nEval
  have pf := (postStep_facts hs).frame
  have n1 : s'.nEval = v.nEval := by rw [pf]
  have n0 : (preStep env s).nEval = s.nEval := by rw [p1]
  have pact : (preStep env s).active = s.active := by rw [p1]
  obtain ⟨cm, hcm, cm1, -, -⟩ := computeConsensus_mean hr (by rw [pact]; exact hix.cRows) hcc
  rw [n1, (cboMove_heavi hg hcm hmv).1]
  simp only
  rw [hc, n0, pact, hix.cCols, cm1, pact]

/-- Everything but the correction is as `EnvOK` wants it. -/
structure HeaviEnv (env : Env K V) : Prop where
  corr : ∃ g, env.corr = .heavi g
  mean : ∃ r, env.cons = .mean r
  noise : NoiseOK env
  post : ∀ s, ∃ x', env.post s = .ok x' ∧ x'.rows = s.x.rows ∧ x'.cols = s.x.cols
  sched : ∀ s, ∃ p, env.sched s = .ok p

theorem HeaviEnv.postOK {env : Env K V} (h : HeaviEnv env) : PostOK env := by
  intro s x' hx
  obtain ⟨y, hy, h1, h2⟩ := h.post s
  rw [hy] at hx
  injection hx with hx
  subst hx
  exact ⟨h1, h2⟩

/-- One run, and every particle is moved in every step. -/
structure HeaviSt (env : Env K V) (T : List (Term K)) (s : St K V) : Prop where
  wf : WF s
  si : s.saveInt ≠ 0
  terms : s.terms = T
  one : s.M = 1
  full : s.batched = false ∨ s.batchPartial = false
  pos : env.emptyRaises = true → s.batchSize ≠ 0

theorem exec_heavi {env : Env K V} (he : HeaviEnv env) (hp : PermOK env) {T : List (Term K)} (hst : ∀ tm ∈ T, Stateless tm) (o : Op) {s : St K V} (hs : HeaviSt env T s)
    (ha : env.emptyRaises = true → o = .step → s.active ≠ []) : ∃ q, exec env (cboInner env) o s = .ok q ∧ HeaviSt env T q ∧ q.N = s.N := by
  have hex : ∃ q, exec env (cboInner env) o s = .ok q ∧ q.saveInt ≠ 0 ∧ q.terms = s.terms ∧ q.M = s.M ∧ q.N = s.N ∧
      q.batchSize = s.batchSize ∧ q.batched = s.batched ∧ q.batchPartial = s.batchPartial := by
    cases o with
    | step =>
      obtain ⟨g, hg⟩ := he.corr
      obtain ⟨q, hq⟩ := heaviStep_total hg he.mean he.noise he.post hp hs.wf hs.si (fun h => ⟨ha h rfl, hs.pos h⟩) hs.full (.inr hs.one)
      have f := step_frame (consThen_frame (cboMove_ok env)) hq
      exact ⟨q, hq, by rw [f.saveInt]; exact hs.si, f.terms, f.M, f.N, f.batchSize, f.batched, f.batchPartial⟩
    | select =>
      obtain ⟨q, h1, h2, -⟩ := select_stateless (env := env) (s := s) (by rw [hs.terms]; exact hst)
      exact ⟨q, h1, by rw [h2]; exact hs.si, by rw [h2], by rw [h2], by rw [h2], by rw [h2], by rw [h2], by rw [h2]⟩
    | sched =>
      obtain ⟨pp, hpp⟩ := he.sched s
      exact ⟨{s with alpha := pp.alpha, lamda := pp.lamda, sigma := pp.sigma, dt := pp.dt},
        by simp only [exec, schedUpdate, hpp]; rfl, hs.si, rfl, rfl, rfl, rfl, rfl, rfl⟩
    | reset => exact ⟨_, rfl, by simp [reset, initHistory], rfl, rfl, rfl, rfl, rfl, rfl⟩
  obtain ⟨q, hq, h1, h2, h3, h4, h5, h6, h7⟩ := hex
  exact ⟨q, hq, ⟨exec_wf (cboMove_ok env) he.postOK hp hs.wf (o := o) hq, h1, by rw [h2, hs.terms], by rw [h3, hs.one], by rw [h6, h7]; exact hs.full,
    by rw [h5]; exact hs.pos⟩, h4⟩

theorem execAll_heavi {env : Env K V} (he : HeaviEnv env) (hp : PermOK env) {T : List (Term K)} (hst : ∀ tm ∈ T, Stateless tm) : ∀ (ops : List Op) (s : St K V), HeaviSt env T s →
    (env.emptyRaises = true → StepsActive env (cboInner env) ops s) → ∃ s', execAll env (cboInner env) ops s = .ok s' ∧ HeaviSt env T s' ∧ s'.N = s.N
  | [], s, hs, _ => ⟨s, rfl, hs, rfl⟩
  | o :: l, s, hs, ha => by
    obtain ⟨q, hq, hs', q4⟩ := exec_heavi he hp hst o hs fun h => (ha h).1
    obtain ⟨s', r1, r2, r3⟩ := execAll_heavi he hp hst l q hs' fun h => (ha h).2 q hq
    refine ⟨s', ?_, r2, by omega⟩
    simp only [execAll, bind_ok]
    exact ⟨q, hq, r1⟩

theorem optimize_heavi {env : Env K V} (he : HeaviEnv env) (hp : PermOK env) {T : List (Term K)} (hst : ∀ tm ∈ T, Stateless tm) : ∀ (fuel : ℕ) (s : St K V), HeaviSt env T s →
    ∀ e, optimize env (cboInner env) fuel s ≠ .raised e
  | 0, s, _, e => by simp [optimize]
  | fuel + 1, s, hs, e => by
    obtain ⟨q, hq, hq', -⟩ := exec_heavi he hp hst .select hs fun _ h => by cases h
    simp only [exec] at hq
    simp only [optimize, hq]
    split_ifs with h0
    · simp
    · obtain ⟨u, hu, hu', -⟩ := exec_heavi he hp hst .step hq' fun _ _ h => h0 (by rw [h]; rfl)
      obtain ⟨v, hv, hv', -⟩ := exec_heavi he hp hst .sched hu' fun _ h => by cases h
      simp only [exec] at hu hv
      simp only [hu, hv]
      exact optimize_heavi he hp hst fuel v hv' e

section
variable {ι : Type}

/-- The drift of one particle and what follows for its position, for either of the Heaviside corrections and IEEE coordinates. -/
theorem heavi_ieee (env : Env ℝ (ι → Flt ℝ)) (g : Flt ℝ → (ι → Flt ℝ) → ι → Flt ℝ) (hg : env.corr = .heavi g) (r : List (ℝ × Flt ℝ × (ι → Flt ℝ)) → ι → Flt ℝ) (hr : env.cons = .mean r)
    (hp : PermOK env) (big T : ℝ) (hpost : env.post = postDefault false big T) (s s' : St ℝ (ι → Flt ℝ)) (hw : WF s) (hb : s.batched = false) (hall : s.active.length = s.M)
    (h : step env (cboInner env) s = .ok s') :
    ∃ (c d : Mat (ι → Flt ℝ)) (nz : ℕ → ℕ → ι → Flt ℝ), s'.cons = some c ∧ s'.drift = some d ∧ ∀ m < s.M, ∀ n < s.N,
      d.get m n = g (Flt.sub (env.f (s.x.get m n)) (env.f (c.get m 0))) (s.x.get m n - c.get m 0) ∧
      ∀ i, s'.x.get m n i = postCoord false big T (s.x.get m n i + ((-s.lamda * s.dt) • d.get m n i + s.sigma • nz m n i)) := by
  obtain ⟨q, v, cm, q1, q2, q3, q4, q5, q6, q7, ⟨w, w1, w2⟩, l1, l2, l3, q8, q9, q10, q11, q12, q13⟩ := heaviStep_split hr hp hw h
  obtain ⟨d, zr, zc, ur, uc, d1, d2, d3, -, -, -, -, -, -, -, -, d4, d5⟩ := heaviMove_facts hg q1 (by rw [q2, q10]) q3 q4
  obtain ⟨e1, r1, r2, r3, r4⟩ := (preStep_pIdx env s hw).2.2 hb
  have hact : ∀ i < s.M, s.active.getD i 0 = i := by
    intro i hi
    rw [hw.act_full hall]
    simp [List.getD, hi]
  rw [← q9] at r1 r2 r3 r4
  have hM : q.pIdx.rows = s.M := by rw [q10, hall]
  have hrun : ∀ i < s.M, q.pIdx.run i = i := fun i hi => by rw [r3 i (by omega), hact i hi]
  obtain ⟨q', nz, n1, n2, n3⟩ := d5 (by rw [q11, hM]) (by rw [q12, r2])
  refine ⟨cm, d, fun m n => nz.get (Mat.bpos nz.rows m) (Mat.bpos nz.cols n), by rw [q6, d2], by rw [q5, d1], ?_⟩
  intro m hm n hn
  have hsel : q.pIdx.Sel m n := ⟨m, by omega, n, by omega, hrun m hm, r4 m n⟩
  have hd := d4 (by rw [q11, hM]) (by rw [q12, r2]) m (by omega) n (by omega)
  rw [hrun m hm, r4, q8, q13 m n (by rw [← e1, ← q9]; exact hsel)] at hd
  refine ⟨hd, fun i => ?_⟩
  rw [hpost] at w2
  simp only [postDefault] at w2
  injection w2 with w2
  rw [← w2]
  simp only [Mat.map]
  obtain ⟨i', hi, j', hj, s1, s2, s3⟩ := n3 m n hsel
  rw [hrun i' (by omega)] at s1
  rw [r4] at s2
  subst s1 s2
  rw [w1, s3, q8, l1, l2, l3]
  rfl

end

end Verif
