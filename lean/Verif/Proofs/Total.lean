import Verif.Proofs.Term

/-! Explicit description of a CBO step, and totality. Helper lemmas. -/

set_option linter.unusedSectionVars false

namespace Verif

variable {K V : Type} [Zero K] [One K] [Neg K] [Add K] [Sub K] [Mul K] [Inv K] [Div K] [NatCast K] [Pow K ℕ] [LinearOrder K] [Add V] [Sub V] [SMul K V]

/-- The noise model returns an array of the shape of the drift. -/
def NoiseOK (env : Env K V) : Prop :=
  ∀ (s : St K V) d, s.drift = some d → ∃ n, env.noise s = .ok n ∧ n.rows = d.rows ∧ n.cols = d.cols

/-- Whatever the noise model returns has the shape of the drift, or on some axis neither that length nor 1 (adding such an
array to the particles raises). Covariance noise satisfies only this. -/
def NoiseShape (env : Env K V) : Prop :=
  ∀ (s : St K V) d n, s.drift = some d → env.noise s = .ok n →
    (n.rows = d.rows ∨ n.rows ≠ 1) ∧ (n.cols = d.cols ∨ n.cols ≠ 1)

theorem NoiseOK.shape {env : Env K V} (h : NoiseOK env) : NoiseShape env := by
  intro s d n hd hn
  obtain ⟨n', h1, h2, h3⟩ := h s d hd
  rw [hn] at h1
  injection h1 with h1
  subst h1
  exact ⟨.inl h2, .inl h3⟩

/-- Plain CBO surroundings: no correction, one consensus point per run, noise of the right shape, post processing and
scheduler that do not raise. -/
structure EnvOK (env : Env K V) : Prop where
  corr : env.corr = .none
  mean : ∃ r, env.cons = .mean r
  noise : NoiseOK env
  post : ∀ s, ∃ x', env.post s = .ok x' ∧ x'.rows = s.x.rows ∧ x'.cols = s.x.cols
  sched : ∀ s, ∃ p, env.sched s = .ok p

theorem EnvOK.postOK {env : Env K V} (h : EnvOK env) : PostOK env := by
  intro s x' hx
  obtain ⟨y, hy, h1, h2⟩ := h.post s
  rw [hy] at hx
  injection hx with hx
  subst hx
  exact ⟨h1, h2⟩

/-- The weighted sample of one run that the consensus rule sees. -/
def sampleOf (env : Env K V) (s : St K V) (i : ℕ) : List (K × Flt K × V) :=
  (List.range s.cIdx.cols).map fun j =>
    (s.alpha (s.active.getD i 0), env.f (s.x.get (s.cIdx.run i) (s.cIdx.par i j)),
      s.x.get (s.cIdx.run i) (s.cIdx.par i j))

/-- Either something is selected in a step from `s`, or an empty selection does not raise. -/
def NonEmpty (env : Env K V) (s : St K V) : Prop := env.emptyRaises = true → s.active ≠ [] ∧ s.batchSize ≠ 0

theorem computeConsensus_total {env : Env K V} {s : St K V} (hne : NonEmpty env s) (h1 : s.cIdx.InBounds s.x.rows s.x.cols)
    (h2 : s.cIdx.InBounds s.energy.rows s.energy.cols) (h3 : s.cIdx.rows = s.active.length) (h4 : s.cIdx.cols = s.batchSize) :
    ∃ s', computeConsensus env s = .ok s' := by
  unfold computeConsensus
  rw [Mat.gather_of_inBounds h1]
  have hck : ∀ xb : Mat V, xb.rows = s.cIdx.rows → xb.cols = s.cIdx.cols → emptyCheck env xb = .ok () := by
    intro xb e1 e2
    unfold emptyCheck
    rw [if_neg]
    · rfl
    · rintro ⟨h, h'⟩
      obtain ⟨n1, n2⟩ := hne h
      rw [e1, e2, h3, h4, List.length_eq_zero_iff] at h'
      tauto
  simp only [evalF, callF, bind, Except.bind]
  rw [hck _ rfl rfl]
  simp only
  rw [Mat.bin_of_dims (r := s.active.length) (c := s.cIdx.cols)
    (by simp only [alphaActive, Mat.map]; rw [h3]; exact Mat.bdim_self _)
    (by simp only [alphaActive, Mat.map]; exact Mat.bdim_one_left _)]
  simp only
  rw [Mat.bin_of_dims (r := s.active.length) (c := s.cIdx.cols)
    (by simp only; rw [h3]; exact Mat.bdim_self _) (by simp only; exact Mat.bdim_self _)]
  simp only
  obtain ⟨en, hen⟩ := Mat.scatter_of_shape (v := Mat.map env.f
    ⟨s.cIdx.rows, s.cIdx.cols, fun i j => s.x.get (s.cIdx.run i) (s.cIdx.par i j)⟩) h2 rfl rfl
  rw [hen]
  exact ⟨_, rfl⟩

/-- An empty selection raises, if it does. -/
theorem computeConsensus_empty {env : Env K V} {s : St K V} (hr : env.emptyRaises = true) (h1 : s.cIdx.InBounds s.x.rows s.x.cols)
    (h : s.cIdx.rows = 0 ∨ s.cIdx.cols = 0) : computeConsensus env s = .error .value := by
  unfold computeConsensus
  rw [Mat.gather_of_inBounds h1]
  simp only [emptyCheck, hr, true_and, if_pos h, bind, Except.bind]

/-- If the consensus was computed, something was selected, or an empty selection does not raise. -/
theorem computeConsensus_nonempty {env : Env K V} {s s' : St K V} (h : computeConsensus env s = .ok s') (hr : env.emptyRaises = true) :
    s.cIdx.rows ≠ 0 ∧ s.cIdx.cols ≠ 0 := by
  have hin := (computeConsensus_facts h).cIn
  constructor <;> intro h0 <;> rw [computeConsensus_empty hr hin (by tauto)] at h <;> cases h

theorem computeConsensus_mean {env : Env K V} {s s' : St K V} {r : List (K × Flt K × V) → V}
    (hr : env.cons = .mean r) (h3 : s.cIdx.rows = s.active.length)
    (h : computeConsensus env s = .ok s') :
    ∃ c, s'.cons = some c ∧ c.rows = s.active.length ∧ c.cols = 1 ∧
      ∀ i < s.active.length, c.get i 0 = r (sampleOf env s i) := by
  simp only [computeConsensus, bind_ok, pure_ok, evalF, callF] at h
  obtain ⟨xb, hxb, _, _, w, hw, wx, hwx, en, hen, rfl⟩ := h
  obtain ⟨hin, xr, xc, hg⟩ := Mat.gather_ok hxb
  obtain ⟨w1, w2, w3⟩ := Mat.bin_ok hw
  obtain ⟨y1, y2, y3⟩ := Mat.bin_ok hwx
  simp only [alphaActive, Mat.map] at w1 w2 w3
  rw [xr, h3, Mat.bdim_self] at w1
  rw [xc, Mat.bdim_one_left] at w2
  simp only [Option.some.injEq] at w1 w2
  rw [← w1, xr, h3, Mat.bdim_self] at y1
  rw [← w2, xc, Mat.bdim_self] at y2
  simp only [Option.some.injEq] at y1 y2
  simp only
  rw [hr]
  refine ⟨_, rfl, y1.symm, rfl, ?_⟩
  intro i hi
  simp only [Mat.row, sampleOf, Cons.apply]
  congr 1
  rw [← y2]
  apply List.map_congr_left
  intro j hj
  have hj' := List.mem_range.1 hj
  rw [y3, w3]
  rw [Mat.bpos_lt (show i < w.rows by omega), Mat.bpos_lt (show j < w.cols by omega)]
  rw [Mat.bpos_lt (show i < s.active.length by omega), Mat.bpos_lt (show i < xb.rows by omega),
    Mat.bpos_lt (show j < xb.cols by omega), hg]

/-- What the CBO move does when there is no correction. -/
structure MoveFacts (env : Env K V) (s s' : St K V) (c d n : Mat V) : Prop where
  drift : s'.drift = some d
  noise : env.noise { s with drift := some d } = .ok n
  dr : d.rows = s.pIdx.rows
  dc : d.cols = s.pIdx.cols
  dget : ∀ i < s.pIdx.rows, ∀ j < s.pIdx.cols,
    d.get i j = s.x.get (s.pIdx.run i) (s.pIdx.par i j) - c.get i 0
  nr : n.rows = s.pIdx.rows
  nc : n.cols = s.pIdx.cols
  draws : s'.draws = s.draws + 1
  unsel : ∀ m k, ¬ s.pIdx.Sel m k → s'.x.get m k = s.x.get m k
  sel : ∀ m k, s.pIdx.Sel m k → ∃ i < s.pIdx.rows, ∃ j < s.pIdx.cols, s.pIdx.run i = m ∧ s.pIdx.par i j = k ∧
    s'.x.get m k = s.x.get m k + cboUpdate s.lamda s.dt s.sigma (d.get i j) (n.get i j)
  slot : ∀ m k, s.pIdx.Sel m k → ∃ i < s.pIdx.rows, ∃ j < s.pIdx.cols, s.pIdx.run i = m ∧ s.pIdx.par i j = k ∧
    (∀ j', j < j' → j' < s.pIdx.cols → s.pIdx.par i j' ≠ k) ∧
    s'.x.get m k = s.x.get m k + cboUpdate s.lamda s.dt s.sigma (d.get i j) (n.get i j)
  rest : s' = { s with x := s'.x, drift := s'.drift, draws := s'.draws }

theorem cboMove_facts {env : Env K V} (hc : env.corr = .none) (hn : NoiseShape env) {s s' : St K V} {c : Mat V}
    (hcons : s.cons = some c) (hrows : c.rows = s.pIdx.rows) (hcols : c.cols = 1)
    (h : cboMove env s = .ok s') : ∃ d n, MoveFacts env s s' c d n := by
  unfold cboMove at h
  rw [hcons] at h
  simp only [bind_ok, pure_ok, correction, hc] at h
  obtain ⟨xp, hxp, d, hd, a, rfl, n, hnn, u, hu, x, hx, rfl⟩ := h
  obtain ⟨_, g1, g2, g3⟩ := Mat.gather_ok hxp
  obtain ⟨d1, d2, d3⟩ := Mat.bin_ok hd
  rw [g1, hrows, Mat.bdim_self] at d1
  rw [g2, hcols, Mat.bdim_one_right] at d2
  simp only [Option.some.injEq] at d1 d2
  simp only at hnn hu hx
  obtain ⟨u1, u2, u3⟩ := Mat.bin_ok hu
  have hsh := hn { s with drift := some d } d n rfl hnn
  obtain ⟨n1, n2⟩ : n.rows = d.rows ∧ n.cols = d.cols := by
    obtain ⟨-, -, -, -, -, hb1, hb2⟩ := Mat.scatterAdd_ok hx
    refine ⟨?_, ?_⟩
    · rcases hsh.1 with h | h
      · exact h
      · have := Mat.bdim_eq_some u1
        omega
    · rcases hsh.2 with h | h
      · exact h
      · have := Mat.bdim_eq_some u2
        omega
  rw [n1, Mat.bdim_self] at u1
  rw [n2, Mat.bdim_self] at u2
  simp only [Option.some.injEq] at u1 u2
  obtain ⟨-, -, -, x3, x4, -, -⟩ := Mat.scatterAdd_ok hx
  refine ⟨d, n, rfl, hnn, d1.symm, d2.symm, ?_, by omega, by omega, rfl, x3, ?_, ?_, rfl⟩
  · intro i hi j hj
    rw [d3, Mat.bpos_lt (by omega : i < xp.rows), Mat.bpos_lt (by omega : j < xp.cols), g3,
      Mat.bpos_lt (by omega : i < c.rows), hcols]
    rfl
  · intro m k hs
    obtain ⟨i, hi, j, hj, e1, e2, e3⟩ := x4 m k hs
    refine ⟨i, hi, j, hj, e1, e2, ?_⟩
    simp only
    rw [e3, Mat.bpos_lt (by omega : i < u.rows), Mat.bpos_lt (by omega : j < u.cols), u3,
      Mat.bpos_lt (by omega : i < d.rows), Mat.bpos_lt (by omega : j < d.cols),
      Mat.bpos_lt (by omega : i < n.rows), Mat.bpos_lt (by omega : j < n.cols)]
  · intro m k hs
    obtain ⟨i, hi, j, hj, e1, e2, emax, e3⟩ := Mat.scatterAdd_slot hx m k hs
    refine ⟨i, hi, j, hj, e1, e2, emax, ?_⟩
    simp only
    rw [e3, Mat.bpos_lt (by omega : i < u.rows), Mat.bpos_lt (by omega : j < u.cols), u3,
      Mat.bpos_lt (by omega : i < d.rows), Mat.bpos_lt (by omega : j < d.cols),
      Mat.bpos_lt (by omega : i < n.rows), Mat.bpos_lt (by omega : j < n.cols)]

theorem cboMove_total {env : Env K V} (hc : env.corr = .none) {s : St K V}
    (hn : ∀ d : Mat V, d.rows = s.pIdx.rows → d.cols = s.pIdx.cols →
      ∃ n, env.noise { s with drift := some d } = .ok n ∧ n.rows = d.rows ∧ n.cols = d.cols) {c : Mat V}
    (hcons : s.cons = some c) (hrows : c.rows = s.pIdx.rows) (hcols : c.cols = 1)
    (hin : s.pIdx.InBounds s.x.rows s.x.cols) : ∃ s', cboMove env s = .ok s' := by
  unfold cboMove
  rw [hcons]
  simp only [correction, hc]
  rw [Mat.gather_of_inBounds hin]
  simp only [bind, Except.bind, pure, Except.pure]
  rw [Mat.bin_of_dims (r := s.pIdx.rows) (c := s.pIdx.cols) (by simp only; rw [hrows]; exact Mat.bdim_self _)
    (by simp only; rw [hcols]; exact Mat.bdim_one_right _)]
  simp only
  obtain ⟨n, hn', n1, n2⟩ := hn ⟨s.pIdx.rows, s.pIdx.cols, fun i j =>
      s.x.get (s.pIdx.run (Mat.bpos s.pIdx.rows i)) (s.pIdx.par (Mat.bpos s.pIdx.rows i) (Mat.bpos s.pIdx.cols j)) -
        c.get (Mat.bpos c.rows i) (Mat.bpos c.cols j)⟩ rfl rfl
  rw [hn']
  simp only
  rw [Mat.bin_of_dims (r := s.pIdx.rows) (c := s.pIdx.cols) (by simp only at n1 ⊢; rw [n1]; exact Mat.bdim_self _)
    (by simp only at n2 ⊢; rw [n2]; exact Mat.bdim_self _)]
  simp only
  obtain ⟨x, hx⟩ := Mat.scatterAdd_of_shape (v := ⟨s.pIdx.rows, s.pIdx.cols, fun i j =>
      cboUpdate s.lamda s.dt s.sigma
        (s.x.get (s.pIdx.run (Mat.bpos s.pIdx.rows (Mat.bpos s.pIdx.rows i)))
            (s.pIdx.par (Mat.bpos s.pIdx.rows (Mat.bpos s.pIdx.rows i)) (Mat.bpos s.pIdx.cols (Mat.bpos s.pIdx.cols j))) -
          c.get (Mat.bpos c.rows (Mat.bpos s.pIdx.rows i)) (Mat.bpos c.cols (Mat.bpos s.pIdx.cols j)))
        (n.get (Mat.bpos n.rows i) (Mat.bpos n.cols j))⟩) hin rfl rfl
  rw [hx]
  exact ⟨_, rfl⟩

theorem postStep_total {env : Env K V} (hp : ∀ s, ∃ x', env.post s = .ok x' ∧ x'.rows = s.x.rows ∧ x'.cols = s.x.cols)
    {s : St K V} (h1 : s.energy.cols ≠ 0) (h2 : s.saveInt ≠ 0)
    (h3 : ∀ o, s.xOld = some o → o.rows = s.x.rows ∧ o.cols = s.x.cols) :
    ∃ s', postStep env s = .ok s' := by
  unfold postStep
  obtain ⟨x', hx, e1, e2⟩ := hp s
  rw [hx]
  simp only [bind, Except.bind]
  unfold updateDiff
  simp only
  cases ho : s.xOld with
  | none =>
    simp only [pure, Except.pure, updateBestCur, if_neg h1, updateBest, track, if_neg h2]
    split_ifs <;> exact ⟨_, rfl⟩
  | some o =>
    obtain ⟨o1, o2⟩ := h3 o ho
    simp only
    rw [Mat.bin_of_dims (r := s.x.rows) (c := s.x.cols) (by rw [e1, o1]; exact Mat.bdim_self _)
      (by rw [e2, o2]; exact Mat.bdim_self _)]
    simp only [pure, Except.pure, updateBestCur, if_neg h1, updateBest, track, if_neg h2, bind, Except.bind]
    split_ifs <;> exact ⟨_, rfl⟩

theorem preStep_batchSize (env : Env K V) (s : St K V) : (preStep env s).batchSize = s.batchSize := by rw [preStep_frame]

theorem NonEmpty.pre {env : Env K V} {s : St K V} (h : NonEmpty env s) : NonEmpty env (preStep env s) := by
  have e : (preStep env s).active = s.active := by rw [preStep_frame]
  intro hr
  rw [e, preStep_batchSize]
  exact h hr

theorem WF.full {env : Env K V} {s : St K V} (hw : WF s) (hM : 0 < s.M)
    (hact : s.active = List.range s.M) (hbat : s.batched = false) : NonEmpty env s := by
  intro _
  refine ⟨?_, ?_⟩
  · rw [hact]; intro h0; have := congrArg List.length h0; simp at this; omega
  · rw [hw.unb hbat]; exact hw.pos.ne'

/-- The batch size after the constructor. -/
theorem init_bsize {env : Env K V} {a : Args K V} {s : St K V} (h : init env a = .ok s) :
    s.batchSize = batchSizeOf a.batchSize a.x0.cols ∧ 1 ≤ a.x0.cols := by
  unfold init at h
  split_ifs at h with h1 h2 <;> (injection h with h; subst h; exact ⟨rfl, by omega⟩)

theorem init_batch_pos {env : Env K V} {a : Args K V} {s : St K V} (h : init env a = .ok s) (hb : a.batchSize ≠ some 0) :
    s.batchSize ≠ 0 := by
  obtain ⟨h1, h2⟩ := init_bsize h
  rw [h1]
  unfold batchSizeOf
  cases hs : a.batchSize with
  | none => simp only; omega
  | some b =>
    have : b ≠ 0 := fun h0 => hb (by rw [hs, h0])
    simp only; omega

/-- A step that selects nothing raises, if an empty selection does. -/
theorem step_empty {env : Env K V} {move : St K V → Except Err (St K V)} (hp : PermOK env) {s : St K V} (hw : WF s)
    (hr : env.emptyRaises = true) (h : s.active = [] ∨ s.batchSize = 0) : step env (consThen env move) s = .error .value := by
  have hix := preStep_idx env hp hw
  have px : (preStep env s).x = s.x := by rw [preStep_frame]
  have := computeConsensus_empty (s := preStep env s) hr (by rw [px, hw.xr, hw.xc]; exact hix.cIn)
    (by
      rcases h with h | h
      · left; rw [hix.cRows, h]; rfl
      · right; exact hix.cCols.trans h)
  simp only [step, consThen, this, bind, Except.bind]

/-- A CBO step from a well-formed state does not raise if the noise call does not. -/
theorem cboStep_total_of {env : Env K V} (hcorr : env.corr = .none) (hmean : ∃ r, env.cons = .mean r)
    (hpost : ∀ s, ∃ x', env.post s = .ok x' ∧ x'.rows = s.x.rows ∧ x'.cols = s.x.cols) (hp : PermOK env) {s : St K V}
    (hw : WF s) (hsi : s.saveInt ≠ 0) (hne : NonEmpty env s)
    (hn : ∀ (q : St K V) (d : Mat V), q.drift = some d → d.rows = s.active.length → d.cols = (preStep env s).pIdx.cols →
      q.M = s.M → q.energy.rows = s.M → q.energy.cols = s.N →
      (∀ m n, (preStep env s).cIdx.Sel m n → q.energy.get m n = env.f (s.x.get m n)) →
      ∃ n, env.noise q = .ok n ∧ n.rows = d.rows ∧ n.cols = d.cols) :
    ∃ s', step env (cboInner env) s = .ok s' := by
  have hix := preStep_idx env hp hw
  have p1 := preStep_frame env s
  have pact : (preStep env s).active = s.active := by rw [p1]
  have px : (preStep env s).x = s.x := by rw [p1]
  have pe : (preStep env s).energy = s.energy := by rw [p1]
  obtain ⟨c, hc⟩ := computeConsensus_total (env := env) (s := preStep env s) hne.pre
    (by rw [px, hw.xr, hw.xc]; exact hix.cIn) (by rw [pe, hw.er, hw.ec]; exact hix.cIn)
    (by rw [pact]; exact hix.cRows) (by rw [preStep_batchSize]; exact hix.cCols)
  have cf := computeConsensus_frame hc
  have cfacts := computeConsensus_facts hc
  obtain ⟨r, hr⟩ := hmean
  obtain ⟨cm, hcm, cm1, cm2, -⟩ := computeConsensus_mean hr (by rw [pact]; exact hix.cRows) hc
  have cx : c.x = s.x := by rw [cf]; exact px
  have cp : c.pIdx = (preStep env s).pIdx := by rw [cf]
  obtain ⟨v, hv⟩ := cboMove_total hcorr (fun d h1 h2 => hn _ d rfl (by rw [h1, cp]; exact hix.pRows) (by rw [h2, cp])
      (by simp only; rw [cf]; simp only; rw [p1]) (by simp only; rw [cfacts.er, pe, hw.er])
      (by simp only; rw [cfacts.ec, pe, hw.ec]) (fun m n h => by rw [← px]; exact cfacts.fresh m n h))
    hcm (by rw [cm1, cp, pact]; exact hix.pRows.symm) cm2
    (by rw [cx, cp, hw.xr, hw.xc]; exact hix.pIn)
  have mok := cboMove_ok env
  have mf := mok.frame _ _ hv
  unfold MoveFrame at mf
  have hin : cboInner env (preStep env s) = .ok v := by
    rw [cboInner_eq]; exact consThen_split.2 ⟨c, hc, hv⟩
  obtain ⟨s', hs'⟩ := postStep_total hpost (s := v)
    (by
      have : v.energy.cols = s.N := by
        have e1 : v.energy = c.energy := by rw [mf]
        rw [e1, cfacts.ec, pe, hw.ec]
      rw [this]; exact hw.pos.ne')
    (by
      have : v.saveInt = s.saveInt := by rw [mf]; simp only; rw [cf]; simp only; rw [p1]
      rw [this]; exact hsi)
    (by
      intro o ho
      have e2 : v.xOld = some s.x := by rw [mf]; simp only; rw [cf]; simp only; rw [p1]
      rw [e2] at ho
      injection ho with ho
      subst ho
      rw [mok.rows _ _ hv, mok.cols _ _ hv, cx]
      exact ⟨rfl, rfl⟩)
  exact ⟨s', step_split.2 ⟨v, hin, hs'⟩⟩

/-- A CBO step from a well-formed state never raises. -/
theorem cboStep_total {env : Env K V} (he : EnvOK env) (hp : PermOK env) {s : St K V} (hw : WF s)
    (hsi : s.saveInt ≠ 0) (hne : NonEmpty env s) : ∃ s', step env (cboInner env) s = .ok s' :=
  cboStep_total_of he.corr he.mean he.post hp hw hsi hne fun q d h _ _ _ _ _ _ => he.noise q d h

/-- What a CBO step (no correction, one consensus point per run) does to positions. `c`, `d`, `n` are consensus, drift and
noise of this step. -/
structure CboStep (env : Env K V) (r : List (K × Flt K × V) → V) (s s' : St K V) (c d n : Mat V) (xm : Mat V) :
    Prop where
  cons : s'.cons = some c
  crows : c.rows = s.active.length
  ccols : c.cols = 1
  cget : ∀ i < s.active.length, c.get i 0 = r (sampleOf env { s with cIdx := s'.cIdx } i)
  drift : s'.drift = some d
  dr : d.rows = s.active.length
  dc : d.cols = s'.pIdx.cols
  dget : ∀ i < s.active.length, ∀ j < s'.pIdx.cols,
    d.get i j = s.x.get (s'.pIdx.run i) (s'.pIdx.par i j) - c.get i 0
  noise : ∃ q : St K V, env.noise q = .ok n ∧ q.drift = some d ∧ q.draws = s.draws ∧ q.active = s.active ∧
    q.dt = s.dt ∧ q.alpha = s.alpha ∧ q.x = s.x ∧ q.energy = s'.energy ∧ q.M = s.M
  nr : n.rows = s.active.length
  nc : n.cols = s'.pIdx.cols
  draws : s'.draws = s.draws + 1
  unsel : ∀ m k, ¬ s'.pIdx.Sel m k → xm.get m k = s.x.get m k
  sel : ∀ m k, s'.pIdx.Sel m k → ∃ i < s.active.length, ∃ j < s'.pIdx.cols, s'.pIdx.run i = m ∧
    s'.pIdx.par i j = k ∧ xm.get m k = s.x.get m k + cboUpdate s.lamda s.dt s.sigma (d.get i j) (n.get i j)
  slot : ∀ m k, s'.pIdx.Sel m k → ∃ i < s.active.length, ∃ j < s'.pIdx.cols, s'.pIdx.run i = m ∧
    s'.pIdx.par i j = k ∧ (∀ j', j < j' → j' < s'.pIdx.cols → s'.pIdx.par i j' ≠ k) ∧
    xm.get m k = s.x.get m k + cboUpdate s.lamda s.dt s.sigma (d.get i j) (n.get i j)
  xmr : xm.rows = s.x.rows
  xmc : xm.cols = s.x.cols
  post : ∃ q : St K V, q.x = xm ∧ env.post q = .ok s'.x

theorem cboStep_facts {env : Env K V} (hcorr : env.corr = .none) (hn : NoiseShape env)
    {r : List (K × Flt K × V) → V} (hr : env.cons = .mean r) (hp : PermOK env) {s s' : St K V} (hw : WF s)
    (h : step env (cboInner env) s = .ok s') : ∃ c d n xm, CboStep env r s s' c d n xm := by
  rw [cboInner_eq] at h
  have f := step_frame (consThen_frame (cboMove_ok env)) h
  obtain ⟨v, hv, hs⟩ := step_split.1 h
  obtain ⟨c, hcc, hmv⟩ := consThen_split.1 hv
  have hix := preStep_idx env hp hw
  have p1 := preStep_frame env s
  have pact : (preStep env s).active = s.active := by rw [p1]
  have px : (preStep env s).x = s.x := by rw [p1]
  have palpha : (preStep env s).alpha = s.alpha := by rw [p1]
  have pdt : (preStep env s).dt = s.dt := by rw [p1]
  have plam : (preStep env s).lamda = s.lamda := by rw [p1]
  have psig : (preStep env s).sigma = s.sigma := by rw [p1]
  have pdraws : (preStep env s).draws = s.draws := by rw [p1]
  have cf := computeConsensus_frame hcc
  obtain ⟨cm, hcm, cm1, cm2, cm3⟩ := computeConsensus_mean hr (by rw [pact]; exact hix.cRows) hcc
  have cx : c.x = s.x := by rw [cf]; exact px
  have cact : c.active = s.active := by rw [cf]; exact pact
  have cdt : c.dt = s.dt := by rw [cf]; exact pdt
  have calpha : c.alpha = s.alpha := by rw [cf]; exact palpha
  have clam : c.lamda = s.lamda := by rw [cf]; exact plam
  have csig : c.sigma = s.sigma := by rw [cf]; exact psig
  have cdraws : c.draws = s.draws := by rw [cf]; exact pdraws
  have cp : c.pIdx = s'.pIdx := by rw [f.pIdx, cf]
  have pr : s'.pIdx.rows = s.active.length := by rw [f.pIdx]; exact hix.pRows
  obtain ⟨d, n, mf⟩ := cboMove_facts hcorr hn hcm (by rw [cm1, cp, pact, pr]) cm2 hmv
  have mrows := (cboMove_ok env).rows _ _ hmv
  have mcols := (cboMove_ok env).cols _ _ hmv
  have pf := postStep_facts hs
  refine ⟨cm, d, n, v.x, ?_⟩
  refine { cons := ?_, crows := by rw [cm1, pact], ccols := cm2, cget := ?_, drift := ?_, dr := ?_, dc := ?_,
           dget := ?_, noise := ?_, nr := ?_, nc := ?_, draws := ?_, unsel := ?_, sel := ?_, slot := ?_, xmr := ?_, xmc := ?_,
           post := ⟨v, rfl, pf.post⟩ }
  · rw [pf.frame]; simp only; rw [mf.rest]; exact hcm
  · intro i hi
    rw [cm3 i (by rw [pact]; exact hi)]
    simp only [sampleOf, pact, px, palpha, f.cIdx]
  · rw [pf.frame]; exact mf.drift
  · rw [mf.dr, cp, pr]
  · rw [mf.dc, cp]
  · intro i hi j hj
    rw [mf.dget i (by rw [cp, pr]; exact hi) j (by rw [cp]; exact hj), cp, cx]
  · refine ⟨_, mf.noise, rfl, cdraws, cact, cdt, calpha, cx, ?_, ?_⟩
    · rw [pf.frame]; simp only; rw [mf.rest]
    · rw [cf]; simp only; rw [p1]
  · rw [mf.nr, cp, pr]
  · rw [mf.nc, cp]
  · rw [pf.frame]; simp only; rw [mf.draws, cdraws]
  · intro m k hs'
    rw [mf.unsel m k (by rw [cp]; exact hs'), cx]
  · intro m k hs'
    obtain ⟨i, hi, j, hj, e1, e2, e3⟩ := mf.sel m k (by rw [cp]; exact hs')
    rw [cp] at hi hj e1 e2
    refine ⟨i, by omega, j, hj, e1, e2, ?_⟩
    rw [e3, cx, clam, cdt, csig]
  · intro m k hs'
    obtain ⟨i, hi, j, hj, e1, e2, emax, e3⟩ := mf.slot m k (by rw [cp]; exact hs')
    rw [cp] at hi hj e1 e2 emax
    refine ⟨i, by omega, j, hj, e1, e2, emax, ?_⟩
    rw [e3, cx, clam, cdt, csig]
  · rw [mrows, cx]
  · rw [mcols, cx]

end Verif
