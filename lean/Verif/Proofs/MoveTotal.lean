import Verif.Model.Moves
import Verif.Proofs.Local

/-! Steps with the moves of the subclasses do not raise. Helper lemmas. -/

set_option linter.unusedSectionVars false

namespace Verif

variable {K V : Type} [Zero K] [One K] [Neg K] [Add K] [Sub K] [Mul K] [Inv K] [Div K] [NatCast K] [Pow K ℕ] [LinearOrder K] [Add V] [Sub V] [SMul K V]

/-- What a move may rely on when it is called inside a step from the well-formed state `s`. -/
structure MoveReady (s c : St K V) (cm : Mat V) : Prop where
  cons : c.cons = some cm
  crows : cm.rows = s.active.length
  ccols : cm.cols = 1
  prows : c.pIdx.rows = s.active.length
  pin : c.pIdx.InBounds s.M s.N
  x : c.x = s.x
  aux1 : c.aux1 = s.aux1
  aux2 : c.aux2 = s.aux2
  it : c.it = s.it
  par : c.lamda = s.lamda ∧ c.dt = s.dt ∧ c.sigma = s.sigma

theorem step_total_of {env : Env K V} {move : St K V → Except Err (St K V)} (mok : MoveOK move)
    (hmean : ∃ r, env.cons = .mean r)
    (hpost : ∀ s, ∃ x', env.post s = .ok x' ∧ x'.rows = s.x.rows ∧ x'.cols = s.x.cols) (hp : PermOK env) {s : St K V}
    (hw : WF s) (hsi : s.saveInt ≠ 0) (hne : NonEmpty env s) (hmove : ∀ c cm, computeConsensus env (preStep env s) = .ok c → MoveReady s c cm → ∃ v, move c = .ok v) :
    ∃ s', step env (consThen env move) s = .ok s' := by
  have hix := preStep_idx env hp hw
  have p1 := preStep_frame env s
  have pact : (preStep env s).active = s.active := by rw [p1]
  have px : (preStep env s).x = s.x := by rw [p1]
  have pe : (preStep env s).energy = s.energy := by rw [p1]
  obtain ⟨c, hc⟩ := computeConsensus_total (env := env) (s := preStep env s) hne.pre
    (by rw [px, hw.xr, hw.xc]; exact hix.cIn) (by rw [pe, hw.er, hw.ec]; exact hix.cIn)
    (by rw [pact]; exact hix.cRows) (by rw [preStep_batchSize]; exact hix.cCols)
  have cf := computeConsensus_frame hc
  have cfacts := computeConsensus_facts hc
  obtain ⟨r, hr⟩ := hmean
  obtain ⟨cm, hcm, cm1, cm2, -⟩ := computeConsensus_mean hr (by rw [pact]; exact hix.cRows) hc
  have cx : c.x = s.x := by rw [cf]; exact px
  have cp : c.pIdx = (preStep env s).pIdx := by rw [cf]
  obtain ⟨v, hv⟩ := hmove c cm hc ⟨hcm, by rw [cm1, pact], cm2, by rw [cp]; exact hix.pRows, by rw [cp]; exact hix.pIn, cx,
    by rw [cf]; simp only; rw [p1], by rw [cf]; simp only; rw [p1], by rw [cf]; simp only; rw [p1],
    by rw [cf]; simp only; rw [p1]; exact ⟨rfl, rfl, rfl⟩⟩
  have mf := mok.frame _ _ hv
  unfold MoveFrame at mf
  have hin : consThen env move (preStep env s) = .ok v := consThen_split.2 ⟨c, hc, hv⟩
  obtain ⟨s', hs'⟩ := postStep_total hpost (s := v)
    (by
      have : v.energy.cols = s.N := by
        have e1 : v.energy = c.energy := by rw [mf]
        rw [e1, cfacts.ec, pe, hw.ec]
      rw [this]; exact hw.pos.ne')
    (by
      have : v.saveInt = s.saveInt := by rw [mf]; simp only; rw [cf]; simp only; rw [p1]
      rw [this]; exact hsi)
    (by
      intro o ho
      have e2 : v.xOld = some s.x := by rw [mf]; simp only; rw [cf]; simp only; rw [p1]
      rw [e2] at ho
      injection ho with ho
      subst ho
      rw [mok.rows _ _ hv, mok.cols _ _ hv, cx]
      exact ⟨rfl, rfl⟩)
  exact ⟨s', step_split.2 ⟨v, hin, hs'⟩⟩

/-- The drift `x[idx] - consensus` of the selected particles exists. -/
theorem MoveReady.drift {s c : St K V} {cm : Mat V} (h : MoveReady s c cm) (hw : WF s) :
    ∃ xp d, c.x.gather c.pIdx = .ok xp ∧ Mat.bin (fun a b => a - b) xp cm = .ok d ∧ d.rows = c.pIdx.rows ∧
      d.cols = c.pIdx.cols := by
  have hin : c.pIdx.InBounds c.x.rows c.x.cols := by rw [h.x, hw.xr, hw.xc]; exact h.pin
  have hd := Mat.bin_of_dims (f := fun a b : V => a - b)
    (a := (⟨c.pIdx.rows, c.pIdx.cols, fun i j => c.x.get (c.pIdx.run i) (c.pIdx.par i j)⟩ : Mat V)) (b := cm)
    (r := c.pIdx.rows) (c := c.pIdx.cols) (by simp only [h.crows, h.prows]; exact Mat.bdim_self _)
    (by simp only [h.ccols]; exact Mat.bdim_one_right _)
  exact ⟨_, _, Mat.gather_of_inBounds hin, hd, rfl, rfl⟩

theorem Mat.bin_shape {α β γ : Type} (f : α → β → γ) {a : Mat α} {b : Mat β} {r c : ℕ} (h1 : a.rows = r) (h2 : b.rows = r)
    (h3 : a.cols = c) (h4 : b.cols = c) : ∃ v, Mat.bin f a b = .ok v ∧ v.rows = r ∧ v.cols = c :=
  ⟨_, Mat.bin_of_dims (r := r) (c := c) (by rw [h1, h2]; exact Mat.bdim_self _) (by rw [h3, h4]; exact Mat.bdim_self _), rfl, rfl⟩

/-- The mirror move does not raise inside a step if the dual variable has the shape of the ensemble. -/
theorem mirrorMove_total {env : Env K V} (gc : V → V) (hcorr : env.corr = .none) {s : St K V} (hw : WF s)
    (ha : s.aux1.rows = s.M ∧ s.aux1.cols = s.N) {c : St K V} {cm : Mat V} (h : MoveReady s c cm)
    (hn : ∀ (q : St K V) (d : Mat V), q.drift = some d → d.rows = c.pIdx.rows → d.cols = c.pIdx.cols → q.energy = c.energy → q.M = c.M →
      ∃ n, env.noise q = .ok n ∧ n.rows = d.rows ∧ n.cols = d.cols) :
    ∃ v, mirrorMove env gc c = .ok v := by
  obtain ⟨xp, d, e1, e2, d1, d2⟩ := h.drift hw
  obtain ⟨n, e3, n1, n2⟩ := hn { c with drift := some d } d rfl d1 d2 rfl rfl
  obtain ⟨u, e4, u1, u2⟩ := Mat.bin_shape (cboUpdate c.lamda c.dt c.sigma) d1 (n1.trans d1) d2 (n2.trans d2)
  obtain ⟨y, e5⟩ := Mat.scatterAdd_of_shape (a := c.aux1) (v := u) (ix := c.pIdx)
    (by rw [h.aux1, ha.1, ha.2]; exact h.pin) u1 u2
  unfold mirrorMove
  rw [h.cons]
  simp only [correction, hcorr, e1, e2, e3, e4, e5, bind, Except.bind, pure, Except.pure]
  exact ⟨_, rfl⟩

/-- The Adam move does not raise inside a step if the moments have the shape of the ensemble and the bias factors exist. -/
theorem adamMove_total {env : Env K V} (A : AdamOps V) {β1 β2 : K} {s : St K V} (hw : WF s)
    (h1 : 1 - β1 ^ (s.it + 1) ≠ 0) (h2 : 1 - β2 ^ (s.it + 1) ≠ 0)
    (ha : s.aux1.rows = s.M ∧ s.aux1.cols = s.N) (hb : s.aux2.rows = s.M ∧ s.aux2.cols = s.N) {c : St K V} {cm : Mat V}
    (h : MoveReady s c cm)
    (hn : ∀ (q : St K V) (d : Mat V), q.drift = some d → d.rows = c.pIdx.rows → d.cols = c.pIdx.cols → q.energy = c.energy → q.M = c.M →
      ∃ n, env.noise q = .ok n ∧ n.rows = d.rows ∧ n.cols = d.cols) : ∃ v, adamMove env A β1 β2 c = .ok v := by
  have mom : ∀ (β : K) (a d : Mat V), a.rows = s.M → a.cols = s.N → d.rows = c.pIdx.rows → d.cols = c.pIdx.cols →
      ∃ r, momentUpdate β a c.pIdx d = .ok r ∧ r.rows = s.M ∧ r.cols = s.N := by
    intro β a d a1 a2 d1 d2
    have hin : c.pIdx.InBounds a.rows a.cols := by rw [a1, a2]; exact h.pin
    obtain ⟨v, e, v1, v2⟩ := Mat.bin_shape (fun m d : V => β • m + (1 - β) • d)
      (a := (⟨c.pIdx.rows, c.pIdx.cols, fun i j => a.get (c.pIdx.run i) (c.pIdx.par i j)⟩ : Mat V)) rfl d1 rfl d2
    obtain ⟨r, hr⟩ := Mat.scatter_of_shape (a := a) hin v1 v2
    refine ⟨r, ?_, ?_, ?_⟩
    · unfold momentUpdate
      simp only [Mat.gather_of_inBounds hin, e, hr, bind, Except.bind]
    · rw [(Mat.scatter_ok hr).2.1, a1]
    · rw [(Mat.scatter_ok hr).2.2.1, a2]
  obtain ⟨xp, d, e1, e2, d1, d2⟩ := h.drift hw
  obtain ⟨m, e3, m1, m2⟩ := mom β1 c.aux1 d (by rw [h.aux1, ha.1]) (by rw [h.aux1, ha.2]) d1 d2
  obtain ⟨v, e4, v1, v2⟩ := mom β2 c.aux2 (d.map A.sq) (by rw [h.aux2, hb.1]) (by rw [h.aux2, hb.2]) d1 d2
  have e5 : biasFactor β1 c.it = .ok (1 / (1 - β1 ^ (s.it + 1))) := by unfold biasFactor; rw [h.it, if_neg h1]
  have e6 : biasFactor β2 c.it = .ok (1 / (1 - β2 ^ (s.it + 1))) := by unfold biasFactor; rw [h.it, if_neg h2]
  have e7 := Mat.gather_of_inBounds (a := m) (ix := c.pIdx) (by rw [m1, m2]; exact h.pin)
  have e8 := Mat.gather_of_inBounds (a := v) (ix := c.pIdx) (by rw [v1, v2]; exact h.pin)
  obtain ⟨q, e9, q1, q2⟩ := Mat.bin_shape (fun m v : V => A.quot ((1 / (1 - β1 ^ (s.it + 1))) • m) ((1 / (1 - β2 ^ (s.it + 1))) • v))
    (a := (⟨c.pIdx.rows, c.pIdx.cols, fun i j => m.get (c.pIdx.run i) (c.pIdx.par i j)⟩ : Mat V))
    (b := (⟨c.pIdx.rows, c.pIdx.cols, fun i j => v.get (c.pIdx.run i) (c.pIdx.par i j)⟩ : Mat V)) rfl rfl rfl rfl
  obtain ⟨n, e10, n1, n2⟩ := hn { c with drift := some d, aux1 := m, aux2 := v } d rfl d1 d2 rfl rfl
  obtain ⟨u, e11, u1, u2⟩ := Mat.bin_shape (fun q n : V => (-1 : K) • (c.lamda • q - c.sigma • n)) q1 (n1.trans d1) q2
    (n2.trans d2)
  obtain ⟨x, e12⟩ := Mat.scatterAdd_of_shape (a := c.x) (v := u) (ix := c.pIdx)
    (by rw [h.x, hw.xr, hw.xc]; exact h.pin) u1 u2
  unfold adamMove
  simp only [h.cons] at e10
  rw [h.cons]
  simp only [e1, e2, e3, e4, e5, e6, e7, e8, e9, e10, e11, e12, bind, Except.bind, pure, Except.pure]
  exact ⟨_, rfl⟩

end Verif
