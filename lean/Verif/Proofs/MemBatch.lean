import Verif.Proofs.MemTotal

/-! Helper lemmas: steps of the memory dynamics with mini-batches. -/

set_option linter.unusedSectionVars false

namespace Verif

section
variable {K V : Type} [Zero K] [One K] [Neg K] [Add K] [Sub K] [Mul K] [Inv K] [Div K] [NatCast K] [Pow K ℕ] [LinearOrder K] [Add V] [Sub V] [SMul K V]

/-- Shapes of the arrays and of the two index arrays if all runs are active and all particles are moved. -/
structure BatchReady (s : St K V) : Prop where
  xr : s.x.rows = s.M
  xc : s.x.cols = s.N
  er : s.energy.rows = s.M
  ec : s.energy.cols = s.N
  yr : s.aux1.rows = s.M
  yc : s.aux1.cols = s.N
  full : s.active.length = s.M
  pr : s.pIdx.rows = s.M
  pc : s.pIdx.cols = s.N
  pin : s.pIdx.InBounds s.M s.N
  cr : s.cIdx.rows = s.M
  cin : s.cIdx.InBounds s.M s.N

theorem scatterAdd_total {M N : ℕ} {a u : Mat V} {ix : Idx} (h1 : a.rows = M) (h2 : a.cols = N) (h : ix.InBounds M N)
    (u1 : u.rows = ix.rows) (u2 : u.cols = ix.cols) :
    ∃ r : Mat V, a.scatterAdd ix u = .ok r ∧ r.rows = M ∧ r.cols = N := by
  obtain ⟨r, hr⟩ := Mat.scatterAdd_of_shape (a := a) (v := u) (ix := ix) (by rw [h1, h2]; exact h) u1 u2
  exact ⟨r, hr, by rw [(Mat.scatterAdd_ok hr).2.1, h1], by rw [(Mat.scatterAdd_ok hr).2.2.1, h2]⟩

theorem scatter_total {M N : ℕ} {α : Type} {a u : Mat α} {ix : Idx} (h1 : a.rows = M) (h2 : a.cols = N) (h : ix.InBounds M N)
    (u1 : u.rows = ix.rows) (u2 : u.cols = ix.cols) :
    ∃ r : Mat α, a.scatter ix u = .ok r ∧ r.rows = M ∧ r.cols = N := by
  obtain ⟨r, hr⟩ := Mat.scatter_of_shape (a := a) (v := u) (ix := ix) (by rw [h1, h2]; exact h) u1 u2
  exact ⟨r, hr, by rw [(Mat.scatter_ok hr).2.1, h1], by rw [(Mat.scatter_ok hr).2.2.1, h2]⟩

/-! ### `CBOMemory` -/

theorem memConsensus_one {env : Env K V} (hmean : ∃ r, env.cons = .mean r) {s : St K V} (w : BatchReady s) (h1 : s.cIdx.cols = 1) :
    ∃ c : Mat V, memConsensus env s = .ok { s with cons := some c } ∧ c.rows = s.M ∧ c.cols = 1 := by
  obtain ⟨r, hr⟩ := hmean
  obtain ⟨yb, e1, a1, a2⟩ := gatherIdx_total w.yr w.yc w.cin
  obtain ⟨p, e2, p1, p2⟩ := bin_colL (fun (a : K) (e : Flt K) => (a, e)) (a := alphaActive s) (b := s.energy) w.full w.er rfl w.ec
  obtain ⟨q, e3, q1, q2⟩ := bin_colR (fun (p : K × Flt K) (v : V) => (p.1, p.2, v)) p1 (a1.trans w.cr) p2 (a2.trans h1)
  refine ⟨env.cons.apply q, ?_, by rw [hr]; exact q1, by rw [hr]; rfl⟩
  simp only [memConsensus, e1, e2, e3, bind, Except.bind, pure, Except.pure]

theorem memoryStep_ready {env : Env K V} (hn : NoiseOK env) (lm sm : K) {s : St K V} (w : BatchReady s) :
    ∃ s', memoryStep env lm sm s = .ok s' := by
  obtain ⟨xp, e1, a1, a2⟩ := gatherIdx_total w.xr w.xc w.pin
  obtain ⟨yp, e2, b1, b2⟩ := gatherIdx_total w.yr w.yc w.pin
  obtain ⟨d, e3, d1, d2⟩ := Mat.bin_shape (fun a b : V => a - b) a1 b1 a2 b2
  obtain ⟨n, e4, n1, n2⟩ := hn { s with drift := some d } d rfl
  obtain ⟨u, e5, u1, u2⟩ := Mat.bin_shape (cboUpdate lm s.dt sm) d1 (n1.trans d1) d2 (n2.trans d2)
  obtain ⟨x, e6, -, -⟩ := scatterAdd_total w.xr w.xc w.pin u1 u2
  simp only [memoryStep, e1, e2, e3, e4, e5, e6, bind, Except.bind, pure, Except.pure]
  exact ⟨_, rfl⟩

theorem memUpdate_ready {env : Env K V} {s : St K V} (w : BatchReady s) :
    ∃ s', memUpdate env s = .ok s' ∧ s'.energy.rows = s.M ∧ s'.energy.cols = s.N ∧ s'.x = s.x ∧ s'.aux1.rows = s.M ∧ s'.aux1.cols = s.N := by
  obtain ⟨xp, e1, a1, a2⟩ := gatherIdx_total w.xr w.xc w.pin
  obtain ⟨yp, e2, b1, b2⟩ := gatherIdx_total w.yr w.yc w.pin
  obtain ⟨b, e3, c1, c2⟩ := Mat.bin_shape (fun a b : Flt K => Flt.gt a b) w.er (b := xp.map env.f) (a1.trans w.pr) w.ec (a2.trans w.pc)
  obtain ⟨d, e4, d1, d2⟩ := Mat.bin_shape (fun a b : V => a - b) a1 b1 a2 b2
  obtain ⟨u, e5, u1, u2⟩ := Mat.bin_shape (maskMul (K := K) (V := V)) (c1.trans w.pr.symm) d1 (c2.trans w.pc.symm) d2
  obtain ⟨y, e6, z1, z2⟩ := scatterAdd_total w.yr w.yc w.pin u1 u2
  obtain ⟨en, e7, g1, g2⟩ := Mat.bin_shape (Flt.minimum (K := K)) w.er (b := xp.map env.f) (a1.trans w.pr) w.ec (a2.trans w.pc)
  simp only [memUpdate, evalF, callF, e1, e2, e3, e4, e5, e6, e7, bind, Except.bind, pure, Except.pure]
  exact ⟨_, rfl, g1, g2, rfl, z1, z2⟩

theorem BatchReady.of {s b : St K V} (w : BatchReady s) (h : b = { s with cons := b.cons, drift := b.drift, draws := b.draws, x := b.x, aux2 := b.aux2, nEval := b.nEval, log := b.log })
    (h1 : b.x.rows = s.x.rows) (h2 : b.x.cols = s.x.cols) : BatchReady b := by
  have hM : b.M = s.M := by rw [h]
  have hN : b.N = s.N := by rw [h]
  have he : b.energy = s.energy := by rw [h]
  have hy : b.aux1 = s.aux1 := by rw [h]
  have ha : b.active = s.active := by rw [h]
  have hp : b.pIdx = s.pIdx := by rw [h]
  have hc : b.cIdx = s.cIdx := by rw [h]
  constructor
  · rw [h1, hM]; exact w.xr
  · rw [h2, hN]; exact w.xc
  · rw [he, hM]; exact w.er
  · rw [he, hN]; exact w.ec
  · rw [hy, hM]; exact w.yr
  · rw [hy, hN]; exact w.yc
  · rw [ha, hM]; exact w.full
  · rw [hp, hM]; exact w.pr
  · rw [hp, hN]; exact w.pc
  · rw [hp, hM, hN]; exact w.pin
  · rw [hc, hM]; exact w.cr
  · rw [hc, hM, hN]; exact w.cin

/-- Index arrays and shapes after `pre_step` if all runs are active and `batch_partial` is false. -/
theorem batchReady_pre {env : Env K V} (hp : PermOK env) {s : St K V} (hw : WF s) (yr : s.aux1.rows = s.M) (yc : s.aux1.cols = s.N)
    (full : s.active.length = s.M) (hb : s.batched = true) (hpa : s.batchPartial = false) : BatchReady (preStep env s) := by
  have pf := preStep_frame env s
  have ix := preStep_idx env hp hw
  have hpi := (preStep_pIdx env s hw).2.1 hb hpa
  have hM : (preStep env s).M = s.M := by rw [pf]
  have hN : (preStep env s).N = s.N := by rw [pf]
  constructor
  · rw [hM, ← hw.xr, pf]
  · rw [hN, ← hw.xc, pf]
  · rw [hM, ← hw.er, pf]
  · rw [hN, ← hw.ec, pf]
  · rw [hM, ← yr, pf]
  · rw [hN, ← yc, pf]
  · rw [hM, ← full, pf]
  · rw [hM, ix.pRows, full]
  · rw [hN, hpi]; rfl
  · rw [hM, hN]; exact ix.pIn
  · rw [hM, ix.cRows, full]
  · rw [hM, hN]; exact ix.cIn

theorem memInner_one {env : Env K V} (he : EnvOK env) (lm sm : K) {s : St K V} (w : BatchReady s) (h1 : s.cIdx.cols = 1) :
    ∃ v, memInner env lm sm s = .ok v ∧ v.energy.rows = s.M ∧ v.energy.cols = s.N ∧ v.x.rows = s.M ∧ v.x.cols = s.N ∧ v.aux1.rows = s.M ∧ v.aux1.cols = s.N := by
  obtain ⟨c, e1, c1, c2⟩ := memConsensus_one he.mean w h1
  obtain ⟨b, e2⟩ := cboMove_total (s := { s with cons := some c }) he.corr (fun d _ _ => he.noise _ d rfl) rfl
    (by rw [c1]; exact w.pr.symm) c2 (by show s.pIdx.InBounds s.x.rows s.x.cols; rw [w.xr, w.xc]; exact w.pin)
  have bf := (cboMove_ok env).frame _ _ e2
  unfold MoveFrame at bf
  have br := (cboMove_ok env).rows _ _ e2
  have bc := (cboMove_ok env).cols _ _ e2
  have by' : b = { s with cons := b.cons, drift := b.drift, draws := b.draws, x := b.x, aux2 := b.aux2, nEval := b.nEval, log := b.log } := by
    have h := e2
    unfold cboMove at h
    simp only [bind_ok, pure_ok] at h
    obtain ⟨_, _, _, _, r, hr, _, _, _, _, _, _, rfl⟩ := h
    rw [(correction_facts hr).1]
  have wb := w.of by' br bc
  obtain ⟨q, e3⟩ := memoryStep_ready he.noise lm sm wb
  obtain ⟨qf, qr, qc⟩ := memoryStep_frame e3
  have wq : BatchReady q := wb.of (by rw [qf]) qr qc
  obtain ⟨v, e4, v0, v1, v2, v3, v4⟩ := memUpdate_ready (env := env) wq
  refine ⟨v, ?_, by rw [v0, qf, bf], by rw [v1, qf, bf], by rw [v2, wq.xr, qf, bf], by rw [v2, wq.xc, qf, bf], by rw [v3, qf, bf], by rw [v4, qf, bf]⟩
  simp only [memInner, e1, e2, e3, e4, bind, Except.bind]

/-- Shapes kept by batched steps. -/
structure BatchShape (s : St K V) : Prop extends WF s where
  yr : s.aux1.rows = s.M
  yc : s.aux1.cols = s.N

/-- The shapes after a step whose inner step keeps them. -/
theorem batchShape_step {env : Env K V} (hpost : PostOK env) (hp : PermOK env) {s v s' : St K V} (hw : WF s) (hb : s.batched = true)
    (fr : StepFrame env s s') (bf : BestFacts env v s') (v0 : v.energy.rows = s.M) (v1 : v.energy.cols = s.N) (v2 : v.x.rows = s.M) (v3 : v.x.cols = s.N)
    (v6 : v.aux1.rows = s.M) (v7 : v.aux1.cols = s.N) : BatchShape s' := by
  obtain ⟨i1, i2⟩ := preStep_pool env hp hw hb
  have hx := hpost v s'.x bf.post
  have h4 := bf.frame
  have e1 : s'.energy = v.energy := by rw [h4]
  have e2 : s'.aux1 = v.aux1 := by rw [h4]
  refine ⟨⟨?_, ?_, ?_, ?_, ?_, ?_, ?_, ?_⟩, ?_, ?_⟩
  · rw [hx.1, v2, fr.M]
  · rw [hx.2, v3, fr.N]
  · rw [e1, v0, fr.M]
  · rw [e1, v1, fr.N]
  · rw [fr.N]; exact hw.pos
  · rw [fr.active, fr.M]; exact hw.act
  · rw [fr.batched, hb]; exact fun h => nomatch h
  · intro _
    rw [fr.batchSize, fr.N, fr.M, fr.indices]
    exact ⟨(hw.bat hb).1, i1, i2⟩
  · rw [e2, v6, fr.M]
  · rw [e2, v7, fr.N]

theorem memStep_one {env : Env K V} (he : EnvOK env) (hp : PermOK env) (lm sm : K) {s : St K V} (w : BatchShape s)
    (full : s.active.length = s.M) (hb : s.batched = true) (hpa : s.batchPartial = false) (h1 : s.batchSize = 1)
    (hsi : s.saveInt ≠ 0) : ∃ s', memStep env lm sm s = .ok s' ∧ BatchShape s' := by
  have hw := w.toWF
  have pf := preStep_frame env s
  have hM : (preStep env s).M = s.M := by rw [pf]
  have hN : (preStep env s).N = s.N := by rw [pf]
  obtain ⟨v, hv, v0, v1, v2, v3, v4, v5⟩ := memInner_one he lm sm (batchReady_pre hp hw w.yr w.yc full hb hpa) ((preStep_idx env hp hw).cCols.trans h1)
  have vf := memInner_frame env lm sm _ _ hv
  obtain ⟨s', hs'⟩ := memPostStep_total he.post (s := v) (by rw [v1, pf]; exact hw.pos.ne')
    (by rw [vf]; simp only; rw [pf]; exact hsi)
    (by
      intro o ho
      have e2 : v.xOld = some s.x := by rw [vf]; simp only; rw [pf]
      rw [e2] at ho
      injection ho with ho
      subst ho
      rw [v2, v3, pf]
      exact ⟨hw.xr, hw.xc⟩)
  have hst : memStep env lm sm s = .ok s' := by simp only [memStep, hv, hs', bind, Except.bind]
  rw [hM] at v0 v2 v4
  rw [hN] at v1 v3 v5
  exact ⟨s', hst, batchShape_step he.postOK hp hw hb (memStep_frame hst) (memPostStep_best hs') v0 v1 v2 v3 v4 v5⟩

/-! ### `PSO` -/

theorem psoVelocity_ready {env : Env K V} (he : EnvOK env) (p : PsoPar K) {s : St K V} (w : BatchReady s) (hv : VShape s)
    (hz : p.m + p.gamma * s.dt ≠ 0) : ∃ s', psoVelocity env p s = .ok s' ∧ VShape s' := by
  obtain ⟨r, hr⟩ := he.mean
  obtain ⟨yb, e1, a1, a2⟩ := gatherIdx_total w.yr w.yc w.cin
  obtain ⟨eb, e0, b1, b2⟩ := gatherIdx_total w.er w.ec w.cin
  obtain ⟨q, e2, q1, q2⟩ := bin_colL (fun (a : K) (e : Flt K) => (a, e)) (a := alphaActive s) (b := eb) w.full (b1.trans w.cr) rfl b2
  obtain ⟨wx, e3, w1, w2⟩ := Mat.bin_shape (fun (p : K × Flt K) (v : V) => (p.1, p.2, v)) q1 (a1.trans w.cr) q2 a2
  obtain ⟨xp, e4, x1, x2⟩ := gatherIdx_total w.xr w.xc w.pin
  obtain ⟨yp, e10, y1, y2⟩ := gatherIdx_total w.yr w.yc w.pin
  obtain ⟨dc, e5, d1, d2⟩ := bin_colR (fun a b : V => a - b) (a := xp) (b := env.cons.apply wx) x1 (by rw [hr]; exact w1.trans w.pr.symm) x2 (by rw [hr]; rfl)
  obtain ⟨dm, e6, m1, m2⟩ := Mat.bin_shape (fun a b : V => a - b) x1 y1 x2 y2
  obtain ⟨n1, e7, n11, n12⟩ := he.noise { s with cons := some (env.cons.apply wx), drift := some dc } dc rfl
  obtain ⟨n2, e8, n21, n22⟩ := he.noise { s with cons := some (env.cons.apply wx), drift := some dm, draws := s.draws + 1 } dm rfl
  obtain ⟨vp, e9, v1, v2⟩ := gatherIdx_total hv.1 hv.2 w.pin
  obtain ⟨r1, f1, r11, r12⟩ := Mat.bin_shape (fun v d : V => (p.m * s.dt) • v + d) v1 (b := dc.map fun d => (s.lamda * s.dt) • d) d1 v2 d2
  obtain ⟨r2, f2, r21, r22⟩ := Mat.bin_shape (fun a d : V => a + (p.lm * s.dt) • d) r11 m1 r12 m2
  obtain ⟨r3, f3, r31, r32⟩ := Mat.bin_shape (fun a n : V => a + s.sigma • n) r21 (n11.trans d1) r22 (n12.trans d2)
  obtain ⟨r4, f4, r41, r42⟩ := Mat.bin_shape (fun a n : V => a + p.sm • n) r31 (n21.trans m1) r32 (n22.trans m2)
  obtain ⟨y, f5, z1, z2⟩ := scatter_total hv.1 hv.2 w.pin (u := r4.map fun a => (p.m + p.gamma * s.dt)⁻¹ • a) r41 r42
  simp only [psoVelocity, correction, he.corr, e1, e10, e0, e2, e3, e4, e5, e6, e7, e8, e9, if_neg hz, f1, f2, f3, f4, f5, bind, Except.bind, pure, Except.pure]
  exact ⟨_, rfl, z1, z2⟩

theorem psoPosition_ready {s : St K V} (w : BatchReady s) (hv : VShape s) : ∃ s', psoPosition s = .ok s' := by
  obtain ⟨xp, e1, a1, a2⟩ := gatherIdx_total w.xr w.xc w.pin
  obtain ⟨vp, e2, b1, b2⟩ := gatherIdx_total hv.1 hv.2 w.pin
  obtain ⟨y, e3, y1, y2⟩ := Mat.bin_shape (fun x v : V => x + s.dt • v) a1 b1 a2 b2
  obtain ⟨x, e4, -, -⟩ := scatter_total w.xr w.xc w.pin y1 y2
  simp only [psoPosition, e1, e2, e3, e4, bind, Except.bind, pure, Except.pure]
  exact ⟨_, rfl⟩

theorem psoUpdate_ready {env : Env K V} {s : St K V} (w : BatchReady s) :
    ∃ s', psoUpdate env s = .ok s' ∧ s'.energy.rows = s.M ∧ s'.energy.cols = s.N ∧ s'.x = s.x ∧ s'.aux2 = s.aux2 ∧ s'.aux1.rows = s.M ∧ s'.aux1.cols = s.N := by
  obtain ⟨xp, e1, a1, a2⟩ := gatherIdx_total w.xr w.xc w.pin
  obtain ⟨yp, e2, b1, b2⟩ := gatherIdx_total w.yr w.yc w.pin
  obtain ⟨b, e3, c1, c2⟩ := Mat.bin_shape (fun a b : Flt K => Flt.gt a b) w.er (b := xp.map env.f) (a1.trans w.pr) w.ec (a2.trans w.pc)
  obtain ⟨d, e4, d1, d2⟩ := Mat.bin_shape (fun a b : V => a - b) a1 b1 a2 b2
  obtain ⟨u, e5, u1, u2⟩ := Mat.bin_shape (maskMul (K := K) (V := V)) (c1.trans w.pr.symm) d1 (c2.trans w.pc.symm) d2
  obtain ⟨y0, e6, y1, y2⟩ := Mat.bin_shape (fun y u : V => y + u) b1 u1 b2 u2
  obtain ⟨y, e7, z1, z2⟩ := scatter_total w.yr w.yc w.pin y1 y2
  obtain ⟨en, e8, g1, g2⟩ := Mat.bin_shape (Flt.minimum (K := K)) w.er (b := xp.map env.f) (a1.trans w.pr) w.ec (a2.trans w.pc)
  simp only [psoUpdate, callF, e1, e2, e3, e4, e5, e6, e7, e8, bind, Except.bind, pure, Except.pure]
  exact ⟨_, rfl, g1, g2, rfl, rfl, z1, z2⟩

theorem psoInner_ready {env : Env K V} (he : EnvOK env) (p : PsoPar K) {s : St K V} (w : BatchReady s) (hv : VShape s)
    (hz : p.m + p.gamma * s.dt ≠ 0) :
    ∃ v, psoInner env p s = .ok v ∧ v.energy.rows = s.M ∧ v.energy.cols = s.N ∧ v.x.rows = s.M ∧ v.x.cols = s.N ∧ v.aux2.rows = s.M ∧ v.aux2.cols = s.N ∧
      v.aux1.rows = s.M ∧ v.aux1.cols = s.N := by
  obtain ⟨a, e1, va⟩ := psoVelocity_ready he p w hv hz
  have af := (psoVelocity_frame e1).1
  have wa : BatchReady a := w.of (by rw [af]) (by rw [af]) (by rw [af])
  obtain ⟨b, e2⟩ := psoPosition_ready wa va
  obtain ⟨bf, br, bc⟩ := psoPosition_frame e2
  have wb : BatchReady b := wa.of (by rw [bf]) br bc
  obtain ⟨v, e3, v0, v1, v2, v3, v4, v5⟩ := psoUpdate_ready (env := env) wb
  have bM : b.M = s.M := by rw [bf, af]
  have bN : b.N = s.N := by rw [bf, af]
  have ba : b.aux2 = a.aux2 := by rw [bf]
  have aM : a.M = s.M := by rw [af]
  have aN : a.N = s.N := by rw [af]
  refine ⟨v, ?_, by rw [v0, bM], by rw [v1, bN], by rw [v2, wb.xr, bM], by rw [v2, wb.xc, bN], by rw [v3, ba, va.1, aM], by rw [v3, ba, va.2, aN], by rw [v4, bM], by rw [v5, bN]⟩
  simp only [psoInner, e1, e2, e3, bind, Except.bind]

theorem psoStep_ready {env : Env K V} (he : EnvOK env) (hp : PermOK env) (p : PsoPar K) {s : St K V} (w : BatchShape s) (wv : VShape s)
    (full : s.active.length = s.M) (hb : s.batched = true) (hpa : s.batchPartial = false) (hsi : s.saveInt ≠ 0) (hz : p.m + p.gamma * s.dt ≠ 0) :
    ∃ s', psoStep env p s = .ok s' ∧ BatchShape s' ∧ VShape s' := by
  have pf := preStep_frame env s
  have hM : (preStep env s).M = s.M := by rw [pf]
  have hN : (preStep env s).N = s.N := by rw [pf]
  obtain ⟨v, hv, v0, v1, v2, v3, v4, v5, v6, v7⟩ := psoInner_ready he p (batchReady_pre hp w.toWF w.yr w.yc full hb hpa)
    (by rw [pf]; exact wv) (by rw [pf]; exact hz)
  have vf := psoInner_frame env p _ _ hv
  obtain ⟨s', hs'⟩ := postStep_total he.post (s := v) (by rw [v1, pf]; exact w.pos.ne')
    (by rw [vf]; simp only; rw [pf]; exact hsi)
    (by
      intro o ho
      have e2 : v.xOld = some s.x := by rw [vf]; simp only; rw [pf]
      rw [e2] at ho
      injection ho with ho
      subst ho
      rw [v2, v3, pf]
      exact ⟨w.xr, w.xc⟩)
  have hst : psoStep env p s = .ok s' := step_split.2 ⟨v, hv, hs'⟩
  have fr := psoStep_frame hst
  rw [hM] at v0 v2 v4 v6
  rw [hN] at v1 v3 v5 v7
  refine ⟨s', hst, batchShape_step he.postOK hp w.toWF hb fr (postStep_best hs') v0 v1 v2 v3 v6 v7, ?_, ?_⟩
  · rw [(postStep_facts hs').frame]; simp only; rw [v4, vf]; simp only; rw [hM]
  · rw [(postStep_facts hs').frame]; simp only; rw [v5, vf]; simp only; rw [hN]

/-! ### Loop -/

theorem memInit_batch {env : Env K V} (hp : PermOK env) {a : Args K V} {s : St K V} (h : memInit env a = .ok s) :
    BatchShape s ∧ s.batchPartial = a.batchPartial ∧ (s.batched = true ↔ batchSizeOf a.batchSize a.x0.cols < a.x0.cols) := by
  simp only [memInit, bind_ok, pure_ok] at h
  obtain ⟨s₀, h0, rfl⟩ := h
  have w := init_wf hp h0
  have hle : batchSizeOf a.batchSize a.x0.cols ≤ a.x0.cols := by
    unfold batchSizeOf
    split
    · exact le_rfl
    · exact Nat.min_le_right _ _
  unfold init at h0
  split_ifs at h0
  all_goals
    injection h0 with h0
    subst h0
    refine ⟨⟨⟨w.xr, w.xc, w.xr, w.xc, w.pos, w.act, w.unb, w.bat⟩, rfl, rfl⟩, rfl, ?_⟩
    show decide (batchSizeOf a.batchSize a.x0.cols ≠ a.x0.cols) = true ↔ _
    rw [decide_eq_true_iff]
    omega

/-- The loop does not raise if the runs stop together and steps with all runs active do not raise and keep the property `P`. -/
theorem optimizeBy_not_raised_of {env : Env K V} {stp : St K V → Except Err (St K V)} (hf : ∀ s s', stp s = .ok s' → StepFrame env s s')
    (hs : ∀ s, ∃ q, env.sched s = .ok q) {M : ℕ} {terms : List (Term K)} (hst : ∀ tm ∈ terms, Stateless tm) (hu : M = 1 ∨ ∀ tm ∈ terms, RunBlind tm)
    {P P₀ : St K V → Prop} (hsel : ∀ s s', selectActive env s = .ok s' → P s → P s') (hsch : ∀ s s', schedUpdate env s = .ok s' → P₀ s → P s')
    (hsub : ∀ s, P s → s.active.Sublist (List.range s.M))
    (htot : ∀ s, P s → s.active.length = s.M → ∃ s', stp s = .ok s' ∧ P₀ s') :
    ∀ (fuel : ℕ) (s : St K V), P s → s.M = M → s.terms = terms → ∀ e, optimizeBy env stp fuel s ≠ .raised e := by
  intro fuel
  induction fuel with
  | zero => intro s _ _ _ e; simp [optimizeBy]
  | succ fuel ih =>
    intro s w hM ht e
    simp only [optimizeBy]
    obtain ⟨a, h1, ea, -⟩ := select_stateless (env := env) (s := s) (by rw [ht]; exact hst)
    simp only [h1]
    have wa := hsel _ _ h1 w
    split_ifs with h0
    · simp
    · have hact := all_or_none (by rw [ht]; exact hst) (by rw [hM, ht]; exact hu) (hsub _ wa) h1 h0
      obtain ⟨c, h2, hvc⟩ := htot a wa (by rw [hact, List.length_range])
      simp only [h2]
      have fr := hf _ _ h2
      obtain ⟨q, hq'⟩ := hs c
      have h3 : schedUpdate env c = .ok { c with alpha := q.alpha, lamda := q.lamda, sigma := q.sigma, dt := q.dt } := by
        simp only [schedUpdate, hq', bind, Except.bind, pure, Except.pure]
      simp only [h3]
      refine ih _ (hsch _ _ h3 hvc) ?_ ?_ e
      · show c.M = M
        rw [fr.M, ea]; exact hM
      · show c.terms = terms
        rw [fr.terms, ea]; exact ht

theorem batchShape_select {env : Env K V} {s s' : St K V} (w : BatchShape s) (h : selectActive env s = .ok s') : BatchShape s' := by
  have hw := select_wf w.toWF h
  have f := select_frame h
  exact ⟨hw, by rw [f]; exact w.yr, by rw [f]; exact w.yc⟩

theorem batchShape_sched {env : Env K V} {s s' : St K V} (w : BatchShape s) (h : schedUpdate env s = .ok s') : BatchShape s' := by
  have hw := sched_wf w.toWF h
  have f := sched_frame h
  exact ⟨hw, by rw [f]; exact w.yr, by rw [f]; exact w.yc⟩

/-- If no step succeeds from states with property `P`, kept by the other operations, then a run that does not raise makes no step. -/
theorem no_step_run {env : Env K V} {stp : St K V → Except Err (St K V)} {P : St K V → Prop}
    (hsel : ∀ s s', selectActive env s = .ok s' → P s → P s') (hsch : ∀ s s', schedUpdate env s = .ok s' → P s → P s') (hre : ∀ s, P s → P (reset s))
    (hno : ∀ s s', P s → stp s ≠ .ok s') : ∀ (ops : List Op) (s s' : St K V), P s → execAllBy env stp ops s = .ok s' → Op.step ∉ ops
  | [], _, _, _, _ => by simp
  | o :: l, s, s', hP, h => by
    simp only [execAllBy, bind_ok] at h
    obtain ⟨a, h1, h2⟩ := h
    cases o with
    | step => exact absurd h1 (hno s a hP)
    | select => simpa using no_step_run hsel hsch hre hno l a s' (hsel _ _ h1 hP) h2
    | sched => simpa using no_step_run hsel hsch hre hno l a s' (hsch _ _ h1 hP) h2
    | reset =>
      have h1 : Except.ok (reset s) = Except.ok a := h1
      injection h1 with h1
      subst h1
      simpa using no_step_run hsel hsch hre hno l _ s' (hre _ hP) h2

theorem batchShape_reset {s : St K V} (w : BatchShape s) : BatchShape (reset s) := ⟨reset_wf w.toWF, w.yr, w.yc⟩

end
end Verif
