import Verif.Proofs.OptimizeBy
import Verif.Proofs.MoveTotal
import Verif.Proofs.CovTotal
import Verif.Proofs.MemCount

/-! Helper lemmas: steps of the memory dynamics with all runs active do not raise. -/

set_option linter.unusedSectionVars false

namespace Verif

section
variable {K V : Type} [Zero K] [One K] [Neg K] [Add K] [Sub K] [Mul K] [Inv K] [Div K] [NatCast K] [Pow K ℕ] [LinearOrder K] [Add V] [Sub V] [SMul K V]

theorem all_in {M N : ℕ} {α : Type} {a : Mat α} (h1 : a.rows = M) (h2 : a.cols = N) : (Idx.all M N).InBounds a.rows a.cols := by
  intro i hi j hj
  rw [h1, h2]
  exact ⟨hi, hj⟩

theorem gather_all_total {M N : ℕ} {α : Type} {a : Mat α} (h1 : a.rows = M) (h2 : a.cols = N) :
    ∃ r : Mat α, a.gather (Idx.all M N) = .ok r ∧ r.rows = M ∧ r.cols = N :=
  ⟨_, Mat.gather_of_inBounds (all_in h1 h2), rfl, rfl⟩

theorem scatterAdd_all_total {M N : ℕ} {a u : Mat V} (h1 : a.rows = M) (h2 : a.cols = N) (u1 : u.rows = M) (u2 : u.cols = N) :
    ∃ r : Mat V, a.scatterAdd (Idx.all M N) u = .ok r ∧ r.rows = M ∧ r.cols = N := by
  obtain ⟨r, hr⟩ := Mat.scatterAdd_of_shape (a := a) (v := u) (ix := Idx.all M N) (all_in h1 h2) u1 u2
  exact ⟨r, hr, by rw [(Mat.scatterAdd_ok hr).2.1, h1], by rw [(Mat.scatterAdd_ok hr).2.2.1, h2]⟩

theorem scatter_all_total {M N : ℕ} {α : Type} {a u : Mat α} (h1 : a.rows = M) (h2 : a.cols = N) (u1 : u.rows = M) (u2 : u.cols = N) :
    ∃ r : Mat α, a.scatter (Idx.all M N) u = .ok r ∧ r.rows = M ∧ r.cols = N := by
  obtain ⟨r, hr⟩ := Mat.scatter_of_shape (a := a) (v := u) (ix := Idx.all M N) (all_in h1 h2) u1 u2
  exact ⟨r, hr, by rw [(Mat.scatter_ok hr).2.1, h1], by rw [(Mat.scatter_ok hr).2.2.1, h2]⟩

theorem bin_colL {α β γ : Type} (f : α → β → γ) {a : Mat α} {b : Mat β} {r c : ℕ} (h1 : a.rows = r) (h2 : b.rows = r)
    (h3 : a.cols = 1) (h4 : b.cols = c) : ∃ v, Mat.bin f a b = .ok v ∧ v.rows = r ∧ v.cols = c :=
  ⟨_, Mat.bin_of_dims (r := r) (c := c) (by rw [h1, h2]; exact Mat.bdim_self _) (by rw [h3, h4]; exact Mat.bdim_one_left _), rfl, rfl⟩

theorem bin_colR {α β γ : Type} (f : α → β → γ) {a : Mat α} {b : Mat β} {r c : ℕ} (h1 : a.rows = r) (h2 : b.rows = r)
    (h3 : a.cols = c) (h4 : b.cols = 1) : ∃ v, Mat.bin f a b = .ok v ∧ v.rows = r ∧ v.cols = c :=
  ⟨_, Mat.bin_of_dims (r := r) (c := c) (by rw [h1, h2]; exact Mat.bdim_self _) (by rw [h3, h4]; exact Mat.bdim_one_right _), rfl, rfl⟩

/-- All runs active, nothing batched, index arrays of the whole ensemble. -/
structure AllIdx (s : St K V) : Prop extends MemShape s where
  pIdx : s.pIdx = Idx.all s.M s.N
  cIdx : s.cIdx = Idx.all s.M s.N
  full : s.active.length = s.M

theorem memConsensus_total {env : Env K V} (hmean : ∃ r, env.cons = .mean r) {s : St K V} (w : AllIdx s) :
    ∃ c : Mat V, memConsensus env s = .ok { s with cons := some c } ∧ c.rows = s.M ∧ c.cols = 1 := by
  obtain ⟨r, hr⟩ := hmean
  obtain ⟨yb, e1, a1, a2⟩ := gather_all_total w.yr w.yc
  obtain ⟨p, e2, p1, p2⟩ := bin_colL (fun (a : K) (e : Flt K) => (a, e)) (a := alphaActive s) (b := s.energy) w.full w.er rfl w.ec
  obtain ⟨q, e3, q1, q2⟩ := Mat.bin_shape (fun (p : K × Flt K) (v : V) => (p.1, p.2, v)) p1 a1 p2 a2
  refine ⟨env.cons.apply q, ?_, by rw [hr]; exact q1, by rw [hr]; rfl⟩
  simp only [memConsensus, w.cIdx, e1, e2, e3, bind, Except.bind, pure, Except.pure]

theorem memoryStep_total {env : Env K V} (hn : NoiseOK env) (lm sm : K) {s : St K V} (w : AllIdx s) :
    ∃ s', memoryStep env lm sm s = .ok s' := by
  obtain ⟨xp, e1, a1, a2⟩ := gather_all_total w.xr w.xc
  obtain ⟨yp, e2, b1, b2⟩ := gather_all_total w.yr w.yc
  obtain ⟨d, e3, d1, d2⟩ := Mat.bin_shape (fun a b : V => a - b) a1 b1 a2 b2
  obtain ⟨n, e4, n1, n2⟩ := hn { s with drift := some d } d rfl
  obtain ⟨u, e5, u1, u2⟩ := Mat.bin_shape (cboUpdate lm s.dt sm) d1 (n1.trans d1) d2 (n2.trans d2)
  obtain ⟨x, e6, -, -⟩ := scatterAdd_all_total w.xr w.xc u1 u2
  rw [← w.pIdx] at e1 e2 e6
  simp only [memoryStep, e1, e2, e3, e4, e5, e6, bind, Except.bind, pure, Except.pure]
  exact ⟨_, rfl⟩

theorem memUpdate_total {env : Env K V} {s : St K V} (w : AllIdx s) : ∃ s', memUpdate env s = .ok s' ∧ s'.energy.cols = s.N ∧ s'.x = s.x := by
  obtain ⟨xp, e1, a1, a2⟩ := gather_all_total w.xr w.xc
  obtain ⟨yp, e2, b1, b2⟩ := gather_all_total w.yr w.yc
  obtain ⟨b, e3, c1, c2⟩ := Mat.bin_shape (fun a b : Flt K => Flt.gt a b) w.er (b := xp.map env.f) a1 w.ec a2
  obtain ⟨d, e4, d1, d2⟩ := Mat.bin_shape (fun a b : V => a - b) a1 b1 a2 b2
  obtain ⟨u, e5, u1, u2⟩ := Mat.bin_shape (maskMul (K := K) (V := V)) c1 d1 c2 d2
  obtain ⟨y, e6, -, -⟩ := scatterAdd_all_total w.yr w.yc u1 u2
  obtain ⟨en, e7, -, g2⟩ := Mat.bin_shape (Flt.minimum (K := K)) w.er (b := xp.map env.f) a1 w.ec a2
  rw [← w.pIdx] at e1 e2 e6
  simp only [memUpdate, evalF, callF, e1, e2, e3, e4, e5, e6, e7, bind, Except.bind, pure, Except.pure]
  exact ⟨_, rfl, g2, rfl⟩

theorem memInner_total {env : Env K V} (he : EnvOK env) (lm sm : K) {s : St K V} (w : AllIdx s) :
    ∃ v, memInner env lm sm s = .ok v ∧ v.energy.cols = s.N ∧ v.x.rows = s.M ∧ v.x.cols = s.N := by
  obtain ⟨c, e1, c1, c2⟩ := memConsensus_total he.mean w
  obtain ⟨b, e2⟩ := cboMove_total (s := { s with cons := some c }) he.corr (fun d _ _ => he.noise _ d rfl) rfl
    (by rw [c1]; simp only [w.pIdx]; rfl) c2 (by simp only [w.pIdx]; exact all_in w.xr w.xc)
  have bf := (cboMove_ok env).frame _ _ e2
  unfold MoveFrame at bf
  have br := (cboMove_ok env).rows _ _ e2
  have bc := (cboMove_ok env).cols _ _ e2
  have by' : b.aux1 = s.aux1 := by
    have h := e2
    unfold cboMove at h
    simp only [bind_ok, pure_ok] at h
    obtain ⟨_, _, _, _, r, hr, _, _, _, _, _, _, rfl⟩ := h
    rw [(correction_facts hr).1]
  have wb : AllIdx b := by
    refine ⟨⟨?_, ?_, ?_, ?_, ?_, ?_, ?_, ?_, ?_⟩, ?_, ?_, ?_⟩
    · rw [br, bf]; exact w.xr
    · rw [bc, bf]; exact w.xc
    · rw [bf]; exact w.er
    · rw [bf]; exact w.ec
    · rw [by', bf]; exact w.yr
    · rw [by', bf]; exact w.yc
    · rw [bf]; exact w.act
    · rw [bf]; exact w.pool
    · rw [bf]; exact w.pos
    · rw [bf]; exact w.pIdx
    · rw [bf]; exact w.cIdx
    · rw [bf]; exact w.full
  obtain ⟨q, e3⟩ := memoryStep_total he.noise lm sm wb
  obtain ⟨qf, qr, qc⟩ := memoryStep_frame e3
  have wq : AllIdx q := by
    refine ⟨⟨?_, ?_, ?_, ?_, ?_, ?_, ?_, ?_, ?_⟩, ?_, ?_, ?_⟩
    · rw [qr, qf]; exact wb.xr
    · rw [qc, qf]; exact wb.xc
    all_goals rw [qf]
    exacts [wb.er, wb.ec, wb.yr, wb.yc, wb.act, wb.pool, wb.pos, wb.pIdx, wb.cIdx, wb.full]
  obtain ⟨v, e4, v1, v2⟩ := memUpdate_total (env := env) wq
  refine ⟨v, ?_, by rw [v1, qf, bf], by rw [v2, wq.xr, qf, bf], by rw [v2, wq.xc, qf, bf]⟩
  simp only [memInner, e1, e2, e3, e4, bind, Except.bind]

theorem allIdx_pre {env : Env K V} {s : St K V} (w : MemPlain s) (full : s.active.length = s.M) : AllIdx (preStep env s) := by
  have pf := preStep_frame env s
  have hi : (preStep env s).pIdx = Idx.all s.M s.N ∧ (preStep env s).cIdx = Idx.all s.M s.N := by
    unfold preStep setBatch
    rw [if_neg (by simp [w.nob])]
    unfold setBatchUnbatched
    simp [full]
  refine ⟨⟨?_, ?_, ?_, ?_, ?_, ?_, ?_, ?_, ?_⟩, ?_, ?_, ?_⟩
  any_goals rw [pf]
  · exact w.xr
  · exact w.xc
  · exact w.er
  · exact w.ec
  · exact w.yr
  · exact w.yc
  · exact w.act
  · exact ⟨w.pool.1, fun h => absurd (w.nob.symm.trans h) (by simp)⟩
  · exact w.pos
  · exact hi.1
  · exact hi.2
  · exact full

theorem memPostStep_total {env : Env K V} (hp : ∀ s, ∃ x', env.post s = .ok x' ∧ x'.rows = s.x.rows ∧ x'.cols = s.x.cols)
    {s : St K V} (h1 : s.energy.cols ≠ 0) (h2 : s.saveInt ≠ 0)
    (h3 : ∀ o, s.xOld = some o → o.rows = s.x.rows ∧ o.cols = s.x.cols) :
    ∃ s', memPostStep env s = .ok s' := by
  unfold memPostStep
  obtain ⟨x', hx, e1, e2⟩ := hp s
  rw [hx]
  simp only [bind, Except.bind]
  unfold updateDiff
  simp only
  cases ho : s.xOld with
  | none =>
    simp only [pure, Except.pure, memBestCur, if_neg h1, updateBest, track, if_neg h2]
    split_ifs <;> exact ⟨_, rfl⟩
  | some o =>
    obtain ⟨o1, o2⟩ := h3 o ho
    simp only
    rw [Mat.bin_of_dims (r := s.x.rows) (c := s.x.cols) (by rw [e1, o1]; exact Mat.bdim_self _)
      (by rw [e2, o2]; exact Mat.bdim_self _)]
    simp only [pure, Except.pure, memBestCur, if_neg h1, updateBest, track, if_neg h2, bind, Except.bind]
    split_ifs <;> exact ⟨_, rfl⟩

theorem memStep_total {env : Env K V} (he : EnvOK env) (lm sm : K) {s : St K V} (w : MemPlain s) (full : s.active.length = s.M)
    (hsi : s.saveInt ≠ 0) : ∃ s', memStep env lm sm s = .ok s' := by
  have pf := preStep_frame env s
  obtain ⟨v, hv, v1, v2, v3⟩ := memInner_total he lm sm (allIdx_pre (env := env) w full)
  have vf := memInner_frame env lm sm _ _ hv
  obtain ⟨s', hs'⟩ := memPostStep_total he.post (s := v) (by rw [v1, pf]; exact w.pos.ne')
    (by rw [vf]; simp only; rw [pf]; exact hsi)
    (by
      intro o ho
      have e2 : v.xOld = some s.x := by rw [vf]; simp only; rw [pf]
      rw [e2] at ho
      injection ho with ho
      subst ho
      rw [v2, v3, pf]
      exact ⟨w.xr, w.xc⟩)
  exact ⟨s', by simp only [memStep, hv, hs', bind, Except.bind]⟩

theorem memSteps_frame {env : Env K V} {lm sm : K} {p : PsoPar K} : ∀ stp ∈ memSteps env lm sm p, ∀ s s', stp s = .ok s' → StepFrame env s s' := by
  intro stp h
  simp only [memSteps, List.mem_cons, List.not_mem_nil, or_false] at h
  rcases h with rfl | rfl
  · exact fun _ _ h => memStep_frame h
  · exact fun _ _ h => psoStep_frame h

/-! ### `PSO` -/

/-- The velocities have the shape of the ensemble. -/
def VShape (s : St K V) : Prop := s.aux2.rows = s.M ∧ s.aux2.cols = s.N

theorem psoVelocity_total {env : Env K V} (he : EnvOK env) (p : PsoPar K) {s : St K V} (w : AllIdx s) (hv : VShape s)
    (hz : p.m + p.gamma * s.dt ≠ 0) : ∃ s', psoVelocity env p s = .ok s' ∧ VShape s' := by
  obtain ⟨r, hr⟩ := he.mean
  obtain ⟨yb, e1, a1, a2⟩ := gather_all_total w.yr w.yc
  obtain ⟨eb, e0, b1, b2⟩ := gather_all_total w.er w.ec
  obtain ⟨q, e2, q1, q2⟩ := bin_colL (fun (a : K) (e : Flt K) => (a, e)) (a := alphaActive s) (b := eb) w.full b1 rfl b2
  obtain ⟨wx, e3, w1, w2⟩ := Mat.bin_shape (fun (p : K × Flt K) (v : V) => (p.1, p.2, v)) q1 a1 q2 a2
  obtain ⟨xp, e4, x1, x2⟩ := gather_all_total w.xr w.xc
  obtain ⟨dc, e5, d1, d2⟩ := bin_colR (fun a b : V => a - b) (a := xp) (b := env.cons.apply wx) x1 (by rw [hr]; exact w1) x2 (by rw [hr]; rfl)
  obtain ⟨dm, e6, m1, m2⟩ := Mat.bin_shape (fun a b : V => a - b) x1 a1 x2 a2
  obtain ⟨n1, e7, n11, n12⟩ := he.noise { s with cons := some (env.cons.apply wx), drift := some dc } dc rfl
  obtain ⟨n2, e8, n21, n22⟩ := he.noise { s with cons := some (env.cons.apply wx), drift := some dm, draws := s.draws + 1 } dm rfl
  obtain ⟨vp, e9, v1, v2⟩ := gather_all_total hv.1 hv.2
  obtain ⟨r1, f1, r11, r12⟩ := Mat.bin_shape (fun v d : V => (p.m * s.dt) • v + d) v1 (b := dc.map fun d => (s.lamda * s.dt) • d) d1 v2 d2
  obtain ⟨r2, f2, r21, r22⟩ := Mat.bin_shape (fun a d : V => a + (p.lm * s.dt) • d) r11 m1 r12 m2
  obtain ⟨r3, f3, r31, r32⟩ := Mat.bin_shape (fun a n : V => a + s.sigma • n) r21 (n11.trans d1) r22 (n12.trans d2)
  obtain ⟨r4, f4, r41, r42⟩ := Mat.bin_shape (fun a n : V => a + p.sm • n) r31 (n21.trans m1) r32 (n22.trans m2)
  obtain ⟨y, f5, y1, y2⟩ := scatter_all_total hv.1 hv.2 (u := r4.map fun a => (p.m + p.gamma * s.dt)⁻¹ • a) r41 r42
  have g := w.pIdx
  have g' := w.cIdx
  rw [← g'] at e1 e0
  rw [← g] at e4 e9 f5
  have e1' : s.aux1.gather s.pIdx = .ok yb := by rw [g, ← g']; exact e1
  simp only [psoVelocity, correction, he.corr, e1, e1', e0, e2, e3, e4, e5, e6, e7, e8, e9, if_neg hz, f1, f2, f3, f4, f5, bind, Except.bind, pure, Except.pure]
  exact ⟨_, rfl, y1, y2⟩

theorem psoPosition_total {s : St K V} (w : AllIdx s) (hv : VShape s) : ∃ s', psoPosition s = .ok s' := by
  obtain ⟨xp, e1, a1, a2⟩ := gather_all_total w.xr w.xc
  obtain ⟨vp, e2, b1, b2⟩ := gather_all_total hv.1 hv.2
  obtain ⟨y, e3, y1, y2⟩ := Mat.bin_shape (fun x v : V => x + s.dt • v) a1 b1 a2 b2
  obtain ⟨x, e4, -, -⟩ := scatter_all_total w.xr w.xc y1 y2
  rw [← w.pIdx] at e1 e2 e4
  simp only [psoPosition, e1, e2, e3, e4, bind, Except.bind, pure, Except.pure]
  exact ⟨_, rfl⟩

theorem psoUpdate_total {env : Env K V} {s : St K V} (w : AllIdx s) :
    ∃ s', psoUpdate env s = .ok s' ∧ s'.energy.cols = s.N ∧ s'.x = s.x ∧ s'.aux2 = s.aux2 := by
  obtain ⟨xp, e1, a1, a2⟩ := gather_all_total w.xr w.xc
  obtain ⟨yp, e2, b1, b2⟩ := gather_all_total w.yr w.yc
  obtain ⟨b, e3, c1, c2⟩ := Mat.bin_shape (fun a b : Flt K => Flt.gt a b) w.er (b := xp.map env.f) a1 w.ec a2
  obtain ⟨d, e4, d1, d2⟩ := Mat.bin_shape (fun a b : V => a - b) a1 b1 a2 b2
  obtain ⟨u, e5, u1, u2⟩ := Mat.bin_shape (maskMul (K := K) (V := V)) c1 d1 c2 d2
  obtain ⟨y0, e6, y1, y2⟩ := Mat.bin_shape (fun y u : V => y + u) b1 u1 b2 u2
  obtain ⟨y, e7, -, -⟩ := scatter_all_total w.yr w.yc y1 y2
  obtain ⟨en, e8, -, g2⟩ := Mat.bin_shape (Flt.minimum (K := K)) w.er (b := xp.map env.f) a1 w.ec a2
  rw [← w.pIdx] at e1 e2 e7
  simp only [psoUpdate, callF, e1, e2, e3, e4, e5, e6, e7, e8, bind, Except.bind, pure, Except.pure]
  exact ⟨_, rfl, g2, rfl, rfl⟩

theorem psoInner_total {env : Env K V} (he : EnvOK env) (p : PsoPar K) {s : St K V} (w : AllIdx s) (hv : VShape s)
    (hz : p.m + p.gamma * s.dt ≠ 0) :
    ∃ v, psoInner env p s = .ok v ∧ v.energy.cols = s.N ∧ v.x.rows = s.M ∧ v.x.cols = s.N ∧ v.aux2.rows = s.M ∧ v.aux2.cols = s.N := by
  obtain ⟨a, e1, va⟩ := psoVelocity_total he p w hv hz
  have af := (psoVelocity_frame e1).1
  have wa : AllIdx a := by
    refine ⟨⟨?_, ?_, ?_, ?_, ?_, ?_, ?_, ?_, ?_⟩, ?_, ?_, ?_⟩
    all_goals rw [af]
    exacts [w.xr, w.xc, w.er, w.ec, w.yr, w.yc, w.act, w.pool, w.pos, w.pIdx, w.cIdx, w.full]
  obtain ⟨b, e2⟩ := psoPosition_total wa va
  obtain ⟨bf, br, bc⟩ := psoPosition_frame e2
  have wb : AllIdx b := by
    refine ⟨⟨?_, ?_, ?_, ?_, ?_, ?_, ?_, ?_, ?_⟩, ?_, ?_, ?_⟩
    · rw [br, bf]; exact wa.xr
    · rw [bc, bf]; exact wa.xc
    all_goals rw [bf]
    exacts [wa.er, wa.ec, wa.yr, wa.yc, wa.act, wa.pool, wa.pos, wa.pIdx, wa.cIdx, wa.full]
  obtain ⟨v, e3, v1, v2, v3⟩ := psoUpdate_total (env := env) wb
  have bM : b.M = s.M := by rw [bf, af]
  have bN : b.N = s.N := by rw [bf, af]
  have ba : b.aux2 = a.aux2 := by rw [bf]
  have aM : a.M = s.M := by rw [af]
  have aN : a.N = s.N := by rw [af]
  refine ⟨v, ?_, by rw [v1, bN], by rw [v2, wb.xr, bM], by rw [v2, wb.xc, bN], by rw [v3, ba, va.1, aM], by rw [v3, ba, va.2, aN]⟩
  simp only [psoInner, e1, e2, e3, bind, Except.bind]

theorem psoStep_total {env : Env K V} (he : EnvOK env) (p : PsoPar K) {s : St K V} (w : MemPlain s) (hv : VShape s)
    (full : s.active.length = s.M) (hsi : s.saveInt ≠ 0) (hz : p.m + p.gamma * s.dt ≠ 0) :
    ∃ s', psoStep env p s = .ok s' ∧ VShape s' := by
  have pf := preStep_frame env s
  obtain ⟨v, hv, v1, v2, v3, v4, v5⟩ := psoInner_total he p (allIdx_pre (env := env) w full) (by rw [pf]; exact hv) (by rw [pf]; exact hz)
  have vf := psoInner_frame env p _ _ hv
  obtain ⟨s', hs'⟩ := postStep_total he.post (s := v) (by rw [v1, pf]; exact w.pos.ne')
    (by rw [vf]; simp only; rw [pf]; exact hsi)
    (by
      intro o ho
      have e2 : v.xOld = some s.x := by rw [vf]; simp only; rw [pf]
      rw [e2] at ho
      injection ho with ho
      subst ho
      rw [v2, v3, pf]
      exact ⟨w.xr, w.xc⟩)
  refine ⟨s', step_split.2 ⟨v, hv, hs'⟩, ?_⟩
  have sf := (postStep_facts hs').frame
  constructor
  · rw [sf]; simp only; rw [v4, vf]
  · rw [sf]; simp only; rw [v5, vf]

end

section
variable {K V : Type} [Zero K] [One K] [Neg K] [Add K] [Sub K] [Mul K] [Inv K] [Div K] [NatCast K] [Pow K ℕ] [LinearOrder K] [Add V] [Sub V] [SMul K V]

theorem memShape_select {env : Env K V} {s s' : St K V} (w : MemShape s) (h : selectActive env s = .ok s') : MemShape s' := by
  have f := select_frame h
  obtain ⟨bs, l, q, _, _, ha, _⟩ := select_active h
  have hs : s'.active.Sublist (List.range s.M) := by rw [ha]; exact List.filter_sublist
  rw [f]
  exact ⟨w.xr, w.xc, w.er, w.ec, w.yr, w.yc, hs, w.pool, w.pos⟩

theorem memShape_sched {env : Env K V} {s s' : St K V} (w : MemShape s) (h : schedUpdate env s = .ok s') : MemShape s' := by
  rw [sched_frame h]
  exact ⟨w.xr, w.xc, w.er, w.ec, w.yr, w.yc, w.act, w.pool, w.pos⟩

theorem memPlain_select {env : Env K V} {s s' : St K V} (w : MemPlain s) (h : selectActive env s = .ok s') : MemPlain s' :=
  ⟨memShape_select w.toMemShape h, by rw [select_frame h]; exact w.nob⟩

theorem memPlain_sched {env : Env K V} {s s' : St K V} (w : MemPlain s) (h : schedUpdate env s = .ok s') : MemPlain s' :=
  ⟨memShape_sched w.toMemShape h, by rw [sched_frame h]; exact w.nob⟩

/-- The loop does not raise if the runs stop together and steps with all runs active do not raise. -/
theorem optimizeBy_not_raised {env : Env K V} {stp : St K V → Except Err (St K V)} (hr : ∀ s s', MemPlain s → s.active ≠ [] → stp s = .ok s' → ∃ X, HistStep env s s' X)
    (hs : ∀ s, ∃ q, env.sched s = .ok q) {M : ℕ} {terms : List (Term K)} (hst : ∀ tm ∈ terms, Stateless tm) (hu : M = 1 ∨ ∀ tm ∈ terms, RunBlind tm)
    {Q Q₀ : St K V → Prop} (hQ : ∀ s s', selectActive env s = .ok s' → Q s → Q s') (hQ' : ∀ s s', schedUpdate env s = .ok s' → Q₀ s → Q s')
    (htot : ∀ s, MemPlain s → s.active.length = s.M → s.saveInt ≠ 0 → Q s → ∃ s', stp s = .ok s' ∧ Q₀ s') :
    ∀ (fuel : ℕ) (s : St K V), MemPlain s → s.M = M → s.terms = terms → s.saveInt ≠ 0 → Q s → ∀ e, optimizeBy env stp fuel s ≠ .raised e := by
  intro fuel
  induction fuel with
  | zero => intro s _ _ _ _ _ e; simp [optimizeBy]
  | succ fuel ih =>
    intro s w hM ht hsi hq e
    simp only [optimizeBy]
    obtain ⟨a, h1, ea, -⟩ := select_stateless (env := env) (s := s) (by rw [ht]; exact hst)
    simp only [h1]
    have wa := memPlain_select w h1
    split_ifs with h0
    · simp
    · have hact := all_or_none (by rw [ht]; exact hst) (by rw [hM, ht]; exact hu) wa.act h1 h0
      obtain ⟨c, h2, hvc⟩ := htot a wa (by rw [hact, List.length_range]) (by rw [ea]; exact hsi) (hQ s a h1 hq)
      simp only [h2]
      obtain ⟨X, g⟩ := hr a c wa (fun h => h0 (by rw [h]; rfl)) h2
      have fr := g.frame
      obtain ⟨q, hq'⟩ := hs c
      have h3 : schedUpdate env c = .ok { c with alpha := q.alpha, lamda := q.lamda, sigma := q.sigma, dt := q.dt } := by
        simp only [schedUpdate, hq', bind, Except.bind, pure, Except.pure]
      simp only [h3]
      refine ih _ (memPlain_sched ⟨g.shape, by rw [fr.batched]; exact wa.nob⟩ h3) ?_ ?_ ?_ (hQ' _ _ h3 hvc) e
      · show c.M = M
        rw [fr.M, ea]; exact hM
      · show c.terms = terms
        rw [fr.terms, ea]; exact ht
      · show c.saveInt ≠ 0
        rw [fr.saveInt, ea]; exact hsi

theorem memInit_facts {env : Env K V} {a : Args K V} {s : St K V} (h : memInit env a = .ok s) :
    VShape s ∧ s.saveInt = a.saveInt ∧ s.dt = a.dt ∧ s.it = 0 ∧ s.batchSize = batchSizeOf a.batchSize a.x0.cols := by
  simp only [memInit, bind_ok, pure_ok] at h
  obtain ⟨s₀, h0, rfl⟩ := h
  unfold init at h0
  split_ifs at h0
  all_goals
    injection h0 with h0
    subst h0
    exact ⟨⟨rfl, rfl⟩, rfl, rfl, rfl, rfl⟩

theorem memInit_plain {env : Env K V} {a : Args K V} (hb : batchSizeOf a.batchSize a.x0.cols = a.x0.cols)
    {s : St K V} (h : memInit env a = .ok s) : MemPlain s := by
  simp only [memInit, bind_ok, pure_ok] at h
  obtain ⟨s₀, h0, rfl⟩ := h
  unfold init at h0
  split_ifs at h0 with hz hc
  all_goals
    injection h0 with h0
    subst h0
    have hnb : decide (batchSizeOf a.batchSize a.x0.cols ≠ a.x0.cols) = false := by simp [hb]
    refine ⟨⟨rfl, rfl, rfl, rfl, ?_, ?_, List.Sublist.refl _, ⟨fun _ => hb, fun h => ?_⟩, Nat.pos_of_ne_zero hz⟩, hnb⟩
    · simp [initBatch, initHistory, checkFDims, callF, baseSt, Mat.map]
    · simp [initBatch, initHistory, checkFDims, callF, baseSt, Mat.map]
    · exact absurd (hnb.symm.trans h) (by simp)

/-- Some runs stopped, not all: the next step of either dynamic raises, and so does `optimize`. -/
theorem optimizeBy_stopped {env : Env K V} {stp : St K V → Except Err (St K V)} (hr : Remembers env stp) (fuel : ℕ) {s : St K V} (w : MemShape s)
    (hs : ∀ tm ∈ s.terms, Stateless tm) {m m' : ℕ} (hm : m < s.M) (hm' : m' < s.M) (h1 : ∃ tm ∈ s.terms, Fires env s m tm)
    (h2 : ∀ tm ∈ s.terms, ¬ Fires env s m' tm) : ∃ e, optimizeBy env stp (fuel + 1) s = .raised e := by
  obtain ⟨a, e1, ea, hact, -⟩ := select_stateless (env := env) hs
  have wa := memShape_select w e1
  have hin : m' ∈ a.active := (hact m').2 ⟨hm', h2⟩
  have hne : a.active ≠ [] := fun h => by rw [h] at hin; simp at hin
  have hout : m ∉ a.active := fun h => by
    obtain ⟨tm, ht, hf⟩ := h1
    exact ((hact m).1 h).2 tm ht hf
  cases e2 : stp a with
  | error e =>
    refine ⟨e, ?_⟩
    simp only [optimizeBy, e1, e2]
    rw [if_neg (fun h => hne (List.length_eq_zero_iff.1 h))]
  | ok b =>
    obtain ⟨X, g⟩ := hr a b wa hne e2
    have := wa.act.eq_of_length (by rw [g.full, List.length_range])
    rw [this] at hout
    exact absurd (List.mem_range.2 (by rw [ea]; exact hm)) hout

/-- The budget: a step is only made if a batch fits. -/
theorem maxEval_by {env : Env K V} {stp : St K V → Except Err (St K V)}
    (hstep : ∀ s s', MemShape s → s.active ≠ [] → stp s = .ok s' → (∃ X, HistStep env s s' X) ∧ ∃ X, StepCharge s s' X) (n : ℕ) :
    ∀ (fuel : ℕ) (s s' : St K V), MemShape s → (∀ tm ∈ s.terms, Stateless tm) → Term.maxEval n ∈ s.terms →
      optimizeBy env stp fuel s = .done s' →
      (∀ m < s.M, s'.nEval m ≤ max (n + (s.N - s.batchSize)) (s.nEval m)) ∧ (s.terms = [.maxEval n] → ∀ m < s.M, n < s'.nEval m + s.batchSize)
  | 0, _, _, _, _, _, h => nomatch h
  | fuel + 1, s, s', w, hs, hn, h => by
    simp only [optimizeBy] at h
    obtain ⟨a, h1, ea, hact, -⟩ := select_stateless (env := env) hs
    simp only [h1] at h
    have wa := memShape_select w h1
    by_cases h0 : a.active.length = 0
    · rw [if_pos h0] at h
      injection h with h
      subst h
      have hne : a.nEval = s.nEval := by rw [ea]
      refine ⟨fun m _ => by rw [hne]; exact le_max_right _ _, fun ht m hm => ?_⟩
      by_contra hc
      have : m ∈ a.active := by
        rw [hact, ht]
        refine ⟨hm, fun tm htm => ?_⟩
        rw [List.mem_singleton] at htm
        subst htm
        simp only [Fires, not_not]
        rw [hne] at hc
        omega
      rw [List.length_eq_zero_iff.1 h0] at this
      simp at this
    · rw [if_neg h0] at h
      cases h2 : stp a with
      | error e => simp [h2] at h
      | ok b =>
        simp only [h2] at h
        cases h3 : schedUpdate env b with
        | error e => simp [h3] at h
        | ok c =>
          simp only [h3] at h
          obtain ⟨⟨X, g⟩, Y, g'⟩ := hstep a b wa (fun hz => h0 (by rw [hz]; rfl)) h2
          have fr := g.frame
          have ec := sched_frame h3
          have cM : c.M = s.M := by rw [ec]; simp only; rw [fr.M, ea]
          have cN : c.N = s.N := by rw [ec]; simp only; rw [fr.N, ea]
          have cb : c.batchSize = s.batchSize := by rw [ec]; simp only; rw [fr.batchSize, ea]
          have ct : c.terms = s.terms := by rw [ec]; simp only; rw [fr.terms, ea]
          have cn : c.nEval = b.nEval := by rw [ec]
          have an : a.nEval = s.nEval := by rw [ea]
          have aM : a.M = s.M := by rw [ea]
          have aN : a.N = s.N := by rw [ea]
          obtain ⟨i1, i2⟩ := maxEval_by hstep n fuel c s' (memShape_sched g.shape h3) (by rw [ct]; exact hs) (by rw [ct]; exact hn) h
          refine ⟨fun m hm => ?_, fun ht m hm => ?_⟩
          · have := i1 m (by rw [cM]; exact hm)
            rw [cn, g'.nEval m (by rw [aM]; exact hm), an, aN, cN, cb] at this
            have hin : m ∈ a.active := by
              have := wa.act.eq_of_length (by rw [g.full, List.length_range])
              rw [this]
              exact List.mem_range.2 (by rw [aM]; exact hm)
            have hnf := ((hact m).1 hin).2 _ hn
            simp only [Fires, not_not] at hnf
            omega
          · have := i2 (by rw [ct]; exact ht) m (by rw [cM]; exact hm)
            rw [cb] at this
            exact this

end
end Verif
