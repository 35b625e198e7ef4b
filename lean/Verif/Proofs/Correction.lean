import Verif.Model.Correction
import Verif.Proofs.Total
import Verif.Proofs.Local
import Verif.Proofs.Count
import Mathlib.Analysis.SpecialFunctions.Artanh

/-! Helper lemmas for `Props/Correction.lean`. -/

set_option linter.unusedSectionVars false

namespace Verif

section
variable {K V : Type} [Zero K] [One K] [Neg K] [Add K] [Sub K] [Mul K] [Inv K] [Div K] [NatCast K] [Pow K ℕ] [LinearOrder K] [Add V] [Sub V] [SMul K V]

/-- `a - b > 0` is the strict comparison `b < a`, also for infinite and NaN operands. -/
theorem sub_gt_zero [SoundArith K] (a b : Flt K) : Flt.gt (Flt.sub a b) (.fin 0) = Flt.lt b a := by
  cases a <;> cases b <;> simp [Flt.gt, Flt.sub, Flt.add, Flt.neg, Flt.lt, SoundArith.sub_pos]

/-- What a CBO move with a Heaviside correction does: the shapes that must fit, and the drift. -/
theorem heaviMove_facts {env : Env K V} {g : Flt K → V → V} (hg : env.corr = .heavi g) {s s' : St K V} {c : Mat V}
    (hcons : s.cons = some c) (hrows : c.rows = s.pIdx.rows) (hcols : c.cols = 1) (h : cboMove env s = .ok s') :
    ∃ d zr zc ur uc, s'.drift = some d ∧ s'.cons = some c ∧ s'.energy = s.energy ∧
      Mat.bdim s.energy.rows s.pIdx.rows = some zr ∧ s.energy.cols = zc ∧
      Mat.bdim s.pIdx.rows zr = some d.rows ∧ Mat.bdim s.pIdx.cols zc = some d.cols ∧
      (∃ a, Mat.bdim d.rows a = some ur) ∧ (∃ a, Mat.bdim d.cols a = some uc) ∧
      (ur = s.pIdx.rows ∨ ur = 1) ∧ (uc = s.pIdx.cols ∨ uc = 1) ∧
      (s.energy.rows = s.pIdx.rows → s.energy.cols = s.pIdx.cols → ∀ i < s.pIdx.rows, ∀ j < s.pIdx.cols,
        d.get i j = g (Flt.sub (s.energy.get i j) (env.f (c.get i 0))) (s.x.get (s.pIdx.run i) (s.pIdx.par i j) - c.get i 0)) ∧
      (s.energy.rows = s.pIdx.rows → s.energy.cols = s.pIdx.cols → ∃ (q : St K V) (n : Mat V), env.noise q = .ok n ∧ q.drift = some d ∧
        ∀ m k, s.pIdx.Sel m k → ∃ i < s.pIdx.rows, ∃ j < s.pIdx.cols, s.pIdx.run i = m ∧ s.pIdx.par i j = k ∧
          s'.x.get m k = s.x.get m k + cboUpdate s.lamda s.dt s.sigma (d.get i j) (n.get (Mat.bpos n.rows i) (Mat.bpos n.cols j))) := by
  unfold cboMove at h
  rw [hcons] at h
  simp only [bind_ok, pure_ok] at h
  obtain ⟨xp, hxp, d0, hd0, ⟨d, s1⟩, hcc, n, hnn, u, hu, x, hx, rfl⟩ := h
  unfold correction at hcc
  rw [hg, hcons] at hcc
  simp only [bind_ok, pure_ok, callF] at hcc
  obtain ⟨z, hz, d', hd', hcc⟩ := hcc
  cases hcc
  obtain ⟨_, g1, g2, g3⟩ := Mat.gather_ok hxp
  obtain ⟨a1, a2, a3⟩ := Mat.bin_ok hd0
  rw [g1, hrows, Mat.bdim_self] at a1
  rw [g2, hcols, Mat.bdim_one_right] at a2
  simp only [Option.some.injEq] at a1 a2
  obtain ⟨z1, z2, z3⟩ := Mat.bin_ok hz
  have z1' : Mat.bdim s.energy.rows s.pIdx.rows = some z.rows := by rw [← hrows]; exact z1
  have z2' : s.energy.cols = z.cols := by
    have : Mat.bdim s.energy.cols c.cols = some z.cols := z2
    rw [hcols, Mat.bdim_one_right] at this
    simpa using this
  obtain ⟨d1, d2, d3⟩ := Mat.bin_ok hd'
  simp only at hu hx
  obtain ⟨u1, u2, u3⟩ := Mat.bin_ok hu
  obtain ⟨-, -, -, -, -, hb1, hb2⟩ := Mat.scatterAdd_ok hx
  rw [← a1] at d1
  rw [← a2] at d2
  refine ⟨d, z.rows, z.cols, u.rows, u.cols, rfl, rfl, rfl, z1', z2', d1, d2, ⟨_, u1⟩, ⟨_, u2⟩, hb1, hb2, ?_, ?_⟩
  rotate_left
  · intro e1 e2
    rw [e1, Mat.bdim_self] at z1'
    simp only [Option.some.injEq] at z1'
    rw [← z1', Mat.bdim_self] at d1
    rw [← z2', e2, Mat.bdim_self] at d2
    simp only [Option.some.injEq] at d1 d2
    refine ⟨_, n, hnn, rfl, ?_⟩
    intro m k hs
    obtain ⟨-, -, -, -, x4, -, -⟩ := Mat.scatterAdd_ok hx
    obtain ⟨i, hi, j, hj, r1, r2, r3⟩ := x4 m k hs
    refine ⟨i, hi, j, hj, r1, r2, ?_⟩
    simp only
    have hur : u.rows = s.pIdx.rows := by
      rcases hb1 with h | h
      · exact h
      · have := (Mat.bdim_eq_some u1).1
        omega
    have huc : u.cols = s.pIdx.cols := by
      rcases hb2 with h | h
      · exact h
      · have := (Mat.bdim_eq_some u2).1
        omega
    rw [r3, u3]
    rw [Mat.bpos_lt (by omega : i < u.rows), Mat.bpos_lt (by omega : j < u.cols), Mat.bpos_lt (by omega : i < d.rows),
      Mat.bpos_lt (by omega : j < d.cols)]
  intro e1 e2 i hi j hj
  rw [e1, Mat.bdim_self] at z1'
  simp only [Option.some.injEq] at z1'
  rw [d3, Mat.bpos_lt (by omega : i < d0.rows), Mat.bpos_lt (by omega : j < d0.cols), Mat.bpos_lt (by omega : i < z.rows),
    Mat.bpos_lt (by omega : j < z.cols), a3, Mat.bpos_lt (by omega : i < xp.rows), Mat.bpos_lt (by omega : j < xp.cols),
    Mat.bpos_lt (by omega : i < c.rows), g3, hcols, z3]
  simp only [Mat.map]
  rw [Mat.bpos_lt (by omega : i < s.energy.rows), Mat.bpos_lt (by omega : j < s.energy.cols), Mat.bpos_lt (by omega : i < c.rows), hcols]
  rfl

/-- The state before the move in a CBO step with one consensus point per run. -/
theorem heaviStep_split {env : Env K V} {r : List (K × Flt K × V) → V} (hr : env.cons = .mean r) (hp : PermOK env)
    {s s' : St K V} (hw : WF s) (h : step env (cboInner env) s = .ok s') :
    ∃ q v cm, q.cons = some cm ∧ cm.rows = s.active.length ∧ cm.cols = 1 ∧ cboMove env q = .ok v ∧ s'.drift = v.drift ∧ s'.cons = v.cons ∧
      s'.energy = v.energy ∧ (∃ w : St K V, w.x = v.x ∧ env.post w = .ok s'.x) ∧ q.lamda = s.lamda ∧ q.dt = s.dt ∧ q.sigma = s.sigma ∧ q.x = s.x ∧ q.pIdx = (preStep env s).pIdx ∧ q.pIdx.rows = s.active.length ∧ q.energy.rows = s.M ∧ q.energy.cols = s.N ∧
      (∀ m n, (preStep env s).cIdx.Sel m n → q.energy.get m n = env.f (s.x.get m n)) := by
  rw [cboInner_eq] at h
  obtain ⟨v, hv, hs⟩ := step_split.1 h
  obtain ⟨c, hcc, hmv⟩ := consThen_split.1 hv
  have hix := preStep_idx env hp hw
  have p1 := preStep_frame env s
  have pact : (preStep env s).active = s.active := by rw [p1]
  have px : (preStep env s).x = s.x := by rw [p1]
  have pe : (preStep env s).energy = s.energy := by rw [p1]
  have cf := computeConsensus_frame hcc
  have cfacts := computeConsensus_facts hcc
  obtain ⟨cm, hcm, cm1, cm2, cm3⟩ := computeConsensus_mean hr (by rw [pact]; exact hix.cRows) hcc
  have pf := (postStep_facts hs).frame
  refine ⟨c, v, cm, hcm, by rw [cm1, pact], cm2, hmv, by rw [pf], by rw [pf], by rw [pf], ⟨v, rfl, (postStep_facts hs).post⟩, by rw [cf, p1],
    by rw [cf, p1], by rw [cf, p1], by rw [cf]; exact px, by rw [cf],
    by rw [show c.pIdx = (preStep env s).pIdx by rw [cf]]; exact hix.pRows, by rw [cfacts.er, pe, hw.er], by rw [cfacts.ec, pe, hw.ec], ?_⟩
  intro m n hs
  rw [cfacts.fresh m n hs, px]

end

theorem tanh_bounds (t : ℝ) : -1 < Real.tanh t ∧ Real.tanh t < 1 := Real.tanh_bijOn.mapsTo (Set.mem_univ t)

theorem tanh_strictMono : StrictMono Real.tanh := by
  intro a b hab
  by_contra hn
  rw [not_lt] at hn
  have h1 := (Real.artanh_le_artanh_iff (Real.tanh_bijOn.mapsTo (Set.mem_univ b)) (Real.tanh_bijOn.mapsTo (Set.mem_univ a))).2 hn
  rw [Real.artanh_tanh, Real.artanh_tanh] at h1
  linarith

end Verif
