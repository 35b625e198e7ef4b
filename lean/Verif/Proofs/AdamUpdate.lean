import Verif.Proofs.Adam
import Verif.Proofs.Total

/-! Helper lemma: how `AdamCBO` moves the selected particles. -/

set_option linter.unusedSectionVars false

namespace Verif

variable {K V : Type} [Zero K] [One K] [Neg K] [Add K] [Sub K] [Mul K] [Inv K] [Div K] [NatCast K] [Pow K ℕ] [LinearOrder K] [Add V] [Sub V] [SMul K V]

theorem biasFactor_ok {β f : K} {it : ℕ} (h : biasFactor β it = .ok f) : 1 - β ^ (it + 1) ≠ 0 ∧ f = 1 / (1 - β ^ (it + 1)) := by
  unfold biasFactor at h
  split_ifs at h with hb
  injection h with h
  exact ⟨hb, h.symm⟩

theorem adamStep_update {env : Env K V} {A : AdamOps V} {β1 β2 : K} (hmean : ∃ r, env.cons = .mean r) (hn : NoiseShape env) (hp : PermOK env)
    {s s' : St K V} (hw : WF s) (h : step env (consThen env (adamMove env A β1 β2)) s = .ok s') :
    ∃ nz xm : Mat V, (∃ q, env.noise q = .ok nz ∧ q.drift = s'.drift ∧ q.draws = s.draws ∧ q.dt = s.dt ∧ q.active = s.active ∧ q.x = s.x) ∧
      s'.draws = s.draws + 1 ∧ (∃ q, q.x = xm ∧ env.post q = .ok s'.x) ∧
      1 - β1 ^ (s.it + 1) ≠ 0 ∧ 1 - β2 ^ (s.it + 1) ≠ 0 ∧
      (∀ m k, ¬ s'.pIdx.Sel m k → xm.get m k = s.x.get m k) ∧
      ∀ m k, s'.pIdx.Sel m k → ∃ i < s.active.length, ∃ j < s'.pIdx.cols, s.active.getD i 0 = m ∧ s'.pIdx.par i j = k ∧
        xm.get m k = s.x.get m k + (-1 : K) • (s.lamda • A.quot ((1 / (1 - β1 ^ (s.it + 1))) • s'.aux1.get m k)
          ((1 / (1 - β2 ^ (s.it + 1))) • s'.aux2.get m k) - s.sigma • nz.get i j) := by
  have f := step_frame (consThen_frame (adamMove_ok env A β1 β2)) h
  obtain ⟨v, hv, hps⟩ := step_split.1 h
  obtain ⟨c, hcc, hmv⟩ := consThen_split.1 hv
  have hix := preStep_idx env hp hw
  have p1 := preStep_frame env s
  have pact : (preStep env s).active = s.active := by rw [p1]
  have cf := computeConsensus_frame hcc
  obtain ⟨r, hr⟩ := hmean
  obtain ⟨cm, hcm, cm1, cm2, -⟩ := computeConsensus_mean hr (by rw [pact]; exact hix.cRows) hcc
  have pf := postStep_facts hps
  have cp : c.pIdx = s'.pIdx := by rw [f.pIdx, cf]
  have cx : c.x = s.x := by rw [cf]; simp only; rw [p1]
  have cit : c.it = s.it := by rw [cf]; simp only; rw [p1]
  have clam : c.lamda = s.lamda := by rw [cf]; simp only; rw [p1]
  have csig : c.sigma = s.sigma := by rw [cf]; simp only; rw [p1]
  have cdr : c.draws = s.draws := by rw [cf]; simp only; rw [p1]
  have cdt : c.dt = s.dt := by rw [cf]; simp only; rw [p1]
  have cact : c.active = s.active := by rw [cf]; exact pact
  have pr : s'.pIdx.rows = s.active.length := by rw [f.pIdx]; exact hix.pRows
  unfold adamMove at hmv
  rw [hcm] at hmv
  simp only [bind_ok, pure_ok] at hmv
  obtain ⟨xp, e1, d, e2, m, e3, w, e4, mf, e5, vf, e6, mp, e7, vp, e8, q, e9, n, e10, u, e11, x, e12, rfl⟩ := hmv
  obtain ⟨f1, rfl⟩ := biasFactor_ok e5
  obtain ⟨f2, rfl⟩ := biasFactor_ok e6
  obtain ⟨-, g1, g2, g3⟩ := Mat.gather_ok e1
  obtain ⟨b1, b2, b3⟩ := Mat.bin_ok e2
  obtain ⟨-, mp1, mp2, mp3⟩ := Mat.gather_ok e7
  obtain ⟨-, vp1, vp2, vp3⟩ := Mat.gather_ok e8
  obtain ⟨q1, q2, q3⟩ := Mat.bin_ok e9
  obtain ⟨u1, u2, u3⟩ := Mat.bin_ok e11
  rw [g1, cm1, pact, cp, pr, Mat.bdim_self] at b1
  rw [g2, cm2, Mat.bdim_one_right] at b2
  rw [mp1, vp1, Mat.bdim_self] at q1
  rw [mp2, vp2, Mat.bdim_self] at q2
  simp only [Option.some.injEq] at b1 b2 q1 q2
  have hsh := hn _ d n (by rfl) e10
  obtain ⟨-, -, -, x3, x4, hb1, hb2⟩ := Mat.scatterAdd_ok e12
  rw [cp] at q1 q2 b2
  simp only [cp] at hb1 hb2
  have n1 : n.rows = q.rows := by
    rcases hsh.1 with h | h
    · omega
    · have := Mat.bdim_eq_some u1
      omega
  have n2 : n.cols = q.cols := by
    rcases hsh.2 with h | h
    · omega
    · have := Mat.bdim_eq_some u2
      omega
  rw [n1, Mat.bdim_self] at u1
  rw [n2, Mat.bdim_self] at u2
  simp only [Option.some.injEq] at u1 u2
  have va1 : s'.aux1 = m := by rw [pf.frame]
  have va2 : s'.aux2 = w := by rw [pf.frame]
  have vd : s'.drift = some d := by rw [pf.frame]
  rw [cit] at f1 f2
  refine ⟨n, x, ⟨_, e10, vd.symm, cdr, cdt, cact, cx⟩, ?_, ⟨_, rfl, pf.post⟩, f1, f2, ?_, ?_⟩
  · rw [pf.frame]
    show c.draws + 1 = _
    rw [cdr]
  · intro a k hs
    rw [x3 a k (by simp only [cp]; exact hs)]
    simp only [cx]
  · intro a k hs
    obtain ⟨i, hi, j, hj, i1, i2, i3⟩ := x4 a k (by simp only [cp]; exact hs)
    simp only [cp] at hi hj i1 i2
    refine ⟨i, by omega, j, hj, ?_, i2, ?_⟩
    · rw [← i1, f.pIdx]; exact (hix.pRun i (by omega)).symm
    · rw [i3, Mat.bpos_lt (by omega), Mat.bpos_lt (by omega), u3, Mat.bpos_lt (by omega), Mat.bpos_lt (by omega),
        Mat.bpos_lt (by omega), Mat.bpos_lt (by omega), q3, mp1, mp2, vp1, vp2]
      simp only [cp]
      rw [Mat.bpos_lt hi, Mat.bpos_lt hj, mp3, vp3]
      simp only [cp, i1, i2, va1, va2, cit, clam, csig, cx]

theorem Mat.ext_get {α : Type} {a b : Mat α} (h1 : a.rows = b.rows) (h2 : a.cols = b.cols) (h3 : ∀ m k, a.get m k = b.get m k) : a = b := by
  obtain ⟨r, c, g⟩ := a
  obtain ⟨r', c', g'⟩ := b
  obtain rfl : r = r' := h1
  obtain rfl : c = c' := h2
  obtain rfl : g = g' := funext fun m => funext fun k => h3 m k
  rfl

/-- The moved position of a selected particle, for any noise. -/
theorem adamMove_entry {env : Env K V} {A : AdamOps V} {β1 β2 : K} {s v : St K V} (h : adamMove env A β1 β2 s = .ok v) :
    v.x.rows = s.x.rows ∧ v.x.cols = s.x.cols ∧ (∀ m k, ¬ s.pIdx.Sel m k → v.x.get m k = s.x.get m k) ∧
      ∀ m k, s.pIdx.Sel m k → ∃ z : V, v.x.get m k = s.x.get m k + (-1 : K) • (s.lamda • A.quot ((1 / (1 - β1 ^ (s.it + 1))) • v.aux1.get m k)
          ((1 / (1 - β2 ^ (s.it + 1))) • v.aux2.get m k) - s.sigma • z) := by
  unfold adamMove at h
  cases hc : s.cons with
  | none => rw [hc] at h; exact nomatch h
  | some c =>
    rw [hc] at h
    simp only [bind_ok, pure_ok] at h
    obtain ⟨xp, e1, d, e2, m, e3, w, e4, mf, e5, vf, e6, mp, e7, vp, e8, q, e9, n, e10, u, e11, x, e12, rfl⟩ := h
    obtain ⟨-, rfl⟩ := biasFactor_ok e5
    obtain ⟨-, rfl⟩ := biasFactor_ok e6
    obtain ⟨-, mp1, mp2, mp3⟩ := Mat.gather_ok e7
    obtain ⟨-, vp1, vp2, vp3⟩ := Mat.gather_ok e8
    obtain ⟨q1, q2, q3⟩ := Mat.bin_ok e9
    obtain ⟨u1, u2, u3⟩ := Mat.bin_ok e11
    obtain ⟨-, x1, x2, x3, x4, hb1, hb2⟩ := Mat.scatterAdd_ok e12
    rw [mp1, vp1, Mat.bdim_self] at q1
    rw [mp2, vp2, Mat.bdim_self] at q2
    simp only [Option.some.injEq] at q1 q2
    refine ⟨x1, x2, x3, fun a k hs => ?_⟩
    obtain ⟨i, hi, j, hj, i1, i2, i3⟩ := x4 a k hs
    obtain ⟨z1, -⟩ := Mat.bdim_eq_some u1
    obtain ⟨z2, -⟩ := Mat.bdim_eq_some u2
    have bi : Mat.bpos q.rows (Mat.bpos u.rows i) = i := by
      unfold Mat.bpos
      split_ifs <;> omega
    have bj : Mat.bpos q.cols (Mat.bpos u.cols j) = j := by
      unfold Mat.bpos
      split_ifs <;> omega
    rw [u3, bi, bj, q3, mp1, mp2, vp1, vp2, Mat.bpos_lt hi, Mat.bpos_lt hj, mp3, vp3, i1, i2] at i3
    exact ⟨_, i3⟩

end Verif
