import Mathlib.Tactic.Ring
import Mathlib.Tactic.Linarith
import Mathlib.Tactic.FieldSimp
import Verif.Model.HyperSurface
import Verif.Proofs.FullMoves
import Verif.Proofs.Mirror
import Verif.Proofs.Hull
import Verif.Props.Consensus
import Verif.Spec.HyperSurface

/-! Helper lemmas for C34. -/

set_option linter.unusedSectionVars false

namespace Verif

open Matrix Surf

section machine

variable {K V : Type} [Zero K] [One K] [Neg K] [Add K] [Sub K] [Mul K] [Inv K] [Div K] [NatCast K] [Pow K ℕ] [LinearOrder K] [Add V] [Sub V] [SMul K V]

/-- Row of the consensus that a full-size operation reads for run `i`. -/
theorem bdim_cases {M k r : ℕ} (h : Mat.bdim M k = some r) : (k = M ∧ r = M) ∨ (k = 1 ∧ r = M) ∨ (M = 1 ∧ r = k) := by
  unfold Mat.bdim at h
  split_ifs at h <;> simp_all

theorem bdim_one {a b : ℕ} (h : Mat.bdim a b = some 1) : b = 1 := by
  unfold Mat.bdim at h
  split_ifs at h <;> simp_all

/-- Every entry a successful `hyperMove` writes, for any number of consensus points. -/
theorem hyperMove_entry {env : Env K V} (hn : NoiseOK env) {S : SurfOps K V} {s s' : St K V} {c : Mat V} (hc : s.cons = some c)
    (c2 : c.cols = 1) (h : hyperMove env S s = .ok s') :
    (c.rows = s.x.rows ∨ c.rows = 1) ∧ ∀ i < s.x.rows, ∀ j < s.x.cols, ∃ e,
      s'.x.get i j = S.proj (s.x.get i j + S.tangent (s.x.get i j) e -
        S.noiseConstr s.dt s.sigma (s.x.get i j) (s.x.get i j - c.get (Mat.bpos c.rows i) 0)) := by
  unfold hyperMove at h
  simp only [hc, bind_ok, pure_ok] at h
  obtain ⟨d, hd, n, hnn, e, he, a, ha, k, hk, xt, hxt, x, hx, rfl⟩ := h
  obtain ⟨x1, x2, -, -, x3⟩ := Mat.rebind_ok hx
  have x1 : xt.rows = s.x.rows := x1
  have x2 : xt.cols = s.x.cols := x2
  obtain ⟨n', hn', n1, n2⟩ := hn { s with drift := some d } d rfl
  simp only [hc] at hn'
  rw [hnn] at hn'
  injection hn' with hn'
  subst hn'
  obtain ⟨d1, d2, d3⟩ := Mat.bin_ok hd
  obtain ⟨e1, e2, e3⟩ := Mat.bin_ok he
  obtain ⟨a1, a2, a3⟩ := Mat.bin_ok ha
  obtain ⟨k1, k2, k3⟩ := Mat.bin_ok hk
  obtain ⟨t1, t2, t3⟩ := Mat.bin_ok hxt
  rw [c2, Mat.bdim_one_right] at d2
  injection d2 with d2
  have dr : d.rows = s.x.rows := by
    rcases bdim_cases d1 with ⟨-, q⟩ | ⟨-, q⟩ | ⟨q, q'⟩
    · exact q
    · exact q
    · rw [q, Mat.bdim_one_left] at k1
      injection k1 with k1
      rw [x1, q] at t1
      rw [q, k1]
      exact bdim_one t1
  have cr : c.rows = s.x.rows ∨ c.rows = 1 := by
    rcases bdim_cases d1 with ⟨q, -⟩ | ⟨q, -⟩ | ⟨q, q'⟩
    · exact Or.inl q
    · exact Or.inr q
    · exact Or.inl (by omega)
  have er : e.rows = s.x.rows := by
    rw [n1, dr] at e1
    rcases cr with q | q
    · rw [q, Mat.bdim_self] at e1; injection e1 with e1; exact e1.symm
    · rw [q, Mat.bdim_one_left] at e1; injection e1 with e1; exact e1.symm
  have ec : e.cols = s.x.cols := by
    rw [n2, ← d2, c2, Mat.bdim_one_left] at e2; injection e2 with e2; exact e2.symm
  have b1 : a.rows = s.x.rows := by rw [er, Mat.bdim_self] at a1; injection a1 with a1; exact a1.symm
  have b3 : a.cols = s.x.cols := by rw [ec, Mat.bdim_self] at a2; injection a2 with a2; exact a2.symm
  have b2 : k.rows = s.x.rows := by rw [dr, Mat.bdim_self] at k1; injection k1 with k1; exact k1.symm
  have b4 : k.cols = s.x.cols := by rw [← d2, Mat.bdim_self] at k2; injection k2 with k2; exact k2.symm
  refine ⟨cr, fun i hi j hj => ⟨e.get (Mat.bpos e.rows i) (Mat.bpos e.cols j), ?_⟩⟩
  show x.get i j = _
  rw [x3 i hi j hj]
  show S.proj (xt.get i j) = _
  rw [t3, a3, k3, d3]
  have hb : Mat.bpos c.cols j = 0 := by rw [c2]; rfl
  simp only [b1, b2, b3, b4, dr, ← d2, er, ec, Mat.bpos_lt hi, Mat.bpos_lt hj, hb]

/-- Every particle after a step of `HyperSurfaceCBO`, whether or not runs have stopped. -/
theorem hyperStep_entry {env : Env K V} (hn : NoiseOK env) {r : List (K × Flt K × V) → V} (hr : env.cons = .mean r) (hp : PermOK env)
    {p : V → V} (hpm : PostMap env p) {S : SurfOps K V} {s s' : St K V} (hw : WF s)
    (h : step env (consThen env (hyperMove env S)) s = .ok s') :
    ∀ i < s.M, ∀ j < s.N, ∃ e, ∃ q < s.active.length,
      s'.x.get i j = p (S.proj (s.x.get i j + S.tangent (s.x.get i j) e -
        S.noiseConstr s.dt s.sigma (s.x.get i j) (s.x.get i j - r (sampleOf env { s with cIdx := s'.cIdx } q)))) := by
  intro i hi j hj
  have f := step_frame (consThen_frame (hyperMove_full env S).ok) h
  obtain ⟨v, hv, hs⟩ := step_split.1 h
  obtain ⟨c, hcc, hmv⟩ := consThen_split.1 hv
  have p1 := preStep_frame env s
  have pact : (preStep env s).active = s.active := by rw [p1]
  have hix := preStep_idx env hp hw
  obtain ⟨cm, hcm, cm1, cm2, cm3⟩ := computeConsensus_mean hr (by rw [pact]; exact hix.cRows) hcc
  have cf := computeConsensus_frame hcc
  have cx : c.x = s.x := by rw [cf]; show (preStep env s).x = s.x; rw [p1]
  obtain ⟨q1, q2⟩ := hyperMove_entry hn hcm cm2 hmv
  have hl : 0 < cm.rows := by
    rcases q1 with q | q
    · rw [q, cx, hw.xr]; omega
    · omega
  rw [cm1] at hl
  obtain ⟨e, he⟩ := q2 i (by rw [cx, hw.xr]; exact hi) j (by rw [cx, hw.xc]; exact hj)
  have hb : Mat.bpos cm.rows i < s.active.length := by
    unfold Mat.bpos
    rw [pact] at cm1 hl
    split_ifs with h1
    · omega
    · rcases q1 with q | q
      · rw [← cm1, q, cx, hw.xr]; exact hi
      · exact absurd q h1
  refine ⟨e, _, hb, ?_⟩
  have hpost : s'.x.get i j = p (v.x.get i j) := by
    have := (postStep_facts hs).post
    rw [hpm] at this
    injection this with this
    rw [← this]; rfl
  have cdt : c.dt = s.dt := by rw [cf]; show (preStep env s).dt = s.dt; rw [p1]
  have csg : c.sigma = s.sigma := by rw [cf]; show (preStep env s).sigma = s.sigma; rw [p1]
  rw [hpost, he, cx, cdt, csg, cm3 _ (by rw [pact]; exact hb)]
  have hsamp : ∀ i, sampleOf env (preStep env s) i = sampleOf env { s with cIdx := s'.cIdx } i := by
    intro i
    have e1 : s'.cIdx = (preStep env s).cIdx := f.cIdx
    unfold sampleOf
    rw [e1, p1]
  rw [hsamp]

end machine

section particle

variable {ι : Type} [Fintype ι]

theorem tangentOf_eq (g z : ι → ℝ) : tangentOf g z = z - (g ⬝ᵥ z) • g := by
  funext i; simp [tangentOf, dotProduct, mul_comm]

theorem sphereGrad_eq (v : ι → ℝ) : sphereGrad v = (euclid v)⁻¹ • v := by
  funext i; simp [sphereGrad, div_eq_inv_mul]

theorem sphereProj_eq (v : ι → ℝ) : sphereProj v = (euclid v)⁻¹ • v := by
  funext i; simp [sphereProj, div_eq_inv_mul]

theorem planeGrad_eq (v : ι → ℝ) : planeGrad v = (euclid v)⁻¹ • v := by
  funext i; simp [planeGrad, div_eq_inv_mul]

theorem unit_dot {v : ι → ℝ} (hv : v ≠ 0) : ((euclid v)⁻¹ • v) ⬝ᵥ ((euclid v)⁻¹ • v) = 1 := by
  have h := (euclid_pos hv).ne'
  rw [smul_dotProduct, dotProduct_smul, ← euclid_sq, smul_eq_mul, smul_eq_mul]
  field_simp

theorem tangentOf_orth {g : ι → ℝ} (hg : g ⬝ᵥ g = 1) (z : ι → ℝ) : g ⬝ᵥ tangentOf g z = 0 := by
  rw [tangentOf_eq, dotProduct_sub, dotProduct_smul, hg]; simp

theorem tangentOf_fix {g z : ι → ℝ} (hz : g ⬝ᵥ z = 0) : tangentOf g z = z := by
  rw [tangentOf_eq, hz]; simp

theorem euclid_one {x : ι → ℝ} (h : InSphere 1 x) : euclid x = 1 := by
  have := euclid_sq x
  rw [h, one_pow] at this
  nlinarith [euclid_nonneg x]

theorem ne_zero_of_sphere {x : ι → ℝ} (h : InSphere 1 x) : x ≠ 0 := by
  rintro rfl
  have : (0 : ι → ℝ) ⬝ᵥ 0 = 1 ^ 2 := h
  simp at this

theorem sphereProj_mem {y : ι → ℝ} (hy : y ≠ 0) : InSphere 1 (sphereProj y) := by
  rw [InSphere, sphereProj_eq, unit_dot hy]; norm_num

theorem unit_ball_convex : Convex ℝ {v : ι → ℝ | v ⬝ᵥ v ≤ 1} := by
  intro x hx y hy a b ha hb hab
  simp only [Set.mem_setOf_eq] at *
  have h := dot_self_nonneg (x - y)
  rw [sub_dotProduct, dotProduct_sub, dotProduct_sub, dotProduct_comm y x] at h
  rw [add_dotProduct, dotProduct_add, dotProduct_add]
  simp only [smul_dotProduct, dotProduct_smul, smul_eq_mul]
  rw [dotProduct_comm y x]
  have hb' : b = 1 - a := by linarith
  subst hb'
  nlinarith [mul_nonneg ha hb]

theorem dist_ball {x c : ι → ℝ} (hx : x ⬝ᵥ x ≤ 1) (hc : c ⬝ᵥ c ≤ 1) : euclid (x - c) ^ 2 ≤ 4 := by
  rw [euclid_sq]
  have h := dot_self_nonneg (x + c)
  rw [add_dotProduct, dotProduct_add, dotProduct_add, dotProduct_comm c x] at h
  rw [sub_dotProduct, dotProduct_sub, dotProduct_sub, dotProduct_comm c x]
  linarith

theorem coord_le {x : ι → ℝ} (hx : x ⬝ᵥ x ≤ 1) (i : ι) : x i ^ 2 ≤ 1 := by
  refine le_trans ?_ hx
  rw [dotProduct, sq]
  exact Finset.single_le_sum (f := fun j => x j * x j) (fun j _ => mul_self_nonneg _) (Finset.mem_univ i)

theorem clip_fix {T : ℝ} {y : ι → ℝ} (h : ∀ i, |y i| ≤ T) : clipVec T y = y := by
  funext i
  have := abs_le.1 (h i)
  simp only [clipVec]
  rw [max_eq_left this.1, min_eq_left this.2]

theorem clip_fix_sphere {T : ℝ} (hT : 1 ≤ T) {y : ι → ℝ} (h : y ⬝ᵥ y ≤ 1) : clipVec T y = y :=
  clip_fix fun i => by
    have := coord_le h i
    rw [sq_le_one_iff_abs_le_one] at this
    linarith

theorem clip_or {T : ℝ} (hT : 0 ≤ T) (y : ι → ℝ) : clipVec T y = y ∨ ∃ i, |clipVec T y i| = T := by
  by_cases h : ∀ i, |y i| ≤ T
  · exact Or.inl (clip_fix h)
  · push_neg at h
    obtain ⟨i, hi⟩ := h
    refine Or.inr ⟨i, ?_⟩
    simp only [clipVec]
    rcases lt_abs.1 hi with h1 | h1
    · rw [max_eq_left (by linarith), min_eq_right h1.le, abs_of_nonneg hT]
    · rw [max_eq_right (by linarith), min_eq_left (by linarith), abs_neg, abs_of_nonneg hT]

/-- Scalar product of the new point before the projection with the old one. -/
theorem dot_iso {x : ι → ℝ} (hx : InSphere 1 x) (e c : ι → ℝ) (dt sigma : ℝ) :
    x ⬝ᵥ (x + tangentOf (sphereGrad x) e - constrIso (sphereLap x) (sphereGrad x) dt sigma (x - c)) =
      1 - dt * sigma ^ 2 / 2 * ((Fintype.card ι : ℝ) - 1) * euclid (x - c) ^ 2 := by
  have h1 := euclid_one hx
  have hg : sphereGrad x = x := by rw [sphereGrad_eq, h1]; simp
  have hxx : x ⬝ᵥ x = 1 := by rw [hx]; norm_num
  have hc : constrIso (sphereLap x) x dt sigma (x - c) = (dt * sigma ^ 2 / 2 * ((Fintype.card ι : ℝ) - 1) * euclid (x - c) ^ 2) • x := by
    funext i; simp [constrIso, sphereLap, h1]
  rw [hg, hc, dotProduct_sub, dotProduct_add, tangentOf_orth hxx, dotProduct_smul, hxx]
  simp

theorem dot_aniso {x : ι → ℝ} (hx : InSphere 1 x) (e c : ι → ℝ) (dt sigma : ℝ) :
    x ⬝ᵥ (x + tangentOf (sphereGrad x) e - constrAniso dt sigma x (x - c)) =
      1 - dt * sigma ^ 2 / 2 * (euclid (x - c) ^ 2 + (∑ i, (x i - c i) ^ 2 * x i ^ 2) - 2 * ((x - c) ⬝ᵥ x) ^ 2) := by
  have h1 := euclid_one hx
  have hg : sphereGrad x = x := by rw [sphereGrad_eq, h1]; simp
  have hxx : x ⬝ᵥ x = 1 := by rw [hx]; norm_num
  have hs : ∑ i, x i * x i = 1 := hxx
  rw [hg, dotProduct_sub, dotProduct_add, tangentOf_orth hxx, hxx]
  have : x ⬝ᵥ constrAniso dt sigma x (x - c) =
      dt * sigma ^ 2 / 2 * (euclid (x - c) ^ 2 * (∑ i, x i * x i) + (∑ i, (x i - c i) ^ 2 * x i ^ 2) -
        2 * ((x - c) ⬝ᵥ x) ^ 2 * ∑ i, x i * x i) := by
    simp only [dotProduct, constrAniso, Finset.mul_sum, ← Finset.sum_add_distrib, ← Finset.sum_sub_distrib, Pi.sub_apply]
    apply Finset.sum_congr rfl
    intro i _
    ring
  rw [this, hs]
  ring

theorem sphere_next {T : ℝ} (hT : 1 ≤ T) {aniso : Bool} {sigma dt : ℝ} (hd : SmallStep (Fintype.card ι) aniso sigma dt) {x c : ι → ℝ} (e : ι → ℝ)
    (hx : InSphere 1 x) (hc : c ⬝ᵥ c ≤ 1) :
    InSphere 1 (clipVec T ((sphere aniso).proj (x + (sphere aniso).tangent x e - (sphere aniso).noiseConstr dt sigma x (x - c)))) := by
  have hxx : x ⬝ᵥ x = 1 := by rw [hx]; norm_num
  have h4 := dist_ball hxx.le hc
  have hs : 0 ≤ dt * sigma ^ 2 := mul_nonneg hd.1 (sq_nonneg _)
  have hD := sq_nonneg (euclid (x - c))
  have key : x ⬝ᵥ (x + (sphere aniso).tangent x e - (sphere aniso).noiseConstr dt sigma x (x - c)) > 0 := by
    cases aniso with
    | false =>
      have h2 : dt * sigma ^ 2 * ((Fintype.card ι : ℝ) - 1) < 1 / 2 := by simpa [SmallStep] using hd.2
      have := dot_iso hx e c dt sigma
      simp only [sphere, Bool.false_eq_true, if_false]
      rw [this]
      rcases hD.eq_or_lt with h0 | h0
      · rw [← h0]; norm_num
      · nlinarith [mul_lt_mul_of_pos_right h2 h0]
    | true =>
      have h2 : 4 * (dt * sigma ^ 2) < 1 := by simpa [SmallStep] using hd.2
      have := dot_aniso hx e c dt sigma
      simp only [sphere, if_true]
      rw [this]
      have h3 : ∑ i, (x i - c i) ^ 2 * x i ^ 2 ≤ euclid (x - c) ^ 2 := by
        rw [euclid_sq, dotProduct]
        apply Finset.sum_le_sum
        intro i _
        have := coord_le hxx.le i
        simp only [Pi.sub_apply]
        nlinarith [sq_nonneg (x i - c i)]
      nlinarith [sq_nonneg ((x - c) ⬝ᵥ x)]
  have hne : x + (sphere aniso).tangent x e - (sphere aniso).noiseConstr dt sigma x (x - c) ≠ 0 := by
    intro h
    rw [h] at key
    simp at key
  have hm := sphereProj_mem hne
  have : (sphere aniso).proj = sphereProj (ι := ι) := rfl
  rw [this, clip_fix_sphere hT (by rw [hm]; norm_num)]
  exact hm

end particle
end Verif
