import Verif.Proofs.CovStep
import Verif.Spec.Affine
import Verif.Proofs.Rotation
import Verif.Proofs.NormalLaw
import Mathlib.Analysis.InnerProductSpace.PiL2

/-! Helper lemmas for C112: affine maps and the covariance noise. -/

set_option linter.unusedSectionVars false

namespace Verif

open Matrix MeasureTheory ProbabilityTheory

variable {ι : Type} [Fintype ι] [DecidableEq ι]

theorem quad_norm (v : ι → ℝ) : ‖(WithLp.toLp 2 v : EuclideanSpace ℝ ι)‖ ^ 2 = v ⬝ᵥ v := by
  rw [EuclideanSpace.real_norm_sq_eq]
  simp [dotProduct, sq]

/-- Polar decomposition: a matrix `M` with `M Mᵀ = S S`, `S` symmetric, is `S` times an orthogonal matrix. -/
theorem polar_exists {M S : Matrix ι ι ℝ} (hS : Sᵀ = S) (h : M * Mᵀ = S * S) : ∃ U : Matrix ι ι ℝ, Uᵀ * U = 1 ∧ M = S * U := by
  let E := EuclideanSpace ℝ ι
  let LS : E →ₗ[ℝ] E := Matrix.toEuclideanLin S
  let LM : E →ₗ[ℝ] E := Matrix.toEuclideanLin Mᵀ
  have hn : ∀ v, ‖LM v‖ = ‖LS v‖ := by
    intro v
    have e1 : ‖LM v‖ ^ 2 = v.ofLp ⬝ᵥ ((M * Mᵀ) *ᵥ v.ofLp) := by
      show ‖(WithLp.toLp 2 (Mᵀ *ᵥ v.ofLp) : E)‖ ^ 2 = _
      rw [quad_norm, dotProduct_mulVec, vecMul_transpose, mulVec_mulVec, dotProduct_comm]
    have e2 : ‖LS v‖ ^ 2 = v.ofLp ⬝ᵥ ((S * S) *ᵥ v.ofLp) := by
      show ‖(WithLp.toLp 2 (S *ᵥ v.ofLp) : E)‖ ^ 2 = _
      rw [quad_norm, dotProduct_mulVec]
      nth_rw 1 [← hS]
      rw [vecMul_mulVec, ← dotProduct_mulVec, transpose_transpose]
    exact (sq_eq_sq₀ (norm_nonneg _) (norm_nonneg _)).1 (by rw [e1, e2, h])
  obtain ⟨g, hg⟩ := LS.rangeRestrict.exists_rightInverse_of_surjective LS.range_rangeRestrict
  have hg' : ∀ w, LS (g w) = w := fun w => by
    have := congrArg Subtype.val (LinearMap.congr_fun hg w)
    simpa using this
  let L0 : LinearMap.range LS →ₗᵢ[ℝ] E := ⟨LM ∘ₗ g, fun w => by
    show ‖LM (g w)‖ = ‖w‖
    rw [hn, hg' w]
    rfl⟩
  have hL : ∀ v, L0.extend (LS v) = LM v := by
    intro v
    have e : LS v = ((⟨LS v, LinearMap.mem_range_self LS v⟩ : LinearMap.range LS) : E) := rfl
    rw [e, LinearIsometry.extend_apply]
    show LM (g _) = LM v
    have : ‖LM (g ⟨LS v, LinearMap.mem_range_self LS v⟩ - v)‖ = 0 := by
      rw [hn, map_sub, hg']
      simp
    rw [norm_eq_zero, map_sub, sub_eq_zero] at this
    exact this
  let L := L0.extend
  let B : Matrix ι ι ℝ := Matrix.toEuclideanLin.symm L.toLinearMap
  have hB : ∀ v : ι → ℝ, L (WithLp.toLp 2 v) = WithLp.toLp 2 (B *ᵥ v) := by
    intro v
    have : Matrix.toEuclideanLin B = L.toLinearMap := LinearEquiv.apply_symm_apply _ _
    have := LinearMap.congr_fun this (WithLp.toLp 2 v)
    exact this.symm
  have hBo : Bᵀ * B = 1 := by
    have hin : ∀ u v : ι → ℝ, (B *ᵥ u) ⬝ᵥ (B *ᵥ v) = u ⬝ᵥ v := by
      intro u v
      have := L.inner_map_map (WithLp.toLp 2 u) (WithLp.toLp 2 v)
      rw [hB, hB, EuclideanSpace.inner_toLp_toLp, EuclideanSpace.inner_toLp_toLp] at this
      simpa [dotProduct_comm] using this
    ext i j
    have := hin (Pi.single i 1) (Pi.single j 1)
    rw [dotProduct_mulVec, vecMul_mulVec, ← dotProduct_mulVec] at this
    simpa [Matrix.one_apply, Pi.single_apply, eq_comm] using this
  have hBS : B * S = Mᵀ := by
    refine Matrix.ext_of_mulVec_single fun i => ?_
    have := hL (WithLp.toLp 2 (Pi.single i 1))
    have e : LS (WithLp.toLp 2 (Pi.single i 1)) = WithLp.toLp 2 (S *ᵥ Pi.single i 1) := rfl
    rw [e] at this
    have h2 := hB (S *ᵥ Pi.single i 1)
    have h3 := h2.symm.trans this
    have h4 := congrArg WithLp.ofLp h3
    rw [← mulVec_mulVec]
    exact h4
  refine ⟨Bᵀ, by rw [transpose_transpose]; exact mul_eq_one_comm.1 hBo, ?_⟩
  rw [← transpose_transpose M, ← hBS, transpose_mul, hS]

/-- The affine map `v ↦ A v + b`. -/
def affMap (A : Matrix ι ι ℝ) (b v : ι → ℝ) : ι → ℝ := A *ᵥ v + b

/-- An affine map and the default consensus rule. -/
theorem consDefault_aff (A : Matrix ι ι ℝ) (b : ι → ℝ) (l : List (ℝ × Flt ℝ × (ι → ℝ))) (hl : l ≠ []) (hfin : ∀ q ∈ l, ∃ e, q.2.1 = .fin e) :
    consDefault (l.map fun q => (q.1, q.2.1, affMap A b q.2.2)) = affMap A b (consDefault l) := by
  have h1 : consDefault (l.map fun q => (q.1, q.2.1, A *ᵥ q.2.2)) = A *ᵥ consDefault l := by
    unfold consDefault
    rw [List.map_map]
    have : (fun v => A *ᵥ v : (ι → ℝ) → ι → ℝ) = ⇑(Matrix.mulVecLin A) := by funext v; rfl
    show _ = (fun v => A *ᵥ v) _
    rw [this, map_list_sum, List.map_map]
    congr 1
    refine List.map_congr_left fun q _ => ?_
    simp only [Function.comp_apply, map_smul]
    rw [coeff_map (fun v => A *ᵥ v) l q, ← this]
  have h2 := consDefault_shift b (l.map fun q => (q.1, q.2.1, A *ᵥ q.2.2)) (by simpa using hl) (fun q hq => by
    obtain ⟨q', hq', rfl⟩ := List.mem_map.1 hq
    exact hfin q' hq')
  rw [List.map_map, h1] at h2
  exact h2

/-- The weighted covariance of the image of an ensemble under an affine map. -/
theorem weightedCov_affine (A : Matrix ι ι ℝ) (b : ι → ℝ) (a : ℝ) (N : ℕ) (f : ℕ → ℝ) (x y : ℕ → ι → ℝ) (c : ι → ℝ) (hy : ∀ n < N, y n = affMap A b (x n)) :
    weightedCov a N f y (affMap A b c) = A * weightedCov a N f x c * Aᵀ := by
  have e : ∀ g : ℕ → ι → ℝ, ∀ c, weightedCov a N f g c =
      ∑ n ∈ Finset.range N, (Real.exp (-(a * f n)) / (∑ k ∈ Finset.range N, Real.exp (-(a * f k)))) • outer (g n - c) := by
    intro g c
    ext i j
    simp only [weightedCov, Matrix.of_apply, Matrix.sum_apply, Matrix.smul_apply, outer, smul_eq_mul, Pi.sub_apply]
  rw [e, e, Finset.mul_sum, Finset.sum_mul]
  refine Finset.sum_congr rfl fun n hn => ?_
  have : affMap A b (x n) - affMap A b c = (1 : ℝ) • A *ᵥ (x n - c) := by
    rw [one_smul, mulVec_sub]
    simp only [affMap]
    abel
  rw [hy n (Finset.mem_range.1 hn), this, outer_conj, one_pow, one_smul, Matrix.mul_smul, Matrix.smul_mul]

/-- An orthogonal matrix `U` with `A √C = √(A C Aᵀ) U`. -/
theorem affRot_exists {eigh eigh' : Matrix ι ι ℝ → (ι → ℝ) × Matrix ι ι ℝ} (he : EighOK eigh) (he' : EighOK eigh') (A C : Matrix ι ι ℝ) (hC : PSD C) :
    ∃ U : Matrix ι ι ℝ, Uᵀ * U = 1 ∧ A * matSqrt eigh C = matSqrt eigh' (A * C * Aᵀ) * U := by
  obtain ⟨⟨s1, -⟩, s2⟩ := C52_sqrt eigh he C hC
  have hp : PSD (A * C * Aᵀ) := by simpa using hC.conj 1 zero_le_one A
  obtain ⟨⟨t1, -⟩, t2⟩ := C52_sqrt eigh' he' _ hp
  refine polar_exists t1 ?_
  rw [t2, transpose_mul, s1]
  calc A * matSqrt eigh C * (matSqrt eigh C * Aᵀ) = A * (matSqrt eigh C * matSqrt eigh C) * Aᵀ := by simp only [Matrix.mul_assoc]
    _ = _ := by rw [s2]

/-- The consensus point of run `m` of a state without batches and stopped runs. -/
noncomputable def fullCons (f : (ι → ℝ) → ℝ) (s : St ℝ (ι → ℝ)) (m : ℕ) : ι → ℝ :=
  consDefault ((List.range s.N).map fun n => (s.alpha m, Flt.fin (f (s.x.get m n)), s.x.get m n))

/-- The covariance of run `m` around its consensus point. -/
noncomputable def fullCov (f : (ι → ℝ) → ℝ) (s : St ℝ (ι → ℝ)) (m : ℕ) : Matrix ι ι ℝ :=
  weightedCov (s.alpha m) s.N (fun n => f (s.x.get m n)) (s.x.get m) (fullCons f s m)

theorem cov_full {env : Env ℝ (ι → ℝ)} {f : (ι → ℝ) → ℝ} {p : (ι → ℝ) → ι → ℝ}
    {eigh : Matrix ι ι ℝ → (ι → ℝ) × Matrix ι ι ℝ} {b : Bool} {smp : ℕ → ℕ → ℕ → ι → ℝ}
    (hcorr : env.corr = .none) (hcons : env.cons = .mean consDefault) (hf : ∀ v, env.f v = .fin (f v))
    (hnoise : env.noise = covNoise eigh b smp) (hpm : PostMap env p) (hp : PermOK env) {s s' : St ℝ (ι → ℝ)} (hw : WF s)
    (hact : s.active = List.range s.M) (hbat : s.batched = false) (hs : step env (cboInner env) s = .ok s') :
    (∃ c : Mat (ι → ℝ), s'.cons = some c ∧ ∀ m < s.M, c.get m 0 = fullCons f s m) ∧
      ∀ m < s.M, ∀ n < s.N, s'.x.get m n =
        p (s.x.get m n - (s.lamda * s.dt) • (s.x.get m n - fullCons f s m) + s.sigma •
          ((Real.sqrt (2 * s.dt * (if b then 1 + s.alpha m else 1)) • matSqrt eigh (fullCov f s m)) *ᵥ smp s.draws m n)) := by
  obtain ⟨c, c1, c2, c3⟩ := cov_explicit hcorr hcons hf hnoise hpm hp hw hact hbat hs
  obtain ⟨pc, pr, pcol, prun, ppar⟩ := (preStep_pIdx env s hw).2.2 hbat
  have e : ∀ m < s.M, c.get m 0 = fullCons f s m := by
    intro m hm
    have hl : m < s.active.length := by rw [hact, List.length_range]; exact hm
    rw [c2 m hm, fullCons]
    congr 1
    simp only [sampleOf, ← pc, pcol, ppar, prun m hl, hf]
    rw [hact, range_getD hm]
  refine ⟨⟨c, c1, e⟩, fun m hm n hn => ?_⟩
  rw [c3 m hm n hn, e m hm]
  rfl

/-- One step of both dynamics. -/
theorem affine_step {env env' : Env ℝ (ι → ℝ)} {f f' : (ι → ℝ) → ℝ} {p p' : (ι → ℝ) → ι → ℝ} {A : Matrix ι ι ℝ} {b : ι → ℝ}
    {eigh eigh' : Matrix ι ι ℝ → (ι → ℝ) × Matrix ι ι ℝ} {sampling : Bool} {smp smp' : ℕ → ℕ → ℕ → ι → ℝ}
    (hcorr : env.corr = .none) (hcons : env.cons = .mean consDefault) (hf : ∀ v, env.f v = .fin (f v))
    (hnoise : env.noise = covNoise eigh sampling smp) (hpm : PostMap env p) (hp : PermOK env)
    (hcorr' : env'.corr = .none) (hcons' : env'.cons = .mean consDefault) (hf' : ∀ v, env'.f v = .fin (f' v))
    (hnoise' : env'.noise = covNoise eigh' sampling smp') (hpm' : PostMap env' p') (hp' : PermOK env')
    (hff : ∀ v, f' (affMap A b v) = f v) (hpp : ∀ v, p' (affMap A b v) = affMap A b (p v))
    {s s' t t' : St ℝ (ι → ℝ)} (hw : WF s) (hw' : WF t) (hact : s.active = List.range s.M) (hbat : s.batched = false)
    (hM : t.M = s.M) (hN : t.N = s.N) (hta : t.active = s.active) (htb : t.batched = s.batched)
    (ha : ∀ m < s.M, t.alpha m = s.alpha m) (hl : t.lamda = s.lamda) (hd : t.dt = s.dt) (hsg : t.sigma = s.sigma)
    (hx : ∀ m < s.M, ∀ n < s.N, t.x.get m n = affMap A b (s.x.get m n))
    (hs : step env (cboInner env) s = .ok s') (ht : step env' (cboInner env') t = .ok t')
    (U : ℕ → Matrix ι ι ℝ) (hU : ∀ m < s.M, A * matSqrt eigh (fullCov f s m) = matSqrt eigh' (A * fullCov f s m * Aᵀ) * U m)
    (hz : ∀ m < s.M, ∀ n < s.N, smp' t.draws m n = U m *ᵥ smp s.draws m n) :
    (∀ m < s.M, fullCons f' t m = affMap A b (fullCons f s m)) ∧
    ∀ m < s.M, ∀ n < s.N, t'.x.get m n = affMap A b (s'.x.get m n) := by
  have hN0 : 0 < s.N := hw.pos
  have hc : ∀ m < s.M, fullCons f' t m = affMap A b (fullCons f s m) := by
    intro m hm
    unfold fullCons
    rw [← consDefault_aff A b _ (by simp; omega) (by
      intro q hq
      obtain ⟨n, -, rfl⟩ := List.mem_map.1 hq
      exact ⟨_, rfl⟩), List.map_map, hN]
    congr 1
    refine List.map_congr_left fun n hn => ?_
    have hn := List.mem_range.1 hn
    simp only [Function.comp_apply, ha m hm, hx m hm n hn, hff]
  have hC : ∀ m < s.M, fullCov f' t m = A * fullCov f s m * Aᵀ := by
    intro m hm
    unfold fullCov
    rw [hc m hm, ha m hm, hN]
    have e : weightedCov (s.alpha m) s.N (fun n => f' (t.x.get m n)) (t.x.get m) (affMap A b (fullCons f s m)) =
        weightedCov (s.alpha m) s.N (fun n => f (s.x.get m n)) (t.x.get m) (affMap A b (fullCons f s m)) := by
      ext i j
      simp only [weightedCov, Matrix.of_apply]
      have h1 : ∀ n ∈ Finset.range s.N, Real.exp (-(s.alpha m * f' (t.x.get m n))) = Real.exp (-(s.alpha m * f (s.x.get m n))) := by
        intro n hn
        rw [hx m hm n (Finset.mem_range.1 hn), hff]
      rw [Finset.sum_congr rfl h1]
      exact Finset.sum_congr rfl fun n hn => by rw [h1 n hn]
    rw [e, weightedCov_affine A b _ _ _ (s.x.get m) _ _ fun n hn => hx m hm n hn]
  refine ⟨hc, fun m hm n hn => ?_⟩
  obtain ⟨-, k1⟩ := cov_full hcorr hcons hf hnoise hpm hp hw hact hbat hs
  obtain ⟨-, k2⟩ := cov_full hcorr' hcons' hf' hnoise' hpm' hp' hw' (by rw [hta, hM, hact]) (by rw [htb, hbat]) ht
  rw [k1 m hm n hn, k2 m (by rw [hM]; exact hm) n (by rw [hN]; exact hn), ← hpp]
  congr 1
  rw [hx m hm n hn, hc m hm, hC m hm, hz m hm n hn, hl, hd, hsg, ha m hm, smul_mulVec, smul_mulVec, mulVec_mulVec, ← hU m hm, ← mulVec_mulVec]
  simp only [affMap, mulVec_add, mulVec_sub, mulVec_smul]
  rw [add_sub_add_right_eq_sub]
  abel

theorem affine_match {env env' : Env ℝ (ι → ℝ)} {f f' : (ι → ℝ) → ℝ} {p p' : (ι → ℝ) → ι → ℝ} {A : Matrix ι ι ℝ} {b : ι → ℝ}
    {eigh eigh' : Matrix ι ι ℝ → (ι → ℝ) × Matrix ι ι ℝ} {sampling : Bool} {smp smp' : ℕ → ℕ → ℕ → ι → ℝ}
    (hE : CovCBO env f p eigh sampling smp) (hE' : CovCBO env' f' p' eigh' sampling smp')
    (hff : ∀ v, f' (A *ᵥ v + b) = f v) (hpp : ∀ v, p' (A *ᵥ v + b) = A *ᵥ p v + b)
    {s s' t t' : St ℝ (ι → ℝ)} (hw : WF s) (hw' : WF t) (hact : s.active = List.range s.M) (hbat : s.batched = false) (hm : AffMatch A b s t)
    (hs : step env (cboInner env) s = .ok s') (ht : step env' (cboInner env') t = .ok t')
    (U : ℕ → Matrix ι ι ℝ) (hU : ∀ m < s.M, A * matSqrt eigh (fullCov f s m) = matSqrt eigh' (A * fullCov f s m * Aᵀ) * U m)
    (hz : ∀ m < s.M, ∀ n < s.N, smp' t.draws m n = U m *ᵥ smp s.draws m n) :
    (∀ m < s.M, fullCons f' t m = affMap A b (fullCons f s m)) ∧
    ∀ m < s.M, ∀ n < s.N, t'.x.get m n = affMap A b (s'.x.get m n) :=
  affine_step hE.corr hE.cons hE.obj hE.noise hE.post hE.perm hE'.corr hE'.cons hE'.obj hE'.noise hE'.post hE'.perm hff hpp hw hw' hact hbat hm.M hm.N hm.active hm.batched
    (fun m _ => by rw [hm.alpha]) hm.lamda hm.dt hm.sigma hm.x hs ht U hU hz

/-- Rotations of the random vectors, each by its own matrix, as a measurable equivalence. -/
noncomputable def rotsEquiv {Q : ℕ × ℕ × ℕ → Matrix ι ι ℝ} (hQ : ∀ q, (Q q)ᵀ * Q q = 1) : (ℕ × ℕ × ℕ → ι → ℝ) ≃ᵐ (ℕ × ℕ × ℕ → ι → ℝ) where
  toFun z q := Q q *ᵥ z q
  invFun z q := (Q q)ᵀ *ᵥ z q
  left_inv z := by funext q; simp [mulVec_mulVec, hQ]
  right_inv z := by funext q; simp [mulVec_mulVec, mul_eq_one_comm.1 (hQ q)]
  measurable_toFun := by
    refine measurable_pi_lambda _ fun q => ?_
    exact (Continuous.matrix_mulVec continuous_const continuous_id).measurable.comp (measurable_pi_apply q)
  measurable_invFun := by
    refine measurable_pi_lambda _ fun q => ?_
    exact (Continuous.matrix_mulVec continuous_const continuous_id).measurable.comp (measurable_pi_apply q)

/-- Rotated random vectors have the law of the random vectors; this holds for every event, measurable or not. -/
theorem normalLaw_rots {Q : ℕ × ℕ × ℕ → Matrix ι ι ℝ} (hQ : ∀ q, (Q q)ᵀ * Q q = 1) (S : Set (ℕ × ℕ × ℕ → ι → ℝ)) :
    normalLaw ι {z | (fun q => Q q *ᵥ z q) ∈ S} = normalLaw ι S := by
  have h : MeasurePreserving (rotsEquiv hQ) (normalLaw ι) (normalLaw ι) := by
    refine ⟨(rotsEquiv hQ).measurable, ?_⟩
    have := Measure.infinitePi_map_pi (μ := fun _ : ℕ × ℕ × ℕ => Measure.pi fun _ : ι => gaussianReal 0 1) (f := fun q v => Q q *ᵥ v)
      (fun q => (Continuous.matrix_mulVec continuous_const continuous_id).measurable)
    simp only [normal_rot (hQ _)] at this
    exact this
  exact h.measure_preimage_equiv S

end Verif
