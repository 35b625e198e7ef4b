import Verif.Proofs.Subspace
import Verif.Props.Affine
import Verif.Props.Moments
import Verif.Proofs.Heap

/-! # C113: which noise can leave the affine span of an ensemble -/

set_option linter.unusedSectionVars false

namespace Verif

open Matrix MeasureTheory ProbabilityTheory

section
variable {ι : Type} [Fintype ι] [DecidableEq ι]

/-- **C113 (covariance noise).** CBO with the default consensus rule, no correction, a finite objective and covariance noise in either mode: if at some time all particles of run `m` lie in an affine subspace `A` (for instance
in their affine span) that the post processing maps to itself, then they lie in `A` after every further sequence of operations, whatever the random numbers. -/
theorem C113_covariance (env : Env ℝ (ι → ℝ)) (f : (ι → ℝ) → ℝ) (p : (ι → ℝ) → ι → ℝ) (eigh : Matrix ι ι ℝ → (ι → ℝ) × Matrix ι ι ℝ) (he : EighOK eigh) (sampling : Bool)
    (smp : ℕ → ℕ → ℕ → ι → ℝ) (hcorr : env.corr = .none) (hcons : env.cons = .mean consDefault) (hf : ∀ v, env.f v = .fin (f v)) (hnoise : env.noise = covNoise eigh sampling smp) (hpm : PostMap env p)
    (hp : PermOK env) (a : Args ℝ (ι → ℝ)) (hb : a.batchSize ≠ some 0) (s₀ s s' : St ℝ (ι → ℝ)) (ops ops' : List Op) (h0 : init env a = .ok s₀) (h1 : execAll env (cboInner env) ops s₀ = .ok s) (m : ℕ)
    (A : AffineSubspace ℝ (ι → ℝ)) (hv : ∀ v ∈ A, p v ∈ A) (hx : ∀ n < s.N, s.x.get m n ∈ A) (h2 : execAll env (cboInner env) ops' s = .ok s') : ∀ n < s.N, s'.x.get m n ∈ A :=
  subspace_run hcorr hcons hf (covNoise_shape hnoise) (covNoise_in he hnoise _) hpm hp hb h0 h1 hv hx h2

/-- **C113 (few particles).** With at most as many particles as dimensions there are a point `y` and a distance `δ > 0`, determined by the initial ensemble alone, such that with covariance noise and without post processing no
particle of the run ever comes closer to `y` than `δ`: for every objective (also one whose only minimiser is `y`), all parameters, all random numbers, all sequences of operations. -/
theorem C113_few (a : Args ℝ (ι → ℝ)) (hb : a.batchSize ≠ some 0) (hN : a.x0.cols ≤ Fintype.card ι) (h1 : 0 < a.x0.cols) (m : ℕ) :
    ∃ (y : ι → ℝ) (δ : ℝ), 0 < δ ∧ ∀ (env : Env ℝ (ι → ℝ)) (f : (ι → ℝ) → ℝ) (eigh : Matrix ι ι ℝ → (ι → ℝ) × Matrix ι ι ℝ) (sampling : Bool) (smp : ℕ → ℕ → ℕ → ι → ℝ) (a' : Args ℝ (ι → ℝ)),
      EighOK eigh → env.corr = .none → env.cons = .mean consDefault → (∀ v, env.f v = .fin (f v)) → env.noise = covNoise eigh sampling smp → PostMap env id → PermOK env →
      a'.x0 = a.x0 → a'.batchSize = a.batchSize → ∀ s₀ s ops, init env a' = .ok s₀ → execAll env (cboInner env) ops s₀ = .ok s → ∀ n < s.N, δ ≤ euclid (s.x.get m n - y) := by
  let P : Fin a.x0.cols → ι → ℝ := fun n => a.x0.get m n
  let A : AffineSubspace ℝ (ι → ℝ) := affineSpan ℝ (Set.range P)
  let n₀ : Fin a.x0.cols := ⟨0, h1⟩
  have hd : A.direction < ⊤ := by
    rw [lt_top_iff_ne_top]
    intro ht
    have e : A.direction = vectorSpan ℝ (Set.range P) := direction_affineSpan _ _
    have h2 := finrank_vectorSpan_range_le ℝ P (n := a.x0.cols - 1) (by rw [Fintype.card_fin]; omega)
    rw [← e, ht, finrank_top, Module.finrank_fintype_fun_eq_card] at h2
    omega
  obtain ⟨g, g1, g2⟩ := Submodule.exists_dual_map_eq_bot_of_lt_top hd inferInstance
  let w : ι → ℝ := fun i => g (Pi.single i 1)
  have hgw : ∀ v, g v = w ⬝ᵥ v := dual_dot g
  have hw : w ≠ 0 := by
    intro h
    exact g1 (LinearMap.ext fun v => by rw [hgw, h]; simp)
  have hwA : ∀ u ∈ A.direction, w ⬝ᵥ u = 0 := by
    intro u hu
    rw [← hgw]
    have : g u ∈ A.direction.map g := Submodule.mem_map_of_mem hu
    rw [g2] at this
    simpa using this
  have hsq : ∀ v : ι → ℝ, euclid v ^ 2 = v ⬝ᵥ v := fun v => by
    unfold euclid
    rw [Real.sq_sqrt (Finset.sum_nonneg fun _ _ => sq_nonneg _)]
    simp [dotProduct, sq]
  have hpos : 0 < euclid w := by
    rcases (Real.sqrt_nonneg (∑ i, w i ^ 2)).lt_or_eq with h | h
    · exact h
    · exfalso
      have h2 := hsq w
      unfold euclid at h2
      rw [← h] at h2
      exact hw (dotProduct_self_eq_zero.1 (by rw [← h2]; norm_num))
  refine ⟨P n₀ + w, euclid w, hpos, ?_⟩
  intro env f eigh sampling smp a' he hcorr hcons hf hnoise hpm hp hx0 hbs s₀ s ops i0 hs n hn
  have hi := init_x_tracks i0
  have hw0 := init_wf hp i0
  have hN0 : s₀.N = a.x0.cols := by rw [← hx0, ← hi.1]; exact hw0.xc.symm
  have key := C113_covariance env f id eigh he sampling smp hcorr hcons hf hnoise hpm hp a' (by rw [hbs]; exact hb) s₀ s₀ s [] ops i0 rfl m A (fun v hv => hv)
    (fun k hk => by
      rw [hi.1, hx0]
      exact subset_affineSpan ℝ _ ⟨⟨k, by rw [← hN0]; exact hk⟩, rfl⟩) hs
  have hNs : s.N = s₀.N := by
    rw [cboInner_eq] at hs
    exact (execAll_induct (cboMove_ok env) hpm.ok hp (P := fun q => q.N = s₀.N) (fun o q q' _ hq h => by rw [(exec_bs (consThen_frame (cboMove_ok env)) h).2.2]; exact hq) ops s₀ s hw0 rfl hs).2
  have hA := key n (by rw [← hNs]; exact hn)
  set v := s.x.get m n with hvdef
  have h2 : w ⬝ᵥ (v - P n₀) = 0 := hwA _ (AffineSubspace.vsub_mem_direction hA (subset_affineSpan ℝ _ ⟨n₀, rfl⟩))
  have h3 : (v - (P n₀ + w)) ⬝ᵥ (v - (P n₀ + w)) = (v - P n₀) ⬝ᵥ (v - P n₀) + w ⬝ᵥ w := by
    have e : v - (P n₀ + w) = (v - P n₀) - w := by abel
    generalize v - P n₀ = u at h2 e ⊢
    rw [e, sub_dotProduct, dotProduct_sub, dotProduct_sub, dotProduct_comm u w, h2]
    ring
  have h4 : 0 ≤ (v - P n₀) ⬝ᵥ (v - P n₀) := by rw [← hsq]; exact sq_nonneg _
  refine (sq_le_sq₀ hpos.le (Real.sqrt_nonneg _)).1 ?_
  rw [hsq]
  have h5 := hsq (v - (P n₀ + w))
  unfold euclid at h5
  rw [h5, h3]
  linarith

/-- **C113 (anisotropic noise).** With anisotropic noise, any batches, stopped runs or not: a coordinate in which all particles of a run agree keeps its value for ever, if the post processing keeps it (for the default clipping:
if the value is in the allowed interval). -/
theorem C113_anisotropic (env : Env ℝ (ι → ℝ)) (f : (ι → ℝ) → ℝ) (p : (ι → ℝ) → ι → ℝ) (smp : ℕ → ℕ → ℕ → ι → ℝ) (hcorr : env.corr = .none) (hcons : env.cons = .mean consDefault)
    (hf : ∀ v, env.f v = .fin (f v)) (hnoise : env.noise = rowNoise anisoRule smp) (hpm : PostMap env p) (hp : PermOK env) (a : Args ℝ (ι → ℝ)) (hb : a.batchSize ≠ some 0) (s₀ s s' : St ℝ (ι → ℝ))
    (ops ops' : List Op) (h0 : init env a = .ok s₀) (h1 : execAll env (cboInner env) ops s₀ = .ok s) (m : ℕ) (k : ι) (t : ℝ) (hv : ∀ v, v k = t → p v k = t) (hx : ∀ n < s.N, s.x.get m n k = t)
    (h2 : execAll env (cboInner env) ops' s = .ok s') : ∀ n < s.N, s'.x.get m n k = t := by
  let A : AffineSubspace ℝ (ι → ℝ) := AffineSubspace.mk' (fun _ => t) (LinearMap.ker (LinearMap.proj k : (ι → ℝ) →ₗ[ℝ] ℝ))
  have hA : ∀ v, v ∈ A ↔ v k = t := fun v => by
    simp only [A, AffineSubspace.mem_mk', LinearMap.mem_ker, LinearMap.proj_apply, vsub_eq_sub, Pi.sub_apply, sub_eq_zero]
  intro n hn
  rw [← hA]
  refine subspace_run (A := A) hcorr hcons hf (rowNoise_rows hnoise).ok.shape ?_ hpm hp hb h0 h1 (fun v hv' => (hA _).2 (hv v ((hA v).1 hv'))) (fun n hn => (hA _).2 (hx n hn)) h2 n hn
  rw [AffineSubspace.direction_mk']
  exact anisoNoise_in hnoise k

end

section
variable {Ω ι : Type} [MeasurableSpace Ω] {μ : Measure Ω} [IsProbabilityMeasure μ] [Fintype ι] [DecidableEq ι]

/-- **C113 (isotropic noise).** With isotropic noise and independent standard normal numbers (`σ ≠ 0`, `dt > 0`), from any reachable state, any batches: a moved particle that is not at the consensus point of its run leaves every
given proper affine subspace in a single step with probability 1. -/
theorem C113_isotropic
    (env : Env ℝ (ι → ℝ)) (r : List (ℝ × Flt ℝ × (ι → ℝ)) → ι → ℝ) (hcorr : env.corr = .none) (hcons : env.cons = .mean r)
    (hpm : PostMap env id) (hp : PermOK env) (a : Args ℝ (ι → ℝ)) (s₀ s : St ℝ (ι → ℝ)) (ops : List Op)
    (h0 : init env a = .ok s₀) (h : execAll env (cboInner env) ops s₀ = .ok s) (hdt : 0 < s.dt) (hsig : s.sigma ≠ 0)
    (smp : Ω → ℕ → ℕ → ℕ → ι → ℝ) (hz : StdNormalTape μ fun ω => smp ω s.draws) (s' : Ω → St ℝ (ι → ℝ))
    (hs : ∀ ω, step { env with noise := rowNoise isoRule (smp ω) } (cboInner { env with noise := rowNoise isoRule (smp ω) }) s =
      .ok (s' ω)) :
    ∃ c : ℕ → ι → ℝ, (∀ ω, ∃ cm, (s' ω).cons = some cm ∧ ∀ i < s.active.length, cm.get i 0 = c i) ∧
      ∀ i < s.active.length, ∀ m, s.active.getD i 0 = m → ∀ n, (∀ ω, (s' ω).pIdx.Sel m n) → s.x.get m n ≠ c i →
        ∀ A : AffineSubspace ℝ (ι → ℝ), A ≠ ⊤ → ∀ᵐ ω ∂μ, (s' ω).x.get m n ∉ A := by
  obtain ⟨c, j, hc, hx⟩ := tape_step hcorr hcons hpm hp (reach_wf hpm.ok hp h0 h) hs
  refine ⟨c, hc, ?_⟩
  rintro i hi m rfl n hsel hne A hA
  set d := s.x.get (s.active.getD i 0) n - c i with hd
  have hd0 : d ≠ 0 := sub_ne_zero.2 hne
  have he : euclid d ≠ 0 := by
    intro h
    unfold euclid at h
    rw [Real.sqrt_eq_zero (Finset.sum_nonneg fun _ _ => sq_nonneg _)] at h
    refine hd0 (funext fun l => ?_)
    have := (Finset.sum_eq_zero_iff_of_nonneg fun l _ => sq_nonneg (d l)).1 h l (Finset.mem_univ l)
    simpa using this
  have hform : ∀ ω, (s' ω).x.get (s.active.getD i 0) n = (s.x.get (s.active.getD i 0) n - (s.lamda * s.dt) • d) + (s.sigma * Real.sqrt s.dt * euclid d) • smp ω s.draws i (j i n) := by
    intro ω
    rw [(hx ω i hi n (hsel ω)).2, ← hd]
    funext l
    simp only [id, cboUpdate, isoRule, Pi.add_apply, Pi.smul_apply, Pi.sub_apply, smul_eq_mul]
    ring
  have hg : s.sigma * Real.sqrt s.dt * euclid d ≠ 0 := mul_ne_zero (mul_ne_zero hsig (Real.sqrt_pos.2 hdt).ne') he
  simp only [hform]
  exact normal_leaves hz i (j i n) _ hg hA

end

/-- C113: two runs of two particles on the plane, covariance noise: all hypotheses of `C113_covariance` and `C113_few` are met, and through any number of steps all particles of run 1 stay on the line through `(1, 2)` and
`(2, 0)`. -/
example (sampling : Bool) : ∃ (eigh : Matrix (Fin 2) (Fin 2) ℝ → (Fin 2 → ℝ) × Matrix (Fin 2) (Fin 2) ℝ) (σ : ℕ → St ℝ (Fin 2 → ℝ)), EighOK eigh ∧
    let env := Example.ellEnv (covNoise eigh sampling Example.smp)
    let a : Args ℝ (Fin 2 → ℝ) := { Example.ellArgs with x0 := ⟨2, 2, fun m n => ![n + m, 2 - 2 * n]⟩ }
    init env a = .ok (σ 0) ∧ (∀ k, step env (cboInner env) (σ k) = .ok (σ (k + 1))) ∧ a.batchSize ≠ some 0 ∧ 0 < a.x0.cols ∧ a.x0.cols ≤ Fintype.card (Fin 2) ∧
    ∀ k, ∀ n < 2, 2 * (σ k).x.get 1 n 0 + (σ k).x.get 1 n 1 = 4 := by
  obtain ⟨eigh, he⟩ := eigh_exists (ι := Fin 2)
  have hE := Example.plane_cov eigh he sampling Example.smp
  let env := Example.ellEnv (covNoise eigh sampling Example.smp)
  let a : Args ℝ (Fin 2 → ℝ) := { Example.ellArgs with x0 := ⟨2, 2, fun m n => ![n + m, 2 - 2 * n]⟩ }
  have h1 : ∃ s, init env a = .ok s ∧ s.M = 2 ∧ s.N = 2 ∧ s.active = [0, 1] ∧ s.batched = false ∧ s.x = a.x0 ∧ s.saveInt ≠ 0 := by
    unfold init
    rw [if_neg (by simp [a, Example.ellArgs, Example.realArgs])]
    exact ⟨_, rfl, rfl, rfl, rfl, rfl, rfl, show (2 : ℕ) ≠ 0 by omega⟩
  obtain ⟨s, s0, s1, s2, s3, s4, s5, s6⟩ := h1
  obtain ⟨σ, σ0, hσ⟩ := Example.cov_path hE (init_wf hE.perm s0) (by rw [s3, s1]; rfl) s4 (by omega) s6
  have hba : a.batchSize ≠ some 0 := by simp [a, Example.ellArgs, Example.realArgs]
  refine ⟨eigh, σ, he, by rw [σ0]; exact s0, hσ, hba, by norm_num, by norm_num, ?_⟩
  have hrun : ∀ k, execAll env (cboInner env) (List.replicate k .step) s = .ok (σ k) := by
    intro k
    induction k with
    | zero => rw [σ0]; rfl
    | succ k ih =>
      rw [List.replicate_succ', execAll_append]
      refine ⟨σ k, ih, ?_⟩
      simp only [execAll, exec, bind, Except.bind]
      rw [hσ k]
  let g : (Fin 2 → ℝ) →ₗ[ℝ] ℝ := 2 • LinearMap.proj 0 + LinearMap.proj 1
  let A : AffineSubspace ℝ (Fin 2 → ℝ) := AffineSubspace.mk' ![1, 2] (LinearMap.ker g)
  have hA : ∀ v, v ∈ A ↔ 2 * v 0 + v 1 = 4 := fun v => by
    simp only [A, AffineSubspace.mem_mk', LinearMap.mem_ker, g, LinearMap.add_apply, LinearMap.smul_apply, LinearMap.proj_apply, vsub_eq_sub, Pi.sub_apply, nsmul_eq_mul]
    constructor <;> intro h <;> norm_num at h ⊢ <;> linarith
  intro k n hn
  rw [← hA]
  refine C113_covariance env _ id eigh he sampling Example.smp hE.corr hE.cons hE.obj hE.noise hE.post hE.perm a hba s s (σ k) [] (List.replicate k .step) s0 rfl 1 A (fun v hv => hv) ?_ (hrun k) n (by rw [s2]; exact hn)
  intro n _
  rw [hA, s5]
  simp only [a, cons_val_zero, cons_val_one]
  norm_num
  ring

/-- C113: two runs on the plane with anisotropic noise, the default clipping and batches of 3 of 4 particles: the second coordinate of run 1 is 1 at the start and stays 1. -/
example (ops : List Op) :
    let env := Example.realEnv (rowNoise anisoRule Example.smp)
    let a := Example.realArgs (fun m n => ![n, m]) 3 (some 3)
    ∃ s₀ s, init env a = .ok s₀ ∧ execAll env (cboInner env) ops s₀ = .ok s ∧ ∀ n < s₀.N, s.x.get 1 n 1 = 1 := by
  intro env a
  obtain ⟨s₀, h0, h1⟩ := Example.realEnv_runs anisoRule (fun m n => ![(n : ℝ), m]) 3 (some 3)
  obtain ⟨s, hs⟩ := h1 ops
  refine ⟨s₀, s, h0, hs, ?_⟩
  have hE := Example.realEnv_standard anisoRule
  refine C113_anisotropic env _ _ Example.smp hE.corr hE.cons hE.f rfl hE.post hE.perm a (by simp [a, Example.realArgs]) s₀ s₀ s [] ops h0 rfl 1 1 1 ?_ ?_ hs
  · intro v hv
    simp only [clipVec, hv]
    norm_num
  · intro n _
    rw [(init_x_tracks h0).1]
    simp [Example.realArgs]

/-- C113: the same ensemble, on the line of points with second coordinate 0, with isotropic noise and independent standard normal numbers: after the first step, with probability 1, a particle of run 0 is no longer on that line. -/
example : ∃ (Ω : Type) (_ : MeasurableSpace Ω) (μ : Measure Ω) (smp : Ω → ℕ → ℕ → ℕ → Fin 2 → ℝ), IsProbabilityMeasure μ ∧
    let env := { Example.realEnv (rowNoise isoRule Example.smp) with post := fun s => .ok s.x }
    ∃ (s₀ : St ℝ (Fin 2 → ℝ)) (s' : Ω → St ℝ (Fin 2 → ℝ)), init env (Example.realArgs (fun m n => ![n, m]) 3 none) = .ok s₀ ∧ (∀ n < 4, s₀.x.get 0 n 1 = 0) ∧
      (∀ ω, step { env with noise := rowNoise isoRule (smp ω) } (cboInner { env with noise := rowNoise isoRule (smp ω) }) s₀ = .ok (s' ω)) ∧
      ∃ n < 4, ∀ᵐ ω ∂μ, (s' ω).x.get 0 n 1 ≠ 0 := by
  obtain ⟨Ω, mΩ, μ, smp, hμ, hz⟩ := Example.normalTape (Fin 2)
  refine ⟨Ω, mΩ, μ, smp, hμ, ?_⟩
  intro env
  have hpm : PostMap env id := fun _ => rfl
  have hp : PermOK env := Example.perm_ok (rowNoise isoRule Example.smp)
  have h0 : ∃ s₀, init env (Example.realArgs (fun m n => ![n, m]) 3 none) = .ok s₀ ∧ s₀.active = [0, 1] ∧
      s₀.batched = false ∧ s₀.N = 4 ∧ s₀.dt = 1 / 10 ∧ s₀.sigma = 3 ∧ s₀.saveInt ≠ 0 := by
    unfold init
    rw [if_neg (by simp [Example.realArgs])]
    exact ⟨_, rfl, rfl, rfl, rfl, rfl, rfl, show (2 : ℕ) ≠ 0 by omega⟩
  obtain ⟨s₀, h0, c1, c2, c3, c4, c5, c6⟩ := h0
  have hx := (init_x_tracks h0).1
  have hw := init_wf hp h0
  have hstep : ∀ ω, ∃ s', step { env with noise := rowNoise isoRule (smp ω) }
      (cboInner { env with noise := rowNoise isoRule (smp ω) }) s₀ = .ok s' := fun ω =>
    cboStep_total_of (env := { env with noise := rowNoise isoRule (smp ω) }) rfl ⟨_, rfl⟩ (fun s => ⟨_, rfl, rfl, rfl⟩) hp hw c6 (fun h => by cases h)
      fun q d hd _ _ _ _ _ _ => (rowNoise_rows (env := { env with noise := rowNoise isoRule (smp ω) }) rfl).ok q d hd
  choose s' hs' using hstep
  refine ⟨s₀, s', h0, fun n _ => by rw [hx]; simp [Example.realArgs], hs', ?_⟩
  have hsel : ∀ n < 4, ∀ ω, (s' ω).pIdx.Sel 0 n := by
    intro n hn ω
    have fr := step_frame (by rw [cboInner_eq]; exact consThen_frame (cboMove_ok _)) (hs' ω)
    obtain ⟨pc, pr, pcol, prun, ppar⟩ := (preStep_pIdx { env with noise := rowNoise isoRule (smp ω) } s₀ hw).2.2 c2
    rw [fr.pIdx]
    exact ⟨0, by rw [pr, c1]; simp, n, by rw [pcol, c3]; exact hn, by rw [prun 0 (by rw [c1]; simp), c1]; rfl, ppar 0 n⟩
  obtain ⟨c, -, key⟩ := C113_isotropic env consDefault rfl rfl hpm hp _ s₀ s₀ [] h0 rfl (by rw [c4]; norm_num) (by rw [c5]; norm_num) smp (hz _) s' hs'
  let A : AffineSubspace ℝ (Fin 2 → ℝ) := AffineSubspace.mk' 0 (LinearMap.ker (LinearMap.proj 1 : (Fin 2 → ℝ) →ₗ[ℝ] ℝ))
  have hA : ∀ v, v ∈ A ↔ v 1 = 0 := fun v => by
    simp only [A, AffineSubspace.mem_mk', LinearMap.mem_ker, LinearMap.proj_apply, vsub_eq_sub, sub_zero]
  have hT : A ≠ ⊤ := by
    intro h
    have : (![0, 1] : Fin 2 → ℝ) ∈ A := by rw [h]; exact AffineSubspace.mem_top _ _ _
    rw [hA] at this
    norm_num at this
  have hne : ∃ n < 4, s₀.x.get 0 n ≠ c 0 := by
    by_contra h
    push Not at h
    have h1 := (h 0 (by omega)).trans (h 1 (by omega)).symm
    rw [hx] at h1
    have h2 := congrFun h1 0
    simp [Example.realArgs] at h2
  obtain ⟨n, hn, hne⟩ := hne
  refine ⟨n, hn, ?_⟩
  have := key 0 (by rw [c1]; simp) 0 (by rw [c1]; rfl) n (hsel n hn) hne A hT
  simpa only [hA] using this

end Verif
