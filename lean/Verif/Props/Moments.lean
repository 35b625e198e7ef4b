import Verif.Proofs.Moments
import Verif.Props.Noise
import Verif.Props.Hull
import Mathlib.Probability.HasLawExists

/-! Property C106: mean, covariance and mean squared distance to the consensus point of one step with random noise. -/

set_option linter.unusedSectionVars false

namespace Verif

open MeasureTheory ProbabilityTheory

section moments
variable {Ω ι : Type} [MeasurableSpace Ω] {μ : Measure Ω} [IsProbabilityMeasure μ] [Fintype ι] [DecidableEq ι]

/-- **C106, anisotropic noise.** CBO without correction and post processing, any consensus rule of the type of the default one, any
batches, any past. If the numbers drawn in the next step have mean 0 and variance 1 and are uncorrelated, then the consensus
points `c` of the step are not random, every moved particle `x` has the new mean `x - λ·dt·(x - c)`, coordinate `l` has variance
`σ²·dt·(x - c)_l²`, different coordinates, different particles and different runs are uncorrelated, and the mean squared distance
to the consensus point is multiplied by `(1 - λ·dt)² + σ²·dt` in every coordinate, whatever the dimension. -/
theorem C106_anisotropic
    (env : Env ℝ (ι → ℝ)) (r : List (ℝ × Flt ℝ × (ι → ℝ)) → ι → ℝ) (hcorr : env.corr = .none) (hcons : env.cons = .mean r)
    (hpm : PostMap env id) (hp : PermOK env) (a : Args ℝ (ι → ℝ)) (s₀ s : St ℝ (ι → ℝ)) (ops : List Op)
    (h0 : init env a = .ok s₀) (h : execAll env (cboInner env) ops s₀ = .ok s) (hdt : 0 ≤ s.dt)
    (smp : Ω → ℕ → ℕ → ℕ → ι → ℝ) (hz : White μ fun ω => smp ω s.draws) (s' : Ω → St ℝ (ι → ℝ))
    (hs : ∀ ω, step { env with noise := rowNoise anisoRule (smp ω) } (cboInner { env with noise := rowNoise anisoRule (smp ω) }) s =
      .ok (s' ω)) :
    ∃ c : ℕ → ι → ℝ, (∀ ω, ∃ cm, (s' ω).cons = some cm ∧ ∀ i < s.active.length, cm.get i 0 = c i) ∧
      ∀ i < s.active.length, ∀ m, s.active.getD i 0 = m → ∀ n, (∀ ω, (s' ω).pIdx.Sel m n) →
        (∀ l, ∫ ω, (s' ω).x.get m n l ∂μ = s.x.get m n l - s.lamda * s.dt * (s.x.get m n l - c i l)) ∧
        (∀ i' < s.active.length, ∀ m', s.active.getD i' 0 = m' → ∀ n', (∀ ω, (s' ω).pIdx.Sel m' n') → ∀ l l',
          cov[fun ω => (s' ω).x.get m n l, fun ω => (s' ω).x.get m' n' l'; μ] =
            if m = m' ∧ n = n' ∧ l = l' then s.sigma ^ 2 * s.dt * (s.x.get m n l - c i l) ^ 2 else 0) ∧
        ∀ l, ∫ ω, ((s' ω).x.get m n l - c i l) ^ 2 ∂μ = ((1 - s.lamda * s.dt) ^ 2 + s.sigma ^ 2 * s.dt) *
          (s.x.get m n l - c i l) ^ 2 := by
  have hw := reach_wf hpm.ok hp h0 h
  obtain ⟨c, hc, hx⟩ := moment_core (g := fun d l => d l) hcorr hcons hpm hp
    (fun d z l => by simp only [anisoRule]; ring) hw hz hdt hs
  refine ⟨c, hc, ?_⟩
  rintro i hi m rfl n hsel
  obtain ⟨h1, h2, h3, h4⟩ := hx i hi n hsel
  refine ⟨h1, ?_, ?_⟩
  · rintro i' hi' m' rfl n' hsel' l l'
    rw [h4 i' hi' n' hsel' l l']
    have hii : (i = i' ∧ n = n' ∧ l = l') ↔ (s.active.getD i 0 = s.active.getD i' 0 ∧ n = n' ∧ l = l') :=
      ⟨fun q => ⟨by rw [q.1], q.2⟩, fun q => ⟨getD_inj hw.nodup hi hi' q.1, q.2⟩⟩
    simp only [hii, Pi.sub_apply]
  · intro l
    rw [h2 l]
    simp only [Pi.sub_apply]
    ring


/-- **C106, isotropic noise.** The same; every coordinate has variance `σ²·dt·|x - c|²`, and the mean squared distance to the
consensus point is multiplied by `(1 - λ·dt)² + d·σ²·dt`, where `d` is the dimension. -/
theorem C106_isotropic
    (env : Env ℝ (ι → ℝ)) (r : List (ℝ × Flt ℝ × (ι → ℝ)) → ι → ℝ) (hcorr : env.corr = .none) (hcons : env.cons = .mean r)
    (hpm : PostMap env id) (hp : PermOK env) (a : Args ℝ (ι → ℝ)) (s₀ s : St ℝ (ι → ℝ)) (ops : List Op)
    (h0 : init env a = .ok s₀) (h : execAll env (cboInner env) ops s₀ = .ok s) (hdt : 0 ≤ s.dt)
    (smp : Ω → ℕ → ℕ → ℕ → ι → ℝ) (hz : White μ fun ω => smp ω s.draws) (s' : Ω → St ℝ (ι → ℝ))
    (hs : ∀ ω, step { env with noise := rowNoise isoRule (smp ω) } (cboInner { env with noise := rowNoise isoRule (smp ω) }) s =
      .ok (s' ω)) :
    ∃ c : ℕ → ι → ℝ, (∀ ω, ∃ cm, (s' ω).cons = some cm ∧ ∀ i < s.active.length, cm.get i 0 = c i) ∧
      ∀ i < s.active.length, ∀ m, s.active.getD i 0 = m → ∀ n, (∀ ω, (s' ω).pIdx.Sel m n) →
        (∀ l, ∫ ω, (s' ω).x.get m n l ∂μ = s.x.get m n l - s.lamda * s.dt * (s.x.get m n l - c i l)) ∧
        (∀ i' < s.active.length, ∀ m', s.active.getD i' 0 = m' → ∀ n', (∀ ω, (s' ω).pIdx.Sel m' n') → ∀ l l',
          cov[fun ω => (s' ω).x.get m n l, fun ω => (s' ω).x.get m' n' l'; μ] =
            if m = m' ∧ n = n' ∧ l = l' then s.sigma ^ 2 * s.dt * ∑ k, (s.x.get m n k - c i k) ^ 2 else 0) ∧
        ∫ ω, ∑ l, ((s' ω).x.get m n l - c i l) ^ 2 ∂μ = ((1 - s.lamda * s.dt) ^ 2 + Fintype.card ι * (s.sigma ^ 2 * s.dt)) *
          ∑ l, (s.x.get m n l - c i l) ^ 2 := by
  have heu : ∀ d : ι → ℝ, euclid d ^ 2 = ∑ k, d k ^ 2 := fun d =>
    Real.sq_sqrt (Finset.sum_nonneg fun _ _ => sq_nonneg _)
  have hw := reach_wf hpm.ok hp h0 h
  obtain ⟨c, hc, hx⟩ := moment_core (g := fun d _ => euclid d) hcorr hcons hpm hp
    (fun d z l => by simp only [isoRule]; ring) hw hz hdt hs
  refine ⟨c, hc, ?_⟩
  rintro i hi m rfl n hsel
  obtain ⟨h1, h2, h3, h4⟩ := hx i hi n hsel
  refine ⟨h1, ?_, ?_⟩
  · rintro i' hi' m' rfl n' hsel' l l'
    rw [h4 i' hi' n' hsel' l l']
    have hii : (i = i' ∧ n = n' ∧ l = l') ↔ (s.active.getD i 0 = s.active.getD i' 0 ∧ n = n' ∧ l = l') :=
      ⟨fun q => ⟨by rw [q.1], q.2⟩, fun q => ⟨getD_inj hw.nodup hi hi' q.1, q.2⟩⟩
    simp only [hii, heu, Pi.sub_apply]
  · rw [integral_finsetSum _ fun l _ => h3 l]
    simp only [h2, heu, Pi.sub_apply, Finset.sum_add_distrib, ← Finset.mul_sum, Finset.sum_const, Finset.card_univ, nsmul_eq_mul]
    ring


/-- **C106, constant noise.** The same; every coordinate has variance `σ²·dt`. -/
theorem C106_constant
    (env : Env ℝ (ι → ℝ)) (r : List (ℝ × Flt ℝ × (ι → ℝ)) → ι → ℝ) (hcorr : env.corr = .none) (hcons : env.cons = .mean r)
    (hpm : PostMap env id) (hp : PermOK env) (a : Args ℝ (ι → ℝ)) (s₀ s : St ℝ (ι → ℝ)) (ops : List Op)
    (h0 : init env a = .ok s₀) (h : execAll env (cboInner env) ops s₀ = .ok s) (hdt : 0 ≤ s.dt)
    (smp : Ω → ℕ → ℕ → ℕ → ι → ℝ) (hz : White μ fun ω => smp ω s.draws) (s' : Ω → St ℝ (ι → ℝ))
    (hs : ∀ ω, step { env with noise := rowNoise constRule (smp ω) } (cboInner { env with noise := rowNoise constRule (smp ω) }) s =
      .ok (s' ω)) :
    ∃ c : ℕ → ι → ℝ, (∀ ω, ∃ cm, (s' ω).cons = some cm ∧ ∀ i < s.active.length, cm.get i 0 = c i) ∧
      ∀ i < s.active.length, ∀ m, s.active.getD i 0 = m → ∀ n, (∀ ω, (s' ω).pIdx.Sel m n) →
        (∀ l, ∫ ω, (s' ω).x.get m n l ∂μ = s.x.get m n l - s.lamda * s.dt * (s.x.get m n l - c i l)) ∧
        (∀ i' < s.active.length, ∀ m', s.active.getD i' 0 = m' → ∀ n', (∀ ω, (s' ω).pIdx.Sel m' n') → ∀ l l',
          cov[fun ω => (s' ω).x.get m n l, fun ω => (s' ω).x.get m' n' l'; μ] =
            if m = m' ∧ n = n' ∧ l = l' then s.sigma ^ 2 * s.dt else 0) ∧
        ∫ ω, ∑ l, ((s' ω).x.get m n l - c i l) ^ 2 ∂μ = (1 - s.lamda * s.dt) ^ 2 * ∑ l, (s.x.get m n l - c i l) ^ 2 +
          Fintype.card ι * (s.sigma ^ 2 * s.dt) := by
  have hw := reach_wf hpm.ok hp h0 h
  obtain ⟨c, hc, hx⟩ := moment_core (g := fun _ _ => 1) hcorr hcons hpm hp
    (fun d z l => by simp only [constRule]; rw [one_mul]) hw hz hdt hs
  refine ⟨c, hc, ?_⟩
  rintro i hi m rfl n hsel
  obtain ⟨h1, h2, h3, h4⟩ := hx i hi n hsel
  refine ⟨h1, ?_, ?_⟩
  · rintro i' hi' m' rfl n' hsel' l l'
    rw [h4 i' hi' n' hsel' l l']
    have hii : (i = i' ∧ n = n' ∧ l = l') ↔ (s.active.getD i 0 = s.active.getD i' 0 ∧ n = n' ∧ l = l') :=
      ⟨fun q => ⟨by rw [q.1], q.2⟩, fun q => ⟨getD_inj hw.nodup hi hi' q.1, q.2⟩⟩
    simp only [hii, one_pow, mul_one]
  · rw [integral_finsetSum _ fun l _ => h3 l]
    simp only [h2, one_pow, mul_one, Finset.sum_add_distrib, ← Finset.mul_sum, Finset.sum_const, Finset.card_univ, nsmul_eq_mul]
    ring


/-- **C106, covariance noise.** CBO with covariance noise (mode 'sampling' for `b = true`), default consensus, no batches, all runs active, finite objective: the expected position is
`x - lamda·dt·(x - c)`; different particles and different runs are uncorrelated; the covariance matrix of every particle of run `m` is `sigma²·2·dt·(1 + alpha)` (mode 'sampling') or `sigma²·2·dt` times
the weighted covariance of the ensemble around the consensus point, the same for all particles of the run. -/
theorem C106_covariance
    (env : Env ℝ (ι → ℝ)) (f : (ι → ℝ) → ℝ) (eigh : Matrix ι ι ℝ → (ι → ℝ) × Matrix ι ι ℝ) (he : EighOK eigh) (b : Bool) (hcorr : env.corr = .none)
    (hcons : env.cons = .mean consDefault) (hf : ∀ v, env.f v = .fin (f v)) (hpm : PostMap env id) (hp : PermOK env) (a : Args ℝ (ι → ℝ)) (s₀ s : St ℝ (ι → ℝ)) (ops : List Op)
    (h0 : init env a = .ok s₀) (h : execAll env (cboInner env) ops s₀ = .ok s) (hact : s.active = List.range s.M) (hbat : s.batched = false)
    (hdt : ∀ m < s.M, 0 ≤ s.dt * (if b then 1 + s.alpha m else 1))
    (smp : Ω → ℕ → ℕ → ℕ → ι → ℝ) (hz : White μ fun ω => smp ω s.draws) (s' : Ω → St ℝ (ι → ℝ))
    (hs : ∀ ω, step { env with noise := covNoise eigh b (smp ω) } (cboInner { env with noise := covNoise eigh b (smp ω) }) s = .ok (s' ω)) :
    ∃ c : ℕ → ι → ℝ, (∀ ω, ∃ cm, (s' ω).cons = some cm ∧ ∀ m < s.M, cm.get m 0 = c m) ∧
      ∀ m < s.M, ∀ n < s.N,
        (∀ l, ∫ ω, (s' ω).x.get m n l ∂μ = s.x.get m n l - s.lamda * s.dt * (s.x.get m n l - c m l)) ∧
        ∀ m' < s.M, ∀ n' < s.N, ∀ l l', cov[fun ω => (s' ω).x.get m n l, fun ω => (s' ω).x.get m' n' l'; μ] =
          if m = m' ∧ n = n' then s.sigma ^ 2 * (2 * s.dt * (if b then 1 + s.alpha m else 1)) *
            weightedCov (s.alpha m) s.N (fun k => f (s.x.get m k)) (s.x.get m) (c m) l l' else 0 := by
  have hw := reach_wf hpm.ok hp h0 h
  have key := fun ω => cov_explicit (env := { env with noise := covNoise eigh b (smp ω) }) hcorr hcons hf rfl hpm hp hw hact hbat (hs ω)
  set c : ℕ → ι → ℝ := fun m => consDefault (sampleOf env { s with cIdx := (preStep env s).cIdx } m) with hc
  set G : ℕ → Matrix ι ι ℝ := fun m => s.sigma • (Real.sqrt (2 * s.dt * (if b then 1 + s.alpha m else 1)) • matSqrt eigh
    (weightedCov (s.alpha m) s.N (fun k => f (s.x.get m k)) (s.x.get m) (c m))) with hG
  have hX : ∀ m < s.M, ∀ n < s.N, ∀ l, (fun ω => (s' ω).x.get m n l) = fun ω =>
      (s.x.get m n l - s.lamda * s.dt * (s.x.get m n l - c m l)) + ∑ k, G m l k * smp ω s.draws m n k := by
    intro m hm n hn l
    funext ω
    obtain ⟨cm, -, c2, c3⟩ := key ω
    have e : cm.get m 0 = c m := c2 m hm
    rw [c3 m hm n hn, e]
    simp only [id_eq, hG, Pi.add_apply, Pi.sub_apply, Pi.smul_apply, smul_eq_mul, Matrix.mulVec, dotProduct, Matrix.smul_apply, Finset.mul_sum, mul_assoc]
  refine ⟨c, fun ω => ?_, fun m hm n hn => ⟨fun l => ?_, fun m' hm' n' hn' l l' => ?_⟩⟩
  · obtain ⟨cm, c1, c2, -⟩ := key ω
    exact ⟨cm, c1, c2⟩
  · rw [hX m hm n hn l]
    exact linear_mean hz _ _ _ _
  · rw [hX m hm n hn l, hX m' hm' n' hn' l', linear_cov hz]
    by_cases hq : m = m' ∧ n = n'
    · obtain ⟨rfl, rfl⟩ := hq
      simp only [and_self, if_true]
      obtain ⟨⟨sy, -⟩, sq⟩ := C52_sqrt eigh he _ (weightedCov_psd (s.alpha m) s.N (fun n => f (s.x.get m n)) (s.x.get m) (c m))
      have e : ∑ k, G m l k * G m l' k = (G m * (G m).transpose) l l' := by
        simp only [Matrix.mul_apply, Matrix.transpose_apply]
      rw [e]
      simp only [hG, Matrix.transpose_smul, sy, Matrix.smul_mul, Matrix.mul_smul, sq, Matrix.smul_apply, smul_eq_mul]
      have := Real.mul_self_sqrt (show 0 ≤ 2 * s.dt * (if b then 1 + s.alpha m else 1) by rw [mul_assoc]; have := hdt m hm; linarith)
      linear_combination (s.sigma ^ 2 * weightedCov (s.alpha m) s.N (fun k => f (s.x.get m k)) (s.x.get m) (c m) l l') * this
    · rw [if_neg hq, if_neg hq]

/-- **C106, law of the new position (anisotropic noise).** With independent standard normal numbers every coordinate of a moved
particle is normally distributed with that mean and variance. -/
theorem C106_law_anisotropic
    (env : Env ℝ (ι → ℝ)) (r : List (ℝ × Flt ℝ × (ι → ℝ)) → ι → ℝ) (hcorr : env.corr = .none) (hcons : env.cons = .mean r)
    (hpm : PostMap env id) (hp : PermOK env) (a : Args ℝ (ι → ℝ)) (s₀ s : St ℝ (ι → ℝ)) (ops : List Op)
    (h0 : init env a = .ok s₀) (h : execAll env (cboInner env) ops s₀ = .ok s) (hdt : 0 ≤ s.dt)
    (smp : Ω → ℕ → ℕ → ℕ → ι → ℝ) (hz : StdNormalTape μ fun ω => smp ω s.draws) (s' : Ω → St ℝ (ι → ℝ))
    (hs : ∀ ω, step { env with noise := rowNoise anisoRule (smp ω) } (cboInner { env with noise := rowNoise anisoRule (smp ω) }) s =
      .ok (s' ω)) :
    ∃ c : ℕ → ι → ℝ, (∀ ω, ∃ cm, (s' ω).cons = some cm ∧ ∀ i < s.active.length, cm.get i 0 = c i) ∧
      ∀ i < s.active.length, ∀ m, s.active.getD i 0 = m → ∀ n, (∀ ω, (s' ω).pIdx.Sel m n) → ∀ l,
        HasLaw (fun ω => (s' ω).x.get m n l) (gaussianReal (s.x.get m n l - s.lamda * s.dt * (s.x.get m n l - c i l))
          (Real.toNNReal (s.sigma ^ 2 * s.dt * (s.x.get m n l - c i l) ^ 2))) μ := by
  obtain ⟨c, hc, hx⟩ := moment_law (g := fun d l => d l) hcorr hcons hpm hp
    (fun d z l => by simp only [anisoRule]; ring) (reach_wf hpm.ok hp h0 h) hz hdt hs
  refine ⟨c, hc, ?_⟩
  rintro i hi m rfl n hsel l
  exact hx i hi n hsel l

/-- **C106, law of the new position (isotropic noise).** With independent standard normal numbers every coordinate of a moved
particle is normally distributed with that mean and variance. -/
theorem C106_law_isotropic
    (env : Env ℝ (ι → ℝ)) (r : List (ℝ × Flt ℝ × (ι → ℝ)) → ι → ℝ) (hcorr : env.corr = .none) (hcons : env.cons = .mean r)
    (hpm : PostMap env id) (hp : PermOK env) (a : Args ℝ (ι → ℝ)) (s₀ s : St ℝ (ι → ℝ)) (ops : List Op)
    (h0 : init env a = .ok s₀) (h : execAll env (cboInner env) ops s₀ = .ok s) (hdt : 0 ≤ s.dt)
    (smp : Ω → ℕ → ℕ → ℕ → ι → ℝ) (hz : StdNormalTape μ fun ω => smp ω s.draws) (s' : Ω → St ℝ (ι → ℝ))
    (hs : ∀ ω, step { env with noise := rowNoise isoRule (smp ω) } (cboInner { env with noise := rowNoise isoRule (smp ω) }) s =
      .ok (s' ω)) :
    ∃ c : ℕ → ι → ℝ, (∀ ω, ∃ cm, (s' ω).cons = some cm ∧ ∀ i < s.active.length, cm.get i 0 = c i) ∧
      ∀ i < s.active.length, ∀ m, s.active.getD i 0 = m → ∀ n, (∀ ω, (s' ω).pIdx.Sel m n) → ∀ l,
        HasLaw (fun ω => (s' ω).x.get m n l) (gaussianReal (s.x.get m n l - s.lamda * s.dt * (s.x.get m n l - c i l))
          (Real.toNNReal (s.sigma ^ 2 * s.dt * ∑ k, (s.x.get m n k - c i k) ^ 2))) μ := by
  have heu : ∀ d : ι → ℝ, euclid d ^ 2 = ∑ k, d k ^ 2 := fun d =>
    Real.sq_sqrt (Finset.sum_nonneg fun _ _ => sq_nonneg _)
  obtain ⟨c, hc, hx⟩ := moment_law (g := fun d _ => euclid d) hcorr hcons hpm hp
    (fun d z l => by simp only [isoRule]; ring) (reach_wf hpm.ok hp h0 h) hz hdt hs
  refine ⟨c, hc, ?_⟩
  rintro i hi m rfl n hsel l
  have := hx i hi n hsel l
  simp only [heu] at this
  exact this

/-- **C106, normal numbers.** Independent standard normal numbers have mean 0 and variance 1 and are uncorrelated, so the
theorems above apply to the default sampler. -/
theorem C106_normal (z : Ω → ℕ → ℕ → ι → ℝ) (hz : StdNormalTape μ z) : White μ z := by
  have hlp : ∀ i j l, MemLp (fun ω => z ω i j l) 2 μ := by
    intro i j l
    have h1 := memLp_id_gaussianReal (μ := 0) (v := 1) 2
    have h2 := hz.law i j l
    rw [← h2.map_eq] at h1
    exact (memLp_map_measure_iff (by fun_prop) h2.aemeasurable).1 h1
  refine ⟨hlp, ?_, ?_⟩
  · intro i j l
    rw [(hz.law i j l).integral_eq]
    exact integral_id_gaussianReal
  · intro i j l i' j' l'
    split_ifs with hq
    · obtain ⟨rfl, rfl, rfl⟩ := hq
      rw [covariance_self (hz.law i j l).aemeasurable, (hz.law i j l).variance_eq, variance_id_gaussianReal]
      rfl
    · refine IndepFun.covariance_eq_zero (hz.indep.indepFun (i := (i, j, l)) (j := (i', j', l')) ?_) (hlp _ _ _) (hlp _ _ _)
      intro e
      simp only [Prod.mk.injEq] at e
      exact hq e

end moments

/-- Independent standard normal numbers exist (infinite product of normal distributions). -/
theorem Example.normalTape (ι : Type) : ∃ (Ω : Type) (_ : MeasurableSpace Ω) (μ : Measure Ω) (smp : Ω → ℕ → ℕ → ℕ → ι → ℝ),
    IsProbabilityMeasure μ ∧ ∀ k, StdNormalTape μ fun ω => smp ω k := by
  obtain ⟨Ω, mΩ, μ, X, h1, h2, h3, h4⟩ := exists_iid (ℕ × ℕ × ℕ × ι) (gaussianReal 0 1)
  refine ⟨Ω, mΩ, μ, fun ω k i j l => X (k, i, j, l) ω, h4, fun k => ⟨fun i j l => h2 _, ?_⟩⟩
  exact h3.precomp (g := fun q : ℕ × ℕ × ι => (k, q.1, q.2.1, q.2.2)) fun a b e => by
    simp only [Prod.mk.injEq, true_and] at e
    exact Prod.ext e.1 (Prod.ext e.2.1 e.2.2)

/-- C106: two runs of four particles on the plane after any number of steps, isotropic noise with independent standard normal
numbers; all hypotheses of `C106_isotropic` and `C106_law_isotropic` are met and all particles of both runs are moved. -/
example (k : ℕ) : ∃ (Ω : Type) (_ : MeasurableSpace Ω) (μ : Measure Ω) (smp : Ω → ℕ → ℕ → ℕ → Fin 2 → ℝ),
    IsProbabilityMeasure μ ∧
    let env := { Example.realEnv (rowNoise isoRule Example.smp) with post := fun s => .ok s.x }
    ∃ (s₀ s : St ℝ (Fin 2 → ℝ)) (s' : Ω → St ℝ (Fin 2 → ℝ)), init env (Example.realArgs (fun m n => ![n, m]) 3 none) = .ok s₀ ∧
      execAll env (cboInner env) (List.replicate k .step) s₀ = .ok s ∧ PostMap env id ∧ PermOK env ∧ 0 ≤ s.dt ∧ s.dt = 1 / 10 ∧
      StdNormalTape μ (fun ω => smp ω s.draws) ∧ White μ (fun ω => smp ω s.draws) ∧ s.active.length = 2 ∧
      (∀ ω, step { env with noise := rowNoise isoRule (smp ω) } (cboInner { env with noise := rowNoise isoRule (smp ω) }) s =
        .ok (s' ω)) ∧ ∀ i < 2, ∀ n < 4, ∀ ω, (s' ω).pIdx.Sel (s.active.getD i 0) n := by
  obtain ⟨Ω, mΩ, μ, smp, hμ, hz⟩ := Example.normalTape (Fin 2)
  refine ⟨Ω, mΩ, μ, smp, hμ, ?_⟩
  intro env
  have hpm : PostMap env id := fun _ => rfl
  have hp : PermOK env := Example.perm_ok (rowNoise isoRule Example.smp)
  have h0 : ∃ s₀, init env (Example.realArgs (fun m n => ![n, m]) 3 none) = .ok s₀ ∧ s₀.active.length = 2 ∧
      s₀.batched = false ∧ s₀.N = 4 ∧ s₀.dt = 1 / 10 ∧ s₀.saveInt ≠ 0 := by
    unfold init
    rw [if_neg (by simp [Example.realArgs])]
    exact ⟨_, rfl, rfl, rfl, rfl, rfl, show (2 : ℕ) ≠ 0 by omega⟩
  obtain ⟨s₀, h0, c1, c2, c3, c4, c5⟩ := h0
  have hne : ∀ (ν : St ℝ (Fin 2 → ℝ) → Except Err (Mat (Fin 2 → ℝ))) s, NonEmpty { env with noise := ν } s :=
    fun ν s h => by cases h
  have hrun : ∀ k, ∃ s, execAll env (cboInner env) (List.replicate k .step) s₀ = .ok s ∧ WF s ∧ s.active.length = 2 ∧
      s.batched = false ∧ s.N = 4 ∧ s.dt = 1 / 10 ∧ s.saveInt ≠ 0 := by
    intro k
    induction k with
    | zero => exact ⟨s₀, rfl, init_wf hp h0, c1, c2, c3, c4, c5⟩
    | succ k ih =>
      obtain ⟨s, h1, hw, d1, d2, d3, d4, d5⟩ := ih
      obtain ⟨q, hq⟩ := cboStep_total_of (env := env) rfl ⟨_, rfl⟩ (fun s => ⟨_, rfl, rfl, rfl⟩) hp hw d5 (hne _ s)
        fun q d hd _ _ _ _ _ _ => (rowNoise_rows (env := env) rfl).ok q d hd
      have fr := step_frame (by rw [cboInner_eq]; exact consThen_frame (cboMove_ok env)) hq
      have hw' := step_wf (cboMove_ok env) hpm.ok hp hw (by rw [← cboInner_eq]; exact hq)
      refine ⟨q, ?_, hw', by rw [fr.active]; exact d1, by rw [fr.batched]; exact d2, by rw [fr.N]; exact d3,
        by rw [fr.dt]; exact d4, by rw [fr.saveInt]; exact d5⟩
      rw [List.replicate_succ', execAll_append]
      refine ⟨s, h1, ?_⟩
      simp only [execAll, exec, bind, Except.bind, hq]
  obtain ⟨s, h1, hw, d1, d2, d3, d4, d5⟩ := hrun k
  have hstep : ∀ ω, ∃ s', step { env with noise := rowNoise isoRule (smp ω) }
      (cboInner { env with noise := rowNoise isoRule (smp ω) }) s = .ok s' := fun ω =>
    cboStep_total_of (env := { env with noise := rowNoise isoRule (smp ω) }) rfl ⟨_, rfl⟩ (fun s => ⟨_, rfl, rfl, rfl⟩) hp hw d5 (hne _ s)
      fun q d hd _ _ _ _ _ _ => (rowNoise_rows (env := { env with noise := rowNoise isoRule (smp ω) }) rfl).ok q d hd
  choose s' hs' using hstep
  refine ⟨s₀, s, s', h0, h1, hpm, hp, by rw [d4]; norm_num, d4, hz _, C106_normal _ (hz _), d1, hs', ?_⟩
  intro i hi n hn ω
  have fr := step_frame (by rw [cboInner_eq]; exact consThen_frame (cboMove_ok _)) (hs' ω)
  obtain ⟨pc, pr, pcol, prun, ppar⟩ := (preStep_pIdx { env with noise := rowNoise isoRule (smp ω) } s hw).2.2 d2
  rw [fr.pIdx]
  exact ⟨i, by rw [pr, d1]; exact hi, n, by rw [pcol, d3]; exact hn, prun i (by rw [d1]; exact hi), ppar i n⟩

/-- C106: covariance noise in the mode 'sampling' from the initial ensemble of two runs of four particles on the plane; all hypotheses of `C106_covariance` are met. -/
example : ∃ (eigh : Matrix (Fin 2) (Fin 2) ℝ → (Fin 2 → ℝ) × Matrix (Fin 2) (Fin 2) ℝ) (Ω : Type) (_ : MeasurableSpace Ω) (μ : Measure Ω)
    (smp : Ω → ℕ → ℕ → ℕ → Fin 2 → ℝ), IsProbabilityMeasure μ ∧ EighOK eigh ∧
    let env := { Example.realEnv (rowNoise isoRule Example.smp) with post := fun s => .ok s.x }
    ∃ (s₀ : St ℝ (Fin 2 → ℝ)) (s' : Ω → St ℝ (Fin 2 → ℝ)), init env (Example.realArgs (fun m n => ![n, m]) 3 none) = .ok s₀ ∧
      PostMap env id ∧ PermOK env ∧ s₀.active = List.range s₀.M ∧ s₀.batched = false ∧ (∀ m < s₀.M, 0 ≤ s₀.dt * (1 + s₀.alpha m)) ∧
      White μ (fun ω => smp ω s₀.draws) ∧
      ∀ ω, step { env with noise := covNoise eigh true (smp ω) } (cboInner { env with noise := covNoise eigh true (smp ω) }) s₀ = .ok (s' ω) := by
  obtain ⟨eigh, he⟩ := eigh_exists (ι := Fin 2)
  obtain ⟨Ω, mΩ, μ, smp, hμ, hz⟩ := Example.normalTape (Fin 2)
  refine ⟨eigh, Ω, mΩ, μ, smp, hμ, he, ?_⟩
  intro env
  have hpm : PostMap env id := fun _ => rfl
  have hp : PermOK env := Example.perm_ok (rowNoise isoRule Example.smp)
  have h0 : ∃ s₀, init env (Example.realArgs (fun m n => ![n, m]) 3 none) = .ok s₀ ∧ s₀.active = List.range s₀.M ∧
      s₀.batched = false ∧ s₀.M = 2 ∧ s₀.dt = 1 / 10 ∧ (∀ m, s₀.alpha m = 3) ∧ s₀.saveInt ≠ 0 := by
    unfold init
    rw [if_neg (by simp [Example.realArgs])]
    exact ⟨_, rfl, rfl, rfl, rfl, rfl, fun _ => rfl, show (2 : ℕ) ≠ 0 by omega⟩
  obtain ⟨s₀, h0, c1, c2, c3, c4, c5, c6⟩ := h0
  have hstep : ∀ ω, ∃ s', step { env with noise := covNoise eigh true (smp ω) } (cboInner { env with noise := covNoise eigh true (smp ω) }) s₀ = .ok s' := fun ω =>
    C19_covariance_partial { env with noise := covNoise eigh true (smp ω) } (fun v => v 0 ^ 2 + v 1 ^ 2) id eigh true (smp ω) rfl rfl (fun _ => rfl) rfl hpm hp _ s₀ s₀ [] h0 rfl (by omega) c1 c2 c6
  choose s' hs' using hstep
  exact ⟨s₀, s', h0, hpm, hp, c1, c2, fun m _ => by rw [c4, c5]; norm_num, C106_normal _ (hz _), hs'⟩

end Verif
