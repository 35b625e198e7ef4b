import Verif.Proofs.Bounded
import Verif.Props.AlmostSure
import Mathlib.Analysis.Complex.ExponentialBounds

/-! Property C110: for a bounded objective the strength of the noise below which all particles converge to one point does not depend on the number of particles. -/

set_option linter.unusedSectionVars false

namespace Verif

open MeasureTheory ProbabilityTheory Filter
open scoped ENNReal Topology

/-- **Specification.** The influence of an objective whose values differ by at most `Δ`, at the inverse temperature `α`: 0 for a constant objective. -/
noncomputable def oscFactor (α Δ : ℝ) : ℝ := min (Real.exp (α * Δ)) ((Real.exp (α * Δ) - 1) ^ 2)

theorem oscFactor_nonneg (α Δ : ℝ) : 0 ≤ oscFactor α Δ := le_min (Real.exp_pos _).le (sq_nonneg _)

section
variable {ι : Type} [Fintype ι] [DecidableEq ι]

/-- For the proofs: the objective on the fixed points of the post processing, continued by composition. -/
theorem bounded_converges {env : Env ℝ (ι → ℝ)} {f : (ι → ℝ) → ℝ} {ν : ℕ → ℝ → ℕ → ℕ → (ι → ℝ) → ι → ℝ} {p : (ι → ℝ) → ι → ℝ} (hE : Standard env f ν p)
    {rule : (ι → ℝ) → (ι → ℝ) → ι → ℝ} {β : (ι → ℝ) → ι → ℝ} {κ : ℝ} (hr : RuleCoeff rule β κ) (hκ : 0 ≤ κ) (hβ : Measurable β) {m : ℕ} {s : St ℝ (ι → ℝ)}
    (hs : MsOK m s.N s.lamda s.dt s.sigma s) (hdt : 0 ≤ s.dt) (hnb : s.batched = false) (hα : 0 ≤ s.alpha m) (hf : Measurable f) (hp : Shrinks p) (hpp : ∀ v, p (p v) = p v)
    (hx : ∀ n < s.N, p (s.x.get m n) = s.x.get m n) {Δ : ℝ} (hΔ : ∀ u v, p u = u → p v = v → f u - f v ≤ Δ)
    {Ω : Type} [MeasurableSpace Ω] (P : Measure Ω) [IsProbabilityMeasure P] (Z : ℕ → Ω → Fin s.M × Fin s.N × ι → ℝ) (hZ : IidNormal P Z)
    {q : ℝ} (hq : q = (1 - s.lamda * s.dt) ^ 2 + (1 - 1 / (s.N : ℝ)) * (1 + oscFactor (s.alpha m) Δ) * κ * s.sigma ^ 2 * s.dt) :
    (∃ σ : Ω → ℕ → St ℝ (ι → ℝ), (∀ ω k, path env rule s.M s.N (fun j => Z j ω) s k = .ok (σ ω k)) ∧
      ∀ k, ∫⁻ ω, ENNReal.ofReal (spread (σ ω k).x s.N m) ∂P ≤ ENNReal.ofReal (q ^ k * spread s.x s.N m)) ∧
    ∀ r, 0 < r → r < 1 → q < r ^ 2 → ∀ᵐ ω ∂P, ∃ (T : ℝ) (v : ι → ℝ) (σ : ℕ → St ℝ (ι → ℝ)), p v = v ∧ (∀ k, path env rule s.M s.N (fun j => Z j ω) s k = .ok (σ k)) ∧
      (∀ k, ∀ n < s.N, ∀ l, |(σ k).x.get m n l - v l| ≤ T * r ^ k) ∧
      ∀ k, ∃ i cm, s.active.getD i 0 = m ∧ (σ (k + 1)).cons = some cm ∧ ∀ l, |cm.get i 0 l - v l| ≤ T * r ^ k := by
  have hN : 0 < s.N := by have := hs.wf.pos; omega
  have hN' : (0 : ℝ) < s.N := by exact_mod_cast hN
  have hg : Measurable fun v => f (p v) := hf.comp (shrinks_measurable hp)
  have hgf : ∀ v, p v = v → f (p v) = f v := fun v hv => by rw [hv]
  have hB0 : 0 ≤ (1 + oscFactor (s.alpha m) Δ) / (2 * s.N) := div_nonneg (by have := oscFactor_nonneg (s.alpha m) Δ; linarith) (by positivity)
  have hB : ∀ y, distTo (oneRow y) s.N 0 (rowCons (fun v => f (p v)) (s.alpha m) (List.range s.N) y) ≤ (1 + oscFactor (s.alpha m) Δ) / (2 * s.N) * spread (oneRow y) s.N 0 :=
    fun y => bounded_dist hα (fun u v => hΔ _ _ (hpp u) (hpp v)) hN y
  have hq' : q = (1 - s.lamda * s.dt) ^ 2 + 2 * ((s.N : ℝ) - 1) * ((1 + oscFactor (s.alpha m) Δ) / (2 * s.N)) * κ * s.sigma ^ 2 * s.dt := by
    rw [hq]
    field_simp
  refine ⟨?_, fun r hr0 hr1 hqr => ?_⟩
  · obtain ⟨i, J, hmi, hJ, hJN, hJR, hpath⟩ := path_rows hE hr hs
    choose σ h1 h2 h3 using fun ω => hpath fun j => Z j ω
    refine ⟨σ, h1, fun k => ?_⟩
    have key := row_mean (f := fun v => f (p v)) (α := s.alpha m) (J := J) hp hr hκ hdt hN i (s.x.get m) hZ hg hβ hB0 (fun k y => by rw [hJR hnb k]; exact hB y) hq' k
    have e : ∀ ω, spread (σ ω k).x s.N m = spread (oneRow (recur (fun k => rowNext (fun v => f (p v)) p β (s.alpha m) s.lamda s.dt s.sigma i (J k)) (s.x.get m) (fun j => Z j ω) k)) s.N 0 := by
      intro ω
      unfold spread
      refine Finset.sum_congr rfl fun n hn => Finset.sum_congr rfl fun n' hn' => Finset.sum_congr rfl fun l _ => ?_
      rw [h2 ω k n (Finset.mem_range.1 hn), h2 ω k n' (Finset.mem_range.1 hn'), (recur_fix i hJN hpp hgf hx (fun j => Z j ω) k n (Finset.mem_range.1 hn)).2,
        (recur_fix i hJN hpp hgf hx (fun j => Z j ω) k n' (Finset.mem_range.1 hn')).2]
      rfl
    simp only [e]
    exact key
  · exact as_converges hE hr hκ hβ hs hdt hg (fun i J hJN z k n hn => (recur_fix i hJN hpp hgf hx z k n hn).2) hp hpp P Z hZ hB0 (fun J _ _ h y => by rw [h hnb]; exact hB y) hq' hr0 hr1 hqr

variable (env : Env ℝ (ι → ℝ)) (f : (ι → ℝ) → ℝ) (ν : ℕ → ℝ → ℕ → ℕ → (ι → ℝ) → ι → ℝ) (p : (ι → ℝ) → ι → ℝ) (hE : Standard env f ν p)
  (a : Args ℝ (ι → ℝ)) (hb : a.batchSize ≠ some 0) (s₀ s : St ℝ (ι → ℝ)) (ops : List Op) (h0 : init env a = .ok s₀)
  (h : execAll env (cboInner env) ops s₀ = .ok s) (m : ℕ) (hm : m ∈ s.active) (hnb : s.batched = false) (hsi : s.saveInt ≠ 0) (hdt : 0 ≤ s.dt) (hα : 0 ≤ s.alpha m)
  (hf : Measurable f) (hp : Shrinks p) (hpp : ∀ v, p (p v) = p v) (hx : ∀ n < s.N, p (s.x.get m n) = s.x.get m n) (Δ : ℝ) (hΔ : ∀ u v, p u = u → p v = v → f u - f v ≤ Δ)
  {Ω : Type} [MeasurableSpace Ω] (P : Measure Ω) [IsProbabilityMeasure P] (Z : ℕ → Ω → Fin s.M × Fin s.N × ι → ℝ) (hZ : IidNormal P Z)

include hE hb h0 h hm hnb hsi hdt hα hf hp hpp hx hΔ hZ

/-- **C110, isotropic noise.** From every reachable state without batches whose particles are left alone by the post processing, for every measurable objective whose values at such points differ by at
most `Δ`, every `alpha ≥ 0` and all independent standard normal numbers, with `q = (1 - lamda·dt)² + (1 - 1/N)·(1 + oscFactor alpha Δ)·d·sigma²·dt`: no step of the infinite execution raises, the mean of
the spread after `k` steps is at most `q^k` times the spread now, and if `q < r² < 1` then almost surely all particles of the run and its consensus points converge to one point with rate `r`. -/
theorem C110_isotropic (q : ℝ) (hq : q = (1 - s.lamda * s.dt) ^ 2 + (1 - 1 / (s.N : ℝ)) * (1 + oscFactor (s.alpha m) Δ) * Fintype.card ι * s.sigma ^ 2 * s.dt) :
    (∃ σ : Ω → ℕ → St ℝ (ι → ℝ), (∀ ω k, path env isoRule s.M s.N (fun j => Z j ω) s k = .ok (σ ω k)) ∧
      ∀ k, ∫⁻ ω, ENNReal.ofReal (spread (σ ω k).x s.N m) ∂P ≤ ENNReal.ofReal (q ^ k * spread s.x s.N m)) ∧
    ∀ r, 0 < r → r < 1 → q < r ^ 2 → ∀ᵐ ω ∂P, ∃ (T : ℝ) (v : ι → ℝ) (σ : ℕ → St ℝ (ι → ℝ)), p v = v ∧ (∀ k, path env isoRule s.M s.N (fun j => Z j ω) s k = .ok (σ k)) ∧
      (∀ k, ∀ n < s.N, ∀ l, |(σ k).x.get m n l - v l| ≤ T * r ^ k) ∧
      ∀ k, ∃ i cm, s.active.getD i 0 = m ∧ (σ (k + 1)).cons = some cm ∧ ∀ l, |cm.get i 0 l - v l| ≤ T * r ^ k := by
  refine bounded_converges hE iso_coeff (Nat.cast_nonneg _) (measurable_pi_lambda _ fun l => ?_) (ms_reach env f ν p hE a hb s₀ s ops h0 h m hm (Or.inl hnb) hsi) hdt hnb hα hf hp hpp hx hΔ P Z hZ hq
  exact Real.continuous_sqrt.measurable.comp (Finset.measurable_sum _ fun l _ => (measurable_pi_apply l).pow_const 2)

/-- **C110, anisotropic noise.** The same with `q = (1 - lamda·dt)² + (1 - 1/N)·(1 + oscFactor alpha Δ)·sigma²·dt`, in every dimension. -/
theorem C110_anisotropic (q : ℝ) (hq : q = (1 - s.lamda * s.dt) ^ 2 + (1 - 1 / (s.N : ℝ)) * (1 + oscFactor (s.alpha m) Δ) * s.sigma ^ 2 * s.dt) :
    (∃ σ : Ω → ℕ → St ℝ (ι → ℝ), (∀ ω k, path env anisoRule s.M s.N (fun j => Z j ω) s k = .ok (σ ω k)) ∧
      ∀ k, ∫⁻ ω, ENNReal.ofReal (spread (σ ω k).x s.N m) ∂P ≤ ENNReal.ofReal (q ^ k * spread s.x s.N m)) ∧
    ∀ r, 0 < r → r < 1 → q < r ^ 2 → ∀ᵐ ω ∂P, ∃ (T : ℝ) (v : ι → ℝ) (σ : ℕ → St ℝ (ι → ℝ)), p v = v ∧ (∀ k, path env anisoRule s.M s.N (fun j => Z j ω) s k = .ok (σ k)) ∧
      (∀ k, ∀ n < s.N, ∀ l, |(σ k).x.get m n l - v l| ≤ T * r ^ k) ∧
      ∀ k, ∃ i cm, s.active.getD i 0 = m ∧ (σ (k + 1)).cons = some cm ∧ ∀ l, |cm.get i 0 l - v l| ≤ T * r ^ k :=
  bounded_converges hE aniso_coeff zero_le_one measurable_id (ms_reach env f ν p hE a hb s₀ s ops h0 h m hm (Or.inl hnb) hsi) hdt hnb hα hf hp hpp hx hΔ P Z hZ (by rw [hq]; ring)

end

/-- The wavy objective `cos(x₀)/6`. -/
noncomputable def Example.waveEnv : Env ℝ (Fin 2 → ℝ) := { Example.realEnv (rowNoise isoRule Example.smp) with f := fun v => .fin (Real.cos (v 0) / 6) }

/-- Two runs of a thousand particles. -/
noncomputable def Example.waveArgs : Args ℝ (Fin 2 → ℝ) := { Example.realArgs (fun m n => ![n, m]) (1 / 2) none with x0 := ⟨2, 1000, fun m n => ![n / 10, m]⟩ }

/-- C110: two runs of a thousand particles on the plane with clipping at 100, `lamda = 1`, `dt = 1/10`, `sigma = 1/2`, `alpha = 3`, the objective `cos(x₀)/6`: the particles of run 1 converge almost surely. -/
example : ∃ s₀, init Example.waveEnv Example.waveArgs = .ok s₀ ∧
      ∃ P : Measure (ℕ → Fin s₀.M × Fin s₀.N × Fin 2 → ℝ), IsProbabilityMeasure P ∧
        ∀ᵐ ω ∂P, ∃ (v : Fin 2 → ℝ) (σ : ℕ → St ℝ (Fin 2 → ℝ)), (∀ k, path Example.waveEnv isoRule s₀.M s₀.N ω s₀ k = .ok (σ k)) ∧
          ∀ n < 1000, ∀ l, Tendsto (fun k => (σ k).x.get 1 n l) atTop (𝓝 (v l)) := by
  have hclip : ∀ v : Fin 2 → ℝ, clipVec 100 (clipVec 100 v) = clipVec 100 v := fun v => by
    funext l
    simp only [clipVec]
    have h1 : -(100 : ℝ) ≤ min (max (v l) (-100)) 100 := le_min (le_max_right _ _) (by norm_num)
    rw [max_eq_left h1, min_eq_left (min_le_right _ _)]
  have hS : Standard Example.waveEnv (fun v => Real.cos (v 0) / 6) (fun c dt i j d => Real.sqrt dt • isoRule d (Example.smp c i j)) (clipVec 100) :=
    ⟨rfl, rfl, (Example.realEnv_standard isoRule).noise, fun _ => rfl, Example.perm_ok (rowNoise isoRule Example.smp), fun _ => rfl⟩
  have h0 : ∃ s₀, init Example.waveEnv Example.waveArgs = .ok s₀ := by
    unfold init
    rw [if_neg (by simp [Example.waveArgs, Example.realArgs])]
    exact ⟨_, rfl⟩
  obtain ⟨s₀, h0⟩ := h0
  have e0 : s₀.active = [0, 1] ∧ s₀.batched = false ∧ s₀.saveInt = 2 ∧ s₀.lamda = 1 ∧ s₀.dt = 1 / 10 ∧ s₀.sigma = 1 / 2 ∧ s₀.N = 1000 ∧ s₀.alpha 1 = 3 ∧ s₀.x.get 1 = fun n : ℕ => ![(n : ℝ) / 10, ((1 : ℕ) : ℝ)] := by
    have h0' := h0
    unfold init at h0'
    rw [if_neg (by simp [Example.waveArgs, Example.realArgs])] at h0'
    injection h0' with h0'
    rw [← h0']
    exact ⟨rfl, rfl, rfl, rfl, rfl, rfl, rfl, rfl, rfl⟩
  obtain ⟨b1, b2, b3, b4, b5, b6, b7, b8, b9⟩ := e0
  obtain ⟨P, hP, hZ⟩ := iidNormal_exists (Fin s₀.M × Fin s₀.N × Fin 2)
  refine ⟨s₀, h0, P, hP, ?_⟩
  have hm : Measurable fun v : Fin 2 → ℝ => Real.cos (v 0) / 6 := (Real.measurable_cos.comp (measurable_pi_apply 0)).div_const 6
  have hosc : oscFactor 3 (1 / 3) < 2.7182818286 := (min_le_left _ _).trans_lt (by norm_num; have := Real.exp_one_lt_d9; norm_num at this; exact this)
  have key := (C110_isotropic Example.waveEnv _ _ _ hS _ (by simp [Example.waveArgs, Example.realArgs]) s₀ s₀ [] h0 rfl 1 (by rw [b1]; simp) b2 (by rw [b3]; decide) (by rw [b5]; norm_num)
    (by rw [b8]; norm_num) hm (clip_shrinks 100) hclip (fun n hn => by
      rw [b7] at hn
      have hn' : (n : ℝ) ≤ 1000 := by exact_mod_cast hn.le
      rw [b9]
      funext l
      simp only [clipVec]
      have h2 : (0 : ℝ) ≤ (![(n : ℝ) / 10, ((1 : ℕ) : ℝ)] : Fin 2 → ℝ) l ∧ (![(n : ℝ) / 10, ((1 : ℕ) : ℝ)] : Fin 2 → ℝ) l ≤ 100 := by
        fin_cases l
        · exact ⟨by simp; positivity, by simp; linarith⟩
        · exact ⟨by simp, by simp⟩
      rw [max_eq_left (by linarith [h2.1]), min_eq_left h2.2]) (1 / 3) (fun u v _ _ => by
      have h1 := Real.cos_le_one (u 0)
      have h2 := Real.neg_one_le_cos (v 0)
      linarith) P _ hZ _ rfl).2 (999 / 1000) (by norm_num) (by norm_num) (by
      rw [b4, b5, b6, b7, b8, Fintype.card_fin]
      have := oscFactor_nonneg 3 (1 / 3)
      norm_num at hosc this ⊢
      linarith)
  filter_upwards [key] with ω hω
  obtain ⟨T, v, σ, -, h1, h2, -⟩ := hω
  refine ⟨v, σ, h1, fun n hn l => ?_⟩
  rw [tendsto_iff_dist_tendsto_zero]
  refine squeeze_zero (fun _ => dist_nonneg) (fun k => h2 k n (by rw [b7]; exact hn) l) ?_
  have h4 := (tendsto_pow_atTop_nhds_zero_of_lt_one (r := (999 / 1000 : ℝ)) (by norm_num) (by norm_num)).const_mul T
  rwa [mul_zero] at h4

end Verif
