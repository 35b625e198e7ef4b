import Verif.Proofs.Global
import Verif.Props.Bounded

/-! Property C111: the value of the objective at the point to which the particles converge. -/

set_option linter.unusedSectionVars false

namespace Verif

open MeasureTheory ProbabilityTheory Filter
open scoped ENNReal Topology

section
variable {ι : Type} [Fintype ι] [DecidableEq ι]

/-- **Specification.** Influence of the noise on the spread of `N` particles: the constant `N - 1` of C82, or the one of C110 if the objective is bounded on the points respected by the post processing. -/
def NoiseConst (f : (ι → ℝ) → ℝ) (p : (ι → ℝ) → ι → ℝ) (α : ℝ) (N : ℕ) (x : ℕ → ι → ℝ) (θ : ℝ) : Prop :=
  θ = N - 1 ∨ ∃ Δ, θ = (1 - 1 / (N : ℝ)) * (1 + oscFactor α Δ) ∧ (∀ u v, p u = u → p v = v → f u - f v ≤ Δ) ∧ ∀ n < N, p (x n) = x n

theorem limit_value {env : Env ℝ (ι → ℝ)} {f : (ι → ℝ) → ℝ} {ν : ℕ → ℝ → ℕ → ℕ → (ι → ℝ) → ι → ℝ} {p : (ι → ℝ) → ι → ℝ} (hE : Standard env f ν p)
    {rule : (ι → ℝ) → (ι → ℝ) → ι → ℝ} {β : (ι → ℝ) → ι → ℝ} {κ : ℝ} (hr : RuleCoeff rule β κ) (hκ : 0 ≤ κ) (hβ : Measurable β) {m : ℕ} {s : St ℝ (ι → ℝ)}
    (hs : MsOK m s.N s.lamda s.dt s.sigma s) (hla : 0 ≤ s.lamda) (hdt : 0 ≤ s.dt) (hnb : s.batched = false) (hα : 0 ≤ s.alpha m) (hp : Shrinks p) (hpp : ∀ v, p (p v) = p v)
    {G : (ι → ℝ) → ι → ℝ} {L L' b : ℝ} (hC : Curved f G L L') (hL : 0 ≤ L) (hL' : 0 ≤ L') (hb : ∀ x, b ≤ f x) (hfp : ∀ v, f (p v) ≤ f v)
    {Ω : Type} [MeasurableSpace Ω] (P : Measure Ω) [IsProbabilityMeasure P] (Z : ℕ → Ω → Fin s.M × Fin s.N × ι → ℝ) (hZ : IidNormal P Z)
    {θ q : ℝ} (hθ : NoiseConst f p (s.alpha m) s.N (s.x.get m) θ) (hq : q = (1 - s.lamda * s.dt) ^ 2 + θ * κ * s.sigma ^ 2 * s.dt) (hq1 : q < 1) :
    ∃ v : Ω → ι → ℝ, Measurable v ∧
      (∀ᵐ ω ∂P, p (v ω) = v ω ∧ ∃ σ : ℕ → St ℝ (ι → ℝ), (∀ k, path env rule s.M s.N (fun j => Z j ω) s k = .ok (σ k)) ∧ ∀ n < s.N, Tendsto (fun k => (σ k).x.get m n) atTop (𝓝 (v ω))) ∧
      ∀ w, w = (1 / (s.N : ℝ)) * ∑ n ∈ Finset.range s.N, Real.exp (-(s.alpha m * (f (s.x.get m n) - b))) -
          s.alpha m * (s.lamda * s.dt * L' + L / 2 * ((s.lamda * s.dt) ^ 2 + κ * s.sigma ^ 2 * s.dt)) * (spread s.x s.N m / (2 * (s.N : ℝ) ^ 2)) / (1 - q) →
        w ≤ ∫ ω, Real.exp (-(s.alpha m * (f (v ω) - b))) ∂P ∧ ∀ t, w - Real.exp (-(s.alpha m * t)) ≤ P.real {ω | f (v ω) ≤ b + t} := by
  have hN : 0 < s.N := by have := hs.wf.pos; omega
  have hN' : (0 : ℝ) < s.N := by exact_mod_cast hN
  have hf : Measurable f := hC.continuous.measurable
  have hos : ∀ a Δ, 0 ≤ oscFactor a Δ := oscFactor_nonneg
  have hN1 : (1 : ℝ) ≤ s.N := by exact_mod_cast hN
  have hθ0 : 0 ≤ θ := by
    rcases hθ with h | ⟨Δ, h, -⟩
    · rw [h]; linarith
    · rw [h]
      have h1 : 1 / (s.N : ℝ) ≤ 1 := by rw [div_le_one hN']; exact hN1
      exact mul_nonneg (by linarith) (by have := hos (s.alpha m) Δ; linarith)
  have hq0 : 0 ≤ q := by rw [hq]; positivity
  obtain ⟨i, J, hmi, hJ, hJN, hJR, hpath⟩ := path_rows hE hr hs
  obtain rfl : J = fun _ => List.range s.N := funext (hJR hnb)
  have hg : Measurable fun v => f (p v) := hf.comp (shrinks_measurable hp)
  obtain ⟨r, hr0, hr1, hqr⟩ : ∃ r : ℝ, 0 < r ∧ r < 1 ∧ q < r ^ 2 := by
    refine ⟨Real.sqrt ((1 + q) / 2), Real.sqrt_pos.2 (by linarith), ?_, ?_⟩
    · rw [Real.sqrt_lt' one_pos]
      linarith
    · rw [Real.sq_sqrt (by linarith)]
      linarith
  have main : (∀ k, ∫⁻ ω, ENNReal.ofReal (spread (oneRow (recur (fun _ => rowNext f p β (s.alpha m) s.lamda s.dt s.sigma i (List.range s.N)) (s.x.get m) (fun j => Z j ω) k)) s.N 0) ∂P ≤
        ENNReal.ofReal (q ^ k * spread (oneRow (s.x.get m)) s.N 0)) ∧
      ∀ᵐ ω ∂P, ∃ (T : ℝ) (v : ι → ℝ), ∀ k, ∀ n < s.N, ∀ l, |recur (fun _ => rowNext f p β (s.alpha m) s.lamda s.dt s.sigma i (List.range s.N)) (s.x.get m) (fun j => Z j ω) k n l - v l| ≤ T * r ^ k := by
    rcases hθ with h | ⟨Δ, h, hΔ, hx⟩
    · have hq' : q = (1 - s.lamda * s.dt) ^ 2 + 2 * ((s.N : ℝ) - 1) * (1 / 2) * κ * s.sigma ^ 2 * s.dt := by rw [hq, h]; ring
      have hB := fun (_ : ℕ) y => half_hull (f := f) (α := s.alpha m) (N := s.N) (hJ 0) (hJN 0) y
      exact ⟨row_mean (J := fun _ => List.range s.N) hp hr hκ hdt hN i _ hZ hf hβ (by norm_num) hB hq',
        row_converges (J := fun _ => List.range s.N) hp hr hκ hdt hN i _ hZ hf hβ hpp (by norm_num) hB hq' hr0 hr1 hqr⟩
    · have hB0 : 0 ≤ (1 + oscFactor (s.alpha m) Δ) / (2 * s.N) := div_nonneg (by have := hos (s.alpha m) Δ; linarith) (by positivity)
      have hB : ∀ (_ : ℕ) y, distTo (oneRow y) s.N 0 (rowCons (fun v => f (p v)) (s.alpha m) (List.range s.N) y) ≤ (1 + oscFactor (s.alpha m) Δ) / (2 * s.N) * spread (oneRow y) s.N 0 :=
        fun _ y => bounded_dist hα (fun u v => hΔ _ _ (hpp u) (hpp v)) hN y
      have hq' : q = (1 - s.lamda * s.dt) ^ 2 + 2 * ((s.N : ℝ) - 1) * ((1 + oscFactor (s.alpha m) Δ) / (2 * s.N)) * κ * s.sigma ^ 2 * s.dt := by
        rw [hq, h]
        field_simp
      have hfix : ∀ z k, ∀ n < s.N, _ := fun z k n hn => (recur_fix (f := f) (g := fun v => f (p v)) (β := β) (α := s.alpha m) (lamda := s.lamda) (dt := s.dt) (sigma := s.sigma) i hJN hpp
        (fun v hv => by rw [hv]) hx z k n hn).2
      refine ⟨fun k => ?_, ?_⟩
      · refine le_trans (le_of_eq (lintegral_congr fun ω => ?_)) (row_mean (f := fun v => f (p v)) (J := fun _ => List.range s.N) hp hr hκ hdt hN i _ hZ hg hβ hB0 hB hq' k)
        congr 1
        unfold spread oneRow
        refine Finset.sum_congr rfl fun n hn => Finset.sum_congr rfl fun n' hn' => Finset.sum_congr rfl fun l _ => ?_
        simp only [hfix (fun j => Z j ω) k n (Finset.mem_range.1 hn), hfix (fun j => Z j ω) k n' (Finset.mem_range.1 hn')]
      · filter_upwards [row_converges (f := fun v => f (p v)) (J := fun _ => List.range s.N) hp hr hκ hdt hN i (s.x.get m) hZ hg hβ hpp hB0 hB hq' hr0 hr1 hqr] with ω ⟨T, v, h⟩
        exact ⟨T, v, fun k n hn l => by rw [hfix (fun j => Z j ω) k n hn]; exact h k n hn l⟩
  obtain ⟨v, mv, hv, hw⟩ := row_limit hC hL hL' hfp hr hκ hα hb hla hdt hN i (s.x.get m) hZ (shrinks_measurable hp) hβ hq0 hq1 main.1 (main.2.mono fun ω ⟨T, v, h⟩ => ⟨v, fun n hn => by
    refine tendsto_pi_nhds.2 fun l => ?_
    rw [tendsto_iff_dist_tendsto_zero]
    refine squeeze_zero (fun _ => dist_nonneg) (fun k => h k n hn l) ?_
    have h4 := (tendsto_pow_atTop_nhds_zero_of_lt_one hr0.le hr1).const_mul T
    rwa [mul_zero] at h4⟩)
  refine ⟨v, mv, ?_, fun w hwe => ?_⟩
  · filter_upwards [hv] with ω h
    obtain ⟨σ, h1, h2, -⟩ := hpath fun j => Z j ω
    refine ⟨?_, σ, h1, fun n hn => (h n hn).congr fun k => (h2 k n hn).symm⟩
    have hpc : Continuous p := by
      refine continuous_pi fun l => LipschitzWith.continuous (K := 1) (LipschitzWith.of_dist_le_mul fun u v => ?_)
      rw [NNReal.coe_one, one_mul, Real.dist_eq]
      exact (sq_le_sq.1 (hp u v l)).trans ((Real.dist_eq _ _).symm.le.trans (dist_le_pi_dist u v l))
    have h3 := (h 0 hN).comp (tendsto_add_atTop_nat 1)
    refine tendsto_nhds_unique ((hpc.tendsto _).comp h3) (h3.congr fun k => ?_)
    simp only [Function.comp_def, recur, rowNext, hpp]
  · have hint : w ≤ ∫ ω, Real.exp (-(s.alpha m * (f (v ω) - b))) ∂P := hwe.trans_le hw
    refine ⟨hint, fun t => ?_⟩
    have hA : MeasurableSet {ω | f (v ω) ≤ b + t} := measurableSet_le (hf.comp mv) measurable_const
    have hwi : Integrable (fun ω => Real.exp (-(s.alpha m * (f (v ω) - b)))) P := by
      refine Integrable.of_bound ((wt_measurable hf (s.alpha m) b).comp mv).aestronglyMeasurable 1 (Filter.Eventually.of_forall fun ω => ?_)
      rw [Real.norm_eq_abs, abs_of_pos (Real.exp_pos _)]
      exact wt_le_one hα hb _
    have hle : ∫ ω, Real.exp (-(s.alpha m * (f (v ω) - b))) ∂P ≤ ∫ ω, ({ω | f (v ω) ≤ b + t}.indicator (fun _ => (1 : ℝ)) ω + Real.exp (-(s.alpha m * t))) ∂P := by
      refine integral_mono hwi (((integrable_const 1).indicator hA).add (integrable_const _)) fun ω => ?_
      by_cases h : f (v ω) ≤ b + t
      · have h1 := wt_le_one hα hb (v ω)
        have h2 := Real.exp_pos (-(s.alpha m * t))
        simp only [Set.indicator, Set.mem_setOf_eq, if_pos h]
        simp only [wt] at h1
        linarith
      · simp only [Set.indicator, Set.mem_setOf_eq, if_neg h, zero_add]
        refine Real.exp_le_exp.2 ?_
        have := mul_le_mul_of_nonneg_left (show t ≤ f (v ω) - b by linarith) hα
        linarith
    rw [integral_add ((integrable_const 1).indicator hA) (integrable_const _), integral_indicator_const _ hA] at hle
    simp only [smul_eq_mul, mul_one, integral_const, probReal_univ, one_mul] at hle
    linarith

variable (env : Env ℝ (ι → ℝ)) (f : (ι → ℝ) → ℝ) (ν : ℕ → ℝ → ℕ → ℕ → (ι → ℝ) → ι → ℝ) (p : (ι → ℝ) → ι → ℝ) (hE : Standard env f ν p)
  (a : Args ℝ (ι → ℝ)) (ha : a.batchSize ≠ some 0) (s₀ s : St ℝ (ι → ℝ)) (ops : List Op) (h0 : init env a = .ok s₀)
  (h : execAll env (cboInner env) ops s₀ = .ok s) (m : ℕ) (hm : m ∈ s.active) (hnb : s.batched = false) (hsi : s.saveInt ≠ 0) (hla : 0 ≤ s.lamda) (hdt : 0 ≤ s.dt) (hα : 0 ≤ s.alpha m)
  (hp : Shrinks p) (hpp : ∀ v, p (p v) = p v) (G : (ι → ℝ) → ι → ℝ) (L L' b : ℝ) (hC : Curved f G L L') (hL : 0 ≤ L) (hL' : 0 ≤ L') (hb : ∀ x, b ≤ f x) (hfp : ∀ v, f (p v) ≤ f v)
  {Ω : Type} [MeasurableSpace Ω] (P : Measure Ω) [IsProbabilityMeasure P] (Z : ℕ → Ω → Fin s.M × Fin s.N × ι → ℝ) (hZ : IidNormal P Z)
  (θ : ℝ) (hθ : NoiseConst f p (s.alpha m) s.N (s.x.get m) θ)

include hE ha h0 h hm hnb hsi hla hdt hα hp hpp hC hL hL' hb hfp hZ hθ

/-- **C111, isotropic noise.** From every reachable state without batches, for every objective `f ≥ b` between parabolas of curvature `-L'` and `L` that the post processing does not increase, and all
independent standard normal numbers: if `q = (1 - lamda·dt)² + θ·d·sigma²·dt < 1`, then almost surely all particles of the run converge to a common random point `v`, respected by the post processing, and
the mean of `exp(-alpha·(f(v) - b))` is at least its average over the present particles minus `alpha·(lamda·dt·L' + L/2·((lamda·dt)² + d·sigma²·dt))·Var/(1 - q)`, where `Var` is the variance of the present
particles. Calling this number `w`, `f(v) ≤ b + t` holds with probability at least `w - exp(-alpha·t)`. -/
theorem C111_isotropic (q : ℝ) (hq : q = (1 - s.lamda * s.dt) ^ 2 + θ * Fintype.card ι * s.sigma ^ 2 * s.dt) (hq1 : q < 1) :
    ∃ v : Ω → ι → ℝ, Measurable v ∧
      (∀ᵐ ω ∂P, p (v ω) = v ω ∧ ∃ σ : ℕ → St ℝ (ι → ℝ), (∀ k, path env isoRule s.M s.N (fun j => Z j ω) s k = .ok (σ k)) ∧ ∀ n < s.N, Tendsto (fun k => (σ k).x.get m n) atTop (𝓝 (v ω))) ∧
      ∀ w, w = (1 / (s.N : ℝ)) * ∑ n ∈ Finset.range s.N, Real.exp (-(s.alpha m * (f (s.x.get m n) - b))) -
          s.alpha m * (s.lamda * s.dt * L' + L / 2 * ((s.lamda * s.dt) ^ 2 + Fintype.card ι * s.sigma ^ 2 * s.dt)) * (spread s.x s.N m / (2 * (s.N : ℝ) ^ 2)) / (1 - q) →
        w ≤ ∫ ω, Real.exp (-(s.alpha m * (f (v ω) - b))) ∂P ∧ ∀ t, w - Real.exp (-(s.alpha m * t)) ≤ P.real {ω | f (v ω) ≤ b + t} := by
  refine limit_value hE iso_coeff (Nat.cast_nonneg _) (measurable_pi_lambda _ fun l => ?_) (ms_reach env f ν p hE a ha s₀ s ops h0 h m hm (Or.inl hnb) hsi) hla hdt hnb hα hp hpp hC hL hL' hb hfp P Z hZ hθ hq hq1
  exact Real.continuous_sqrt.measurable.comp (Finset.measurable_sum _ fun l _ => (measurable_pi_apply l).pow_const 2)

/-- **C111, anisotropic noise.** The same with 1 in place of the dimension. -/
theorem C111_anisotropic (q : ℝ) (hq : q = (1 - s.lamda * s.dt) ^ 2 + θ * s.sigma ^ 2 * s.dt) (hq1 : q < 1) :
    ∃ v : Ω → ι → ℝ, Measurable v ∧
      (∀ᵐ ω ∂P, p (v ω) = v ω ∧ ∃ σ : ℕ → St ℝ (ι → ℝ), (∀ k, path env anisoRule s.M s.N (fun j => Z j ω) s k = .ok (σ k)) ∧ ∀ n < s.N, Tendsto (fun k => (σ k).x.get m n) atTop (𝓝 (v ω))) ∧
      ∀ w, w = (1 / (s.N : ℝ)) * ∑ n ∈ Finset.range s.N, Real.exp (-(s.alpha m * (f (s.x.get m n) - b))) -
          s.alpha m * (s.lamda * s.dt * L' + L / 2 * ((s.lamda * s.dt) ^ 2 + s.sigma ^ 2 * s.dt)) * (spread s.x s.N m / (2 * (s.N : ℝ) ^ 2)) / (1 - q) →
        w ≤ ∫ ω, Real.exp (-(s.alpha m * (f (v ω) - b))) ∂P ∧ ∀ t, w - Real.exp (-(s.alpha m * t)) ≤ P.real {ω | f (v ω) ≤ b + t} := by
  obtain ⟨v, h1, h2, h3⟩ := limit_value hE aniso_coeff zero_le_one measurable_id (ms_reach env f ν p hE a ha s₀ s ops h0 h m hm (Or.inl hnb) hsi) hla hdt hnb hα hp hpp hC hL hL' hb hfp P Z hZ hθ
    (q := q) (by rw [hq]; ring) hq1
  exact ⟨v, h1, h2, fun w hw => h3 w (by rw [hw]; ring)⟩

end

/-- C111: two runs of four particles on the plane with clipping at 100, `f = x₀² + x₁²`, `alpha = 3`, `lamda = 1`, `dt = 1/10`, `sigma = 1/2`, particles at `(n/100, m/100)`: with probability at least 9/10
the four particles of run 1 converge to a point with `f ≤ 1`. -/
example : let env := Example.realEnv (rowNoise isoRule Example.smp)
    ∃ s₀, init env (Example.realArgs (fun m n => ![n / 100, m / 100]) (1 / 2) none) = .ok s₀ ∧
      ∃ P : Measure (ℕ → Fin s₀.M × Fin s₀.N × Fin 2 → ℝ), IsProbabilityMeasure P ∧ ∃ v : (ℕ → Fin s₀.M × Fin s₀.N × Fin 2 → ℝ) → Fin 2 → ℝ,
        (∀ᵐ ω ∂P, ∃ σ : ℕ → St ℝ (Fin 2 → ℝ), (∀ k, path env isoRule s₀.M s₀.N ω s₀ k = .ok (σ k)) ∧ ∀ n < 4, Tendsto (fun k => (σ k).x.get 1 n) atTop (𝓝 (v ω))) ∧
        9 / 10 ≤ P.real {ω | v ω 0 ^ 2 + v ω 1 ^ 2 ≤ 1} := by
  intro env
  obtain ⟨s₀, h0, -⟩ := Example.realEnv_runs isoRule (fun m n => ![(n : ℝ) / 100, m / 100]) (1 / 2) none
  have e0 : s₀.active = [0, 1] ∧ s₀.batched = false ∧ s₀.saveInt = 2 ∧ s₀.lamda = 1 ∧ s₀.dt = 1 / 10 ∧ s₀.sigma = 1 / 2 ∧ s₀.N = 4 ∧ s₀.alpha 1 = 3 ∧
      s₀.x.get = fun m n : ℕ => ![(n : ℝ) / 100, (m : ℝ) / 100] := by
    have h0' := h0
    unfold init at h0'
    rw [if_neg (by simp [Example.realArgs])] at h0'
    injection h0' with h0'
    rw [← h0']
    exact ⟨rfl, rfl, rfl, rfl, rfl, rfl, rfl, rfl, rfl⟩
  obtain ⟨b1, b2, b3, b4, b5, b6, b7, b8, b9⟩ := e0
  obtain ⟨P, hP, hZ⟩ := iidNormal_exists (Fin s₀.M × Fin s₀.N × Fin 2)
  refine ⟨s₀, h0, P, hP, ?_⟩
  have hclip : ∀ v : Fin 2 → ℝ, clipVec 100 (clipVec 100 v) = clipVec 100 v := fun v => by
    funext l
    simp only [clipVec]
    have h1 : -(100 : ℝ) ≤ min (max (v l) (-100)) 100 := le_min (le_max_right _ _) (by norm_num)
    rw [max_eq_left h1, min_eq_left (min_le_right _ _)]
  have hsq : ∀ t : ℝ, (min (max t (-100)) 100) ^ 2 ≤ t ^ 2 := by
    intro t
    rw [sq_le_sq]
    rcases le_total t (-100) with h | h
    · rw [max_eq_right h, min_eq_left (by norm_num), abs_of_nonpos (by norm_num : (-100 : ℝ) ≤ 0), abs_of_nonpos (by linarith)]
      linarith
    · rw [max_eq_left h]
      rcases le_total t 100 with h' | h'
      · rw [min_eq_left h']
      · rw [min_eq_right h', abs_of_nonneg (by norm_num), abs_of_nonneg (by linarith)]
        exact h'
  have hC : Curved (fun v : Fin 2 → ℝ => v 0 ^ 2 + v 1 ^ 2) (fun v l => 2 * v l) 2 0 :=
    ⟨fun x y => by simp only [Fin.sum_univ_two]; nlinarith, fun x y => by simp only [Fin.sum_univ_two]; nlinarith [sq_nonneg (y 0 - x 0), sq_nonneg (y 1 - x 1)]⟩
  obtain ⟨v, -, h1, h2⟩ := C111_isotropic env _ _ _ (Example.realEnv_standard isoRule) _ (by simp [Example.realArgs]) s₀ s₀ [] h0 rfl 1 (by rw [b1]; simp) b2 (by rw [b3]; decide) (by rw [b4]; norm_num)
    (by rw [b5]; norm_num) (by rw [b8]; norm_num) (clip_shrinks 100) hclip _ 2 0 0 hC (by norm_num) le_rfl (fun x => by positivity)
    (fun v => add_le_add (hsq (v 0)) (hsq (v 1))) P _ hZ _ (Or.inl rfl) _ rfl (by rw [b4, b5, b6, b7, Fintype.card_fin]; norm_num)
  refine ⟨v, h1.mono fun ω ⟨_, σ, h3, h4⟩ => ⟨σ, h3, fun n hn => h4 n (by rw [b7]; exact hn)⟩, ?_⟩
  have h5 := (h2 _ rfl).2 1
  simp only [spread, b4, b5, b6, b7, b8, b9, Fintype.card_fin, zero_add] at h5
  refine le_trans ?_ h5
  have hx : ∀ t : ℝ, 1 - t ≤ Real.exp (-t) := fun t => by have := Real.add_one_le_exp (-t); linarith
  have hexp : Real.exp (-(3 * 1)) ≤ 1 / 15 := by
    rw [Real.exp_neg, ← one_div]
    refine one_div_le_one_div_of_le (by norm_num) ?_
    have h6 : Real.exp (3 * 1) = Real.exp 1 ^ 3 := by rw [← Real.exp_nat_mul]; norm_num
    rw [h6]
    have h7 := Real.exp_one_gt_d9
    have h8 : (2.7 : ℝ) ^ 3 ≤ Real.exp 1 ^ 3 := pow_le_pow_left₀ (by norm_num) (by linarith) 3
    norm_num at h8 ⊢
    linarith
  have hs4 : ∀ n < 4, 1 - 3 * (1 / 1000) ≤ Real.exp (-(3 * ((((n : ℕ) : ℝ) / 100) ^ 2 + (1 / 100) ^ 2 - 0))) := by
    intro n hn
    refine le_trans ?_ (hx _)
    have : (n : ℝ) ≤ 3 := by exact_mod_cast Nat.lt_succ_iff.1 hn
    have h9 : ((n : ℝ) / 100) ^ 2 ≤ (3 / 100) ^ 2 := pow_le_pow_left₀ (by positivity) (by linarith) 2
    linarith
  have a0 := hs4 0 (by norm_num)
  have a1 := hs4 1 (by norm_num)
  have a2 := hs4 2 (by norm_num)
  have a3 := hs4 3 (by norm_num)
  simp [Finset.sum_range_succ, Fin.sum_univ_two] at a0 a1 a2 a3 hexp ⊢
  norm_num at a0 a1 a2 a3 hexp ⊢
  linarith

end Verif
