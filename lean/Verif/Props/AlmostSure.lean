import Verif.Proofs.AlmostSure
import Verif.Props.MeanSquare
import Mathlib.Probability.Independence.InfinitePi

/-! Property C82: with weak noise all particles of a run converge almost surely to one common point. -/

set_option linter.unusedSectionVars false

namespace Verif

open MeasureTheory ProbabilityTheory Filter
open scoped ENNReal Topology

section
variable {ι : Type} [Fintype ι] [DecidableEq ι]

theorem as_converges {env : Env ℝ (ι → ℝ)} {f : (ι → ℝ) → ℝ} {ν : ℕ → ℝ → ℕ → ℕ → (ι → ℝ) → ι → ℝ} {p : (ι → ℝ) → ι → ℝ} (hE : Standard env f ν p)
    {rule : (ι → ℝ) → (ι → ℝ) → ι → ℝ} {β : (ι → ℝ) → ι → ℝ} {κ : ℝ} (hr : RuleCoeff rule β κ) (hκ : 0 ≤ κ) (hβ : Measurable β) {m : ℕ} {s : St ℝ (ι → ℝ)}
    (hs : MsOK m s.N s.lamda s.dt s.sigma s) (hdt : 0 ≤ s.dt) {g : (ι → ℝ) → ℝ} (hg : Measurable g)
    (hfg : ∀ (i : Fin s.M) (J : ℕ → List ℕ), (∀ k, ∀ n ∈ J k, n < s.N) → ∀ (z : ℕ → Fin s.M × Fin s.N × ι → ℝ) k, ∀ n < s.N,
      recur (fun k => rowNext f p β (s.alpha m) s.lamda s.dt s.sigma i (J k)) (s.x.get m) z k n = recur (fun k => rowNext g p β (s.alpha m) s.lamda s.dt s.sigma i (J k)) (s.x.get m) z k n)
    (hp : Shrinks p) (hpp : ∀ v, p (p v) = p v)
    {Ω : Type} [MeasurableSpace Ω] (P : Measure Ω) [IsProbabilityMeasure P] (Z : ℕ → Ω → Fin s.M × Fin s.N × ι → ℝ) (hZ : IidNormal P Z)
    {B : ℝ} (hB0 : 0 ≤ B) (hB : ∀ J : List ℕ, J ≠ [] → (∀ n ∈ J, n < s.N) → (s.batched = false → J = List.range s.N) → ∀ y, distTo (oneRow y) s.N 0 (rowCons g (s.alpha m) J y) ≤ B * spread (oneRow y) s.N 0)
    {q r : ℝ} (hq : q = (1 - s.lamda * s.dt) ^ 2 + 2 * ((s.N : ℝ) - 1) * B * κ * s.sigma ^ 2 * s.dt) (hr0 : 0 < r) (hr1 : r < 1) (hqr : q < r ^ 2) :
    ∀ᵐ ω ∂P, ∃ (T : ℝ) (v : ι → ℝ) (σ : ℕ → St ℝ (ι → ℝ)), p v = v ∧ (∀ k, path env rule s.M s.N (fun j => Z j ω) s k = .ok (σ k)) ∧
      (∀ k, ∀ n < s.N, ∀ l, |(σ k).x.get m n l - v l| ≤ T * r ^ k) ∧
      ∀ k, ∃ i cm, s.active.getD i 0 = m ∧ (σ (k + 1)).cons = some cm ∧ ∀ l, |cm.get i 0 l - v l| ≤ T * r ^ k := by
  obtain ⟨i, J, hmi, hJ, hJN, hJR, hpath⟩ := path_rows hE hr hs
  have hN : 0 < s.N := by have := hs.wf.pos; omega
  filter_upwards [row_converges (f := g) (α := s.alpha m) hp hr hκ hdt hN i (s.x.get m) hZ hg hβ hpp hB0 (fun k => hB (J k) (hJ k) (hJN k) fun hnb => hJR hnb k) hq hr0 hr1 hqr] with ω h
  obtain ⟨T, v, h⟩ := h
  obtain ⟨σ, h1, h2, h3⟩ := hpath fun j => Z j ω
  have hx : ∀ k, ∀ n < s.N, ∀ l, |(σ k).x.get m n l - v l| ≤ T * r ^ k := by
    intro k n hn l
    rw [h2 k n hn, hfg i J hJN (fun j => Z j ω) k n hn]
    exact h k n hn l
  refine ⟨T, v, σ, ?_, h1, hx, fun k => ?_⟩
  · funext l
    have ht : Tendsto (fun k => 2 * (T * r ^ (k + 1))) atTop (𝓝 0) := by
      have h4 := ((tendsto_pow_atTop_nhds_zero_of_lt_one hr0.le hr1).comp (tendsto_add_atTop_nat 1)).const_mul (2 * T)
      simp only [Function.comp_def, mul_zero] at h4
      refine h4.congr fun k => by ring
    have hb : ∀ k, |p v l - v l| ≤ 2 * (T * r ^ (k + 1)) := by
      intro k
      have e : p ((σ (k + 1)).x.get m 0) = (σ (k + 1)).x.get m 0 := by
        rw [h2 (k + 1) 0 hN]
        simp only [recur, rowNext, hpp]
      have h5 := sq_le_sq.1 (hp v ((σ (k + 1)).x.get m 0) l)
      rw [e] at h5
      have h6 := hx (k + 1) 0 hN l
      have h7 : |p v l - v l| ≤ |p v l - (σ (k + 1)).x.get m 0 l| + |(σ (k + 1)).x.get m 0 l - v l| := abs_sub_le _ _ _
      rw [abs_sub_comm (v l)] at h5
      linarith
    have h8 : |p v l - v l| ≤ 0 := ge_of_tendsto' ht hb
    have h9 := abs_nonpos_iff.1 h8
    linarith
  · obtain ⟨cm, e1, e2⟩ := h3 k
    refine ⟨i, cm, hmi, e1, ?_⟩
    rw [e2]
    refine rowCons_hull f (s.alpha m) (hJ k) (hJN k) _ {c | ∀ l, |c l - v l| ≤ T * r ^ k} ?_ (fun n hn l => by rw [hfg i J hJN (fun j => Z j ω) k n hn]; exact h k n hn l)
    intro a ha b hb x y hx hy hxy l
    have ha := ha l
    have hb := hb l
    have e : (x • a + y • b) l - v l = x * (a l - v l) + y * (b l - v l) := by
      have : v l = x * v l + y * v l := by rw [← add_mul, hxy, one_mul]
      simp only [Pi.add_apply, Pi.smul_apply, smul_eq_mul]
      linarith
    rw [e]
    calc _ ≤ |x * (a l - v l)| + |y * (b l - v l)| := abs_add_le _ _
      _ = x * |a l - v l| + y * |b l - v l| := by rw [abs_mul, abs_mul, abs_of_nonneg hx, abs_of_nonneg hy]
      _ ≤ x * (T * r ^ k) + y * (T * r ^ k) := add_le_add (mul_le_mul_of_nonneg_left ha hx) (mul_le_mul_of_nonneg_left hb hy)
      _ = _ := by rw [← add_mul, hxy, one_mul]

theorem half_hull {f : (ι → ℝ) → ℝ} {α : ℝ} {N : ℕ} {J : List ℕ} (hJ : J ≠ []) (hJN : ∀ n ∈ J, n < N) (y : ℕ → ι → ℝ) :
    distTo (oneRow y) N 0 (rowCons f α J y) ≤ 1 / 2 * spread (oneRow y) N 0 :=
  (distTo_le _ _ _ _ fun S hS h => rowCons_hull f α hJ hJN y S hS h).trans_eq (by ring)

variable (env : Env ℝ (ι → ℝ)) (f : (ι → ℝ) → ℝ) (ν : ℕ → ℝ → ℕ → ℕ → (ι → ℝ) → ι → ℝ) (p : (ι → ℝ) → ι → ℝ) (hE : Standard env f ν p)
  (a : Args ℝ (ι → ℝ)) (hb : a.batchSize ≠ some 0) (s₀ s : St ℝ (ι → ℝ)) (ops : List Op) (h0 : init env a = .ok s₀)
  (h : execAll env (cboInner env) ops s₀ = .ok s) (m : ℕ) (hm : m ∈ s.active) (hfull : s.batched = false ∨ s.batchPartial = false) (hsi : s.saveInt ≠ 0) (hdt : 0 ≤ s.dt)
  (hf : Measurable f) (hp : Shrinks p) (hpp : ∀ v, p (p v) = p v)
  {Ω : Type} [MeasurableSpace Ω] (P : Measure Ω) [IsProbabilityMeasure P] (Z : ℕ → Ω → Fin s.M × Fin s.N × ι → ℝ) (hZ : IidNormal P Z) (r : ℝ) (hr0 : 0 < r) (hr1 : r < 1)

include hE hb h0 h hm hfull hsi hdt hf hp hpp hZ hr0 hr1

/-- **C82, isotropic noise.** From every reachable state, for every measurable objective, every `alpha` and all independent standard normal numbers: if
`(1 - lamda·dt)² + (N - 1)·d·sigma²·dt < r² < 1`, then almost surely no step of the infinite execution raises, and there is a point `v`, respected by the post processing, to which all particles of
the run and its consensus points converge exponentially fast with rate `r`. -/
theorem C82_isotropic (hq : (1 - s.lamda * s.dt) ^ 2 + ((s.N : ℝ) - 1) * Fintype.card ι * s.sigma ^ 2 * s.dt < r ^ 2) :
    ∀ᵐ ω ∂P, ∃ (T : ℝ) (v : ι → ℝ) (σ : ℕ → St ℝ (ι → ℝ)), p v = v ∧ (∀ k, path env isoRule s.M s.N (fun j => Z j ω) s k = .ok (σ k)) ∧
      (∀ k, ∀ n < s.N, ∀ l, |(σ k).x.get m n l - v l| ≤ T * r ^ k) ∧
      ∀ k, ∃ i cm, s.active.getD i 0 = m ∧ (σ (k + 1)).cons = some cm ∧ ∀ l, |cm.get i 0 l - v l| ≤ T * r ^ k := by
  refine as_converges hE iso_coeff (Nat.cast_nonneg _) (measurable_pi_lambda _ fun l => ?_) (ms_reach env f ν p hE a hb s₀ s ops h0 h m hm hfull hsi) hdt hf (fun _ _ _ _ _ _ _ => rfl) hp hpp P Z hZ (B := 1 / 2) (by norm_num) (fun J h1 h2 _ y => half_hull h1 h2 y) rfl hr0 hr1 (by linarith)
  exact Real.continuous_sqrt.measurable.comp (Finset.measurable_sum _ fun l _ => (measurable_pi_apply l).pow_const 2)

/-- **C82, anisotropic noise.** The same under `(1 - lamda·dt)² + (N - 1)·sigma²·dt < r² < 1`, in every dimension. -/
theorem C82_anisotropic (hq : (1 - s.lamda * s.dt) ^ 2 + ((s.N : ℝ) - 1) * s.sigma ^ 2 * s.dt < r ^ 2) :
    ∀ᵐ ω ∂P, ∃ (T : ℝ) (v : ι → ℝ) (σ : ℕ → St ℝ (ι → ℝ)), p v = v ∧ (∀ k, path env anisoRule s.M s.N (fun j => Z j ω) s k = .ok (σ k)) ∧
      (∀ k, ∀ n < s.N, ∀ l, |(σ k).x.get m n l - v l| ≤ T * r ^ k) ∧
      ∀ k, ∃ i cm, s.active.getD i 0 = m ∧ (σ (k + 1)).cons = some cm ∧ ∀ l, |cm.get i 0 l - v l| ≤ T * r ^ k := by
  refine as_converges hE aniso_coeff zero_le_one measurable_id (ms_reach env f ν p hE a hb s₀ s ops h0 h m hm hfull hsi) hdt hf (fun _ _ _ _ _ _ _ => rfl) hp hpp P Z hZ (B := 1 / 2) (by norm_num) (fun J h1 h2 _ y => half_hull h1 h2 y) rfl hr0 hr1 (by linarith)

end

/-- Independent standard normal numbers exist. -/
theorem iidNormal_exists (κ : Type) [Fintype κ] : ∃ P : Measure (ℕ → κ → ℝ), IsProbabilityMeasure P ∧ IidNormal P fun k ω => ω k := by
  haveI : IsProbabilityMeasure (stdNormal κ) := by unfold stdNormal; infer_instance
  refine ⟨Measure.infinitePi fun _ : ℕ => stdNormal κ, inferInstance, fun k => measurable_pi_apply k, fun k => Measure.infinitePi_map_eval (fun _ : ℕ => stdNormal κ) k, ?_⟩
  exact iIndepFun_infinitePi (P := fun _ : ℕ => stdNormal κ) (X := fun _ ω => ω) fun _ => measurable_id

/-- C82: two runs of four particles on the plane with clipping at 100, `lamda = 1`, `dt = 1/10`, `sigma = 1/2`: the four particles of run 1 converge almost surely with rate 99/100. -/
example : let env := Example.realEnv (rowNoise isoRule Example.smp)
    ∃ s₀, init env (Example.realArgs (fun m n => ![n, m]) (1 / 2) none) = .ok s₀ ∧
      ∃ P : Measure (ℕ → Fin s₀.M × Fin s₀.N × Fin 2 → ℝ), IsProbabilityMeasure P ∧
        ∀ᵐ ω ∂P, ∃ (v : Fin 2 → ℝ) (σ : ℕ → St ℝ (Fin 2 → ℝ)), (∀ k, path env isoRule s₀.M s₀.N ω s₀ k = .ok (σ k)) ∧
          ∀ n < 4, ∀ l, Tendsto (fun k => (σ k).x.get 1 n l) atTop (𝓝 (v l)) := by
  intro env
  obtain ⟨s₀, h0, -⟩ := Example.realEnv_runs isoRule (fun m n => ![(n : ℝ), m]) (1 / 2) none
  have e0 : s₀.active = [0, 1] ∧ s₀.batched = false ∧ s₀.saveInt = 2 ∧ s₀.lamda = 1 ∧ s₀.dt = 1 / 10 ∧ s₀.sigma = 1 / 2 ∧ s₀.N = 4 := by
    have h0' := h0
    unfold init at h0'
    rw [if_neg (by simp [Example.realArgs])] at h0'
    injection h0' with h0'
    rw [← h0']
    exact ⟨rfl, rfl, rfl, rfl, rfl, rfl, rfl⟩
  obtain ⟨b1, b2, b3, b4, b5, b6, b7⟩ := e0
  obtain ⟨P, hP, hZ⟩ := iidNormal_exists (Fin s₀.M × Fin s₀.N × Fin 2)
  refine ⟨s₀, h0, P, hP, ?_⟩
  have hm : Measurable fun v : Fin 2 → ℝ => v 0 ^ 2 + v 1 ^ 2 := ((measurable_pi_apply 0).pow_const 2).add ((measurable_pi_apply 1).pow_const 2)
  have key := C82_isotropic env _ _ _ (Example.realEnv_standard isoRule) _ (by simp [Example.realArgs]) s₀ s₀ [] h0 rfl 1 (by rw [b1]; simp)
    (Or.inl b2) (by rw [b3]; decide) (by rw [b5]; norm_num) hm (clip_shrinks 100) (fun v => by
      funext l
      simp only [clipVec]
      have h1 : -(100 : ℝ) ≤ min (max (v l) (-100)) 100 := le_min (le_max_right _ _) (by norm_num)
      rw [max_eq_left h1, min_eq_left (min_le_right _ _)]) P _ hZ (99 / 100) (by norm_num) (by norm_num) (by rw [b4, b5, b6, b7]; norm_num)
  filter_upwards [key] with ω hω
  obtain ⟨T, v, σ, -, h1, h2, -⟩ := hω
  refine ⟨v, σ, h1, fun n hn l => ?_⟩
  rw [tendsto_iff_dist_tendsto_zero]
  refine squeeze_zero (fun _ => dist_nonneg) (fun k => h2 k n (by rw [b7]; exact hn) l) ?_
  have h4 := (tendsto_pow_atTop_nhds_zero_of_lt_one (r := (99 / 100 : ℝ)) (by norm_num) (by norm_num)).const_mul T
  rwa [mul_zero] at h4

end Verif
