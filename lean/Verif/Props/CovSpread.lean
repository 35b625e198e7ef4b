import Verif.Proofs.CovSpread
import Verif.Props.Moments

/-! # C123: the expected spread of an ensemble with covariance noise (consensus-based sampling) -/

set_option linter.unusedSectionVars false

namespace Verif

open MeasureTheory ProbabilityTheory

section
variable {Ω ι : Type} [MeasurableSpace Ω] {μ : Measure Ω} [IsProbabilityMeasure μ] [Fintype ι] [DecidableEq ι]
  (env : Env ℝ (ι → ℝ)) (f : (ι → ℝ) → ℝ) (eigh : Matrix ι ι ℝ → (ι → ℝ) × Matrix ι ι ℝ) (he : EighOK eigh) (b : Bool) (hcorr : env.corr = .none)
  (hcons : env.cons = .mean consDefault) (hf : ∀ v, env.f v = .fin (f v)) (hpm : PostMap env id) (hp : PermOK env) (a : Args ℝ (ι → ℝ)) (s₀ s : St ℝ (ι → ℝ)) (ops : List Op)
  (h0 : init env a = .ok s₀) (h : execAll env (cboInner env) ops s₀ = .ok s) (hact : s.active = List.range s.M) (hbat : s.batched = false)
  (hdt : ∀ m < s.M, 0 ≤ s.dt * (if b then 1 + s.alpha m else 1))
  (smp : Ω → ℕ → ℕ → ℕ → ι → ℝ) (hz : White μ fun ω => smp ω s.draws) (s' : Ω → St ℝ (ι → ℝ))
  (hs : ∀ ω, step { env with noise := covNoise eigh b (smp ω) } (cboInner { env with noise := covNoise eigh b (smp ω) }) s = .ok (s' ω))

include he hcorr hcons hf hpm hp h0 h hact hbat hdt hz hs

/-- **C123, one step.** CBO with covariance noise (mode 'sampling' for `b = true`) in the setting of `C106_covariance`. The expected spread of every run (sum of the squared distances of all pairs of particles) after the step is `(1 - lamda·dt)²` times
the spread before it plus `4N(N-1)·sigma²·dt·(1 + alpha)` (without `1 + alpha` in the other mode) times the trace of the weighted covariance of the run around its consensus point. -/
theorem C123_step : ∃ c : ℕ → ι → ℝ, (∀ ω, ∃ cm, (s' ω).cons = some cm ∧ ∀ m < s.M, cm.get m 0 = c m) ∧
    ∀ m < s.M, Integrable (fun ω => spread (s' ω).x s.N m) μ ∧ ∫ ω, spread (s' ω).x s.N m ∂μ = (1 - s.lamda * s.dt) ^ 2 * spread s.x s.N m +
      4 * s.N * (s.N - 1) * s.sigma ^ 2 * (s.dt * (if b then 1 + s.alpha m else 1)) * (weightedCov (s.alpha m) s.N (fun k => f (s.x.get m k)) (s.x.get m) (c m)).trace := by
  have hw := reach_wf hpm.ok hp h0 h
  have key := fun ω => cov_explicit (env := { env with noise := covNoise eigh b (smp ω) }) hcorr hcons hf rfl hpm hp hw hact hbat (hs ω)
  obtain ⟨c, hc, hx⟩ := C106_covariance env f eigh he b hcorr hcons hf hpm hp a s₀ s ops h0 h hact hbat hdt smp hz s' hs
  refine ⟨c, hc, fun m hm => ?_⟩
  have hlp : ∀ n < s.N, ∀ l, MemLp (fun ω => (s' ω).x.get m n l) 2 μ := by
    intro n hn l
    set C := weightedCov (s.alpha m) s.N (fun k => f (s.x.get m k)) (s.x.get m) (c m) with hC
    have e : (fun ω => (s' ω).x.get m n l) = fun ω => (s.x.get m n l - s.lamda * s.dt * (s.x.get m n l - c m l)) +
        ∑ k, (s.sigma * (Real.sqrt (2 * s.dt * (if b then 1 + s.alpha m else 1)) * matSqrt eigh C l k)) * smp ω s.draws m n k := by
      funext ω
      obtain ⟨cm, c1, -, c3⟩ := key ω
      obtain ⟨cm', d1, d2⟩ := hc ω
      rw [c1] at d1
      injection d1 with d1
      subst d1
      rw [c3 m hm n hn, d2 m hm, ← hC]
      simp only [id_eq, Pi.add_apply, Pi.sub_apply, Pi.smul_apply, smul_eq_mul, Matrix.mulVec, dotProduct, Matrix.smul_apply, Finset.mul_sum, mul_assoc]
    rw [e]
    exact linear_lp hz _ (fun k => s.sigma * (Real.sqrt (2 * s.dt * (if b then 1 + s.alpha m else 1)) * matSqrt eigh C l k)) m n
  set g := s.dt * (if b then 1 + s.alpha m else 1) with hg
  set C := weightedCov (s.alpha m) s.N (fun k => f (s.x.get m k)) (s.x.get m) (c m) with hC
  have hd : ∀ n < s.N, ∀ k < s.N, ∀ l, Integrable (fun ω => ((s' ω).x.get m n l - (s' ω).x.get m k l) ^ 2) μ ∧
      ∫ ω, ((s' ω).x.get m n l - (s' ω).x.get m k l) ^ 2 ∂μ = (1 - s.lamda * s.dt) ^ 2 * (s.x.get m n l - s.x.get m k l) ^ 2 + if n = k then 0 else 4 * s.sigma ^ 2 * g * C l l := by
    intro n hn k hk l
    obtain ⟨i1, i2⟩ := sq_diff_mean (hlp n hn l) (hlp k hk l)
    refine ⟨i1, ?_⟩
    have v : ∀ n < s.N, ∀ k < s.N, cov[fun ω => (s' ω).x.get m n l, fun ω => (s' ω).x.get m k l; μ] = if n = k then 2 * s.sigma ^ 2 * g * C l l else 0 := by
      intro n hn k hk
      rw [(hx m hm n hn).2 m hm k hk l l]
      by_cases q : n = k
      · rw [if_pos (show m = m ∧ n = k from ⟨rfl, q⟩), if_pos q, hg]
        ring
      · rw [if_neg (show ¬ (m = m ∧ n = k) from fun q' => q q'.2), if_neg q]
    rw [i2, (hx m hm n hn).1 l, (hx m hm k hk).1 l, v n hn n hn, v k hk k hk, v n hn k hk, if_pos (show n = n from rfl), if_pos (show k = k from rfl)]
    by_cases q : n = k
    · rw [if_pos q, if_pos q, q]
      ring
    · rw [if_neg q, if_neg q]
      ring
  have hi : ∀ n ∈ Finset.range s.N, ∀ k ∈ Finset.range s.N, Integrable (fun ω => ∑ l, ((s' ω).x.get m n l - (s' ω).x.get m k l) ^ 2) μ := fun n hn k hk =>
    integrable_finsetSum _ fun l _ => (hd n (Finset.mem_range.1 hn) k (Finset.mem_range.1 hk) l).1
  refine ⟨integrable_finsetSum _ fun n hn => integrable_finsetSum _ fun k hk => hi n hn k hk, ?_⟩
  unfold spread
  rw [integral_finsetSum _ fun n hn => integrable_finsetSum _ fun k hk => hi n hn k hk]
  have e : ∀ n ∈ Finset.range s.N, ∫ ω, ∑ k ∈ Finset.range s.N, ∑ l, ((s' ω).x.get m n l - (s' ω).x.get m k l) ^ 2 ∂μ =
      ∑ k ∈ Finset.range s.N, ((1 - s.lamda * s.dt) ^ 2 * ∑ l, (s.x.get m n l - s.x.get m k l) ^ 2 + if n = k then 0 else 4 * s.sigma ^ 2 * g * C.trace) := by
    intro n hn
    rw [integral_finsetSum _ fun k hk => hi n hn k hk]
    refine Finset.sum_congr rfl fun k hk => ?_
    rw [integral_finsetSum _ fun l _ => (hd n (Finset.mem_range.1 hn) k (Finset.mem_range.1 hk) l).1, Finset.sum_congr rfl fun l _ => (hd n (Finset.mem_range.1 hn) k (Finset.mem_range.1 hk) l).2,
      Finset.sum_add_distrib, ← Finset.mul_sum]
    congr 1
    by_cases q : n = k
    · simp [q]
    · simp only [if_neg q, ← Finset.mul_sum, Matrix.trace, Matrix.diag_apply]
  rw [Finset.sum_congr rfl e, sum_pairs]
  simp only [← Finset.mul_sum]
  ring

/-- **C123, bounds.** If the objective values of the particles of a run differ by at most `K` and `alpha ≥ 0`, the expected spread is multiplied by a factor between `(1 - lamda·dt)² + 2(1 - 1/N)·sigma²·dt·(1 + alpha)·exp(∓alpha·K)` (without `1 + alpha` in
the other mode), in every dimension. -/
theorem C123_bounds (m : ℕ) (hm : m < s.M) (ha : 0 ≤ s.alpha m) (K : ℝ) (hK : ∀ n < s.N, ∀ k < s.N, f (s.x.get m n) - f (s.x.get m k) ≤ K) (g : ℝ)
    (hg : g = 2 * (1 - 1 / (s.N : ℝ)) * s.sigma ^ 2 * (s.dt * (if b then 1 + s.alpha m else 1))) :
    ((1 - s.lamda * s.dt) ^ 2 + g * Real.exp (-(s.alpha m * K))) * spread s.x s.N m ≤ ∫ ω, spread (s' ω).x s.N m ∂μ ∧
      ∫ ω, spread (s' ω).x s.N m ∂μ ≤ ((1 - s.lamda * s.dt) ^ 2 + g * Real.exp (s.alpha m * K)) * spread s.x s.N m := by
  have hw := reach_wf hpm.ok hp h0 h
  have key := fun ω => cov_explicit (env := { env with noise := covNoise eigh b (smp ω) }) hcorr hcons hf rfl hpm hp hw hact hbat (hs ω)
  obtain ⟨c, hc, hx⟩ := C123_step env f eigh he b hcorr hcons hf hpm hp a s₀ s ops h0 h hact hbat hdt smp hz s' hs
  have : Nonempty Ω := by
    by_contra hne
    rw [not_nonempty_iff] at hne
    exact absurd (measure_univ (μ := μ)) (by rw [Set.univ_eq_empty_iff.2 hne]; simp)
  obtain ⟨ω⟩ : Nonempty Ω := inferInstance
  have hcm : ∀ l, c m l = ∑ n ∈ Finset.range s.N, Real.exp (-(s.alpha m * f (s.x.get m n))) / (∑ k ∈ Finset.range s.N, Real.exp (-(s.alpha m * f (s.x.get m k)))) * s.x.get m n l := by
    intro l
    obtain ⟨cm, c1, c2, -⟩ := key ω
    obtain ⟨cm', d1, d2⟩ := hc ω
    rw [c1] at d1
    injection d1 with d1
    subst d1
    rw [← d2 m hm, c2 m hm]
    exact cons_full (env := { env with noise := covNoise eigh b (smp ω) }) hf hw hact hbat hm l
  have hN := hw.pos
  obtain ⟨t1, t2⟩ := cov_trace_bounds ha hN (fun n => f (s.x.get m n)) hK s.x m hcm
  rw [(hx m hm).2]
  have hN1 : (1 : ℝ) ≤ s.N := by exact_mod_cast hN
  have hG : 0 ≤ 4 * s.N * (s.N - 1) * s.sigma ^ 2 * (s.dt * (if b then 1 + s.alpha m else 1)) :=
    mul_nonneg (mul_nonneg (mul_nonneg (by positivity) (by linarith)) (sq_nonneg _)) (hdt m hm)
  have e : ∀ E : ℝ, 4 * s.N * (s.N - 1) * s.sigma ^ 2 * (s.dt * (if b then 1 + s.alpha m else 1)) * (E * spread s.x s.N m / (2 * s.N ^ 2)) = g * E * spread s.x s.N m := by
    intro E
    rw [hg]
    have : (s.N : ℝ) ≠ 0 := by positivity
    field_simp
    ring
  have u1 := mul_le_mul_of_nonneg_left t1 hG
  have u2 := mul_le_mul_of_nonneg_left t2 hG
  rw [e] at u1 u2
  constructor <;> nlinarith

/-- **C123, equal values.** If all particles of the run have the same objective value the factor is exactly `(1 - lamda·dt)² + 2(1 - 1/N)·sigma²·dt·(1 + alpha)`; for `lamda = sigma = 1` and the mode 'optimization' this is `1 + dt² - 2dt/N`. -/
theorem C123_flat (m : ℕ) (hm : m < s.M) (ha : 0 ≤ s.alpha m) (hK : ∀ n < s.N, ∀ k < s.N, f (s.x.get m n) = f (s.x.get m k)) :
    ∫ ω, spread (s' ω).x s.N m ∂μ = ((1 - s.lamda * s.dt) ^ 2 + 2 * (1 - 1 / (s.N : ℝ)) * s.sigma ^ 2 * (s.dt * (if b then 1 + s.alpha m else 1))) * spread s.x s.N m := by
  obtain ⟨t1, t2⟩ := C123_bounds env f eigh he b hcorr hcons hf hpm hp a s₀ s ops h0 h hact hbat hdt smp hz s' hs m hm ha 0 (fun n hn k hk => by rw [hK n hn k hk, sub_self]) _ rfl
  simp only [mul_zero, neg_zero, Real.exp_zero, mul_one] at t1 t2
  exact le_antisymm t2 t1

/-- **C123, sampling expands.** Consensus-based sampling (`sigma = 1`, mode 'sampling') with `lamda = 1` and `dt > 0`: as long as the objective values of a run that is not collapsed differ so little that `(1 - 1/N)·(1 + alpha)·exp(-alpha·K) ≥ 1`, the
expected spread grows. -/
theorem C123_sampling_expands (hb : b = true) (hl : s.lamda = 1) (hsg : s.sigma = 1) (hd : 0 < s.dt) (m : ℕ) (hm : m < s.M) (ha : 0 ≤ s.alpha m) (K : ℝ)
    (hK : ∀ n < s.N, ∀ k < s.N, f (s.x.get m n) - f (s.x.get m k) ≤ K) (hbig : 1 ≤ (1 - 1 / (s.N : ℝ)) * (1 + s.alpha m) * Real.exp (-(s.alpha m * K))) (hsp : 0 < spread s.x s.N m) :
    spread s.x s.N m < ∫ ω, spread (s' ω).x s.N m ∂μ := by
  obtain ⟨t1, -⟩ := C123_bounds env f eigh he b hcorr hcons hf hpm hp a s₀ s ops h0 h hact hbat hdt smp hz s' hs m hm ha K hK _ rfl
  refine lt_of_lt_of_le ?_ t1
  rw [hl, hsg, if_pos hb]
  have := mul_le_mul_of_nonneg_left hbig hd.le
  have q : 1 < (1 - 1 * s.dt) ^ 2 + 2 * (1 - 1 / (s.N : ℝ)) * 1 ^ 2 * (s.dt * (1 + s.alpha m)) * Real.exp (-(s.alpha m * K)) := by nlinarith [mul_pos hd hd]
  nlinarith

end

/-- C123: two runs of four particles on the plane on a circle around the minimum of `|v|²`, mode 'sampling' with `alpha = 3`, `dt = 1/10`, `lamda = sigma = 1`: all hypotheses are met, the objective values are equal, and the expected spread is multiplied by 1.41. -/
example : ∃ (eigh : Matrix (Fin 2) (Fin 2) ℝ → (Fin 2 → ℝ) × Matrix (Fin 2) (Fin 2) ℝ) (Ω : Type) (_ : MeasurableSpace Ω) (μ : Measure Ω)
    (smp : Ω → ℕ → ℕ → ℕ → Fin 2 → ℝ), IsProbabilityMeasure μ ∧ EighOK eigh ∧
    let env := { Example.realEnv (rowNoise isoRule Example.smp) with post := fun s => .ok s.x }
    ∃ (s₀ : St ℝ (Fin 2 → ℝ)) (s' : Ω → St ℝ (Fin 2 → ℝ)), init env (Example.realArgs (fun _ n => if n = 0 then ![1, 0] else if n = 1 then ![0, 1] else if n = 2 then ![-1, 0] else ![0, -1]) 1 none) = .ok s₀ ∧
      (∀ ω, step { env with noise := covNoise eigh true (smp ω) } (cboInner { env with noise := covNoise eigh true (smp ω) }) s₀ = .ok (s' ω)) ∧ 0 < spread s₀.x s₀.N 1 ∧
      ∫ ω, spread (s' ω).x s₀.N 1 ∂μ = 141 / 100 * spread s₀.x s₀.N 1 ∧ spread s₀.x s₀.N 1 < ∫ ω, spread (s' ω).x s₀.N 1 ∂μ := by
  obtain ⟨eigh, he⟩ := eigh_exists (ι := Fin 2)
  obtain ⟨Ω, mΩ, μ, smp, hμ, hz⟩ := Example.normalTape (Fin 2)
  refine ⟨eigh, Ω, mΩ, μ, smp, hμ, he, ?_⟩
  intro env
  have hpm : PostMap env id := fun _ => rfl
  have hp : PermOK env := Example.perm_ok (rowNoise isoRule Example.smp)
  have h0 : ∃ s₀, init env (Example.realArgs (fun _ n => if n = 0 then ![1, 0] else if n = 1 then ![0, 1] else if n = 2 then ![-1, 0] else ![0, -1]) 1 none) = .ok s₀ ∧ s₀.active = List.range s₀.M ∧
      s₀.batched = false ∧ s₀.M = 2 ∧ s₀.dt = 1 / 10 ∧ (∀ m, s₀.alpha m = 3) ∧ s₀.saveInt ≠ 0 ∧ s₀.N = 4 ∧ s₀.lamda = 1 ∧ s₀.sigma = 1 ∧
      ∀ n, s₀.x.get 1 n = if n = 0 then ![1, 0] else if n = 1 then ![0, 1] else if n = 2 then ![-1, 0] else ![0, -1] := by
    unfold init
    rw [if_neg (by simp [Example.realArgs])]
    exact ⟨_, rfl, rfl, rfl, rfl, rfl, fun _ => rfl, show (2 : ℕ) ≠ 0 by omega, rfl, rfl, rfl, fun _ => rfl⟩
  obtain ⟨s₀, h0, c1, c2, c3, c4, c5, c6, c7, c8, c9, c10⟩ := h0
  have hstep : ∀ ω, ∃ s', step { env with noise := covNoise eigh true (smp ω) } (cboInner { env with noise := covNoise eigh true (smp ω) }) s₀ = .ok s' := fun ω =>
    C19_covariance_partial { env with noise := covNoise eigh true (smp ω) } (fun v => v 0 ^ 2 + v 1 ^ 2) id eigh true (smp ω) rfl rfl (fun _ => rfl) rfl hpm hp _ s₀ s₀ [] h0 rfl (by omega) c1 c2 c6
  choose s' hs' using hstep
  have hval : ∀ n, (fun v : Fin 2 → ℝ => v 0 ^ 2 + v 1 ^ 2) (s₀.x.get 1 n) = 1 := by
    intro n
    rw [c10]
    split_ifs <;> norm_num
  have hflat := C123_flat env (fun v => v 0 ^ 2 + v 1 ^ 2) eigh he true rfl rfl (fun _ => rfl) hpm hp _ s₀ s₀ [] h0 rfl c1 c2 (fun m _ => by rw [c4, c5]; norm_num) smp (C106_normal _ (hz _)) s' hs' 1 (by omega)
    (by rw [c5]; norm_num) (fun n _ k _ => (hval n).trans (hval k).symm)
  have hsp : 0 < spread s₀.x s₀.N 1 := by
    rw [c7]
    simp only [spread, Finset.sum_range_succ, Finset.sum_range_zero, Fin.sum_univ_two, c10]
    norm_num
  refine ⟨s₀, s', h0, hs', hsp, ?_, ?_⟩
  · rw [hflat, if_pos rfl, c4, c5, c7, c8, c9]
    norm_num
  · exact C123_sampling_expands env (fun v => v 0 ^ 2 + v 1 ^ 2) eigh he true rfl rfl (fun _ => rfl) hpm hp _ s₀ s₀ [] h0 rfl c1 c2 (fun m _ => by rw [c4, c5]; norm_num) smp (C106_normal _ (hz _)) s' hs' rfl c8 c9
      (by rw [c4]; norm_num) 1 (by omega) (by rw [c5]; norm_num) 0 (fun n _ k _ => by rw [show (s₀.x.get 1 n 0 ^ 2 + s₀.x.get 1 n 1 ^ 2 : ℝ) = 1 from hval n, show (s₀.x.get 1 k 0 ^ 2 + s₀.x.get 1 k 1 ^ 2 : ℝ) = 1 from hval k, sub_self])
      (by rw [c5, c7]; norm_num) hsp

end Verif
