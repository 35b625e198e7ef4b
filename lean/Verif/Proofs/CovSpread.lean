import Verif.Proofs.Moments
import Verif.Proofs.CovStep
import Verif.Proofs.MeanSquare
import Verif.Proofs.Descent

/-! Lemmas for C123: expected spread of an ensemble with covariance noise. -/

set_option linter.unusedSectionVars false

namespace Verif

open MeasureTheory ProbabilityTheory

section
variable {Ω : Type} [MeasurableSpace Ω] {μ : Measure Ω} [IsProbabilityMeasure μ]

/-- Second moment of a difference from means and covariances. -/
theorem sq_diff_mean {X Y : Ω → ℝ} (hX : MemLp X 2 μ) (hY : MemLp Y 2 μ) :
    Integrable (fun ω => (X ω - Y ω) ^ 2) μ ∧ ∫ ω, (X ω - Y ω) ^ 2 ∂μ = (∫ ω, X ω ∂μ - ∫ ω, Y ω ∂μ) ^ 2 + cov[X, X; μ] + cov[Y, Y; μ] - 2 * cov[X, Y; μ] := by
  have h1 : Integrable (fun ω => X ω * X ω) μ := hX.integrable_mul hX
  have h2 : Integrable (fun ω => X ω * Y ω) μ := hX.integrable_mul hY
  have h3 : Integrable (fun ω => Y ω * Y ω) μ := hY.integrable_mul hY
  have e : (fun ω => (X ω - Y ω) ^ 2) = fun ω => X ω * X ω - 2 * (X ω * Y ω) + Y ω * Y ω := by
    funext ω
    ring
  have c1 := covariance_eq_sub hX hX
  have c2 := covariance_eq_sub hX hY
  have c3 := covariance_eq_sub hY hY
  simp only [Pi.mul_apply] at c1 c2 c3
  have h4 : Integrable (fun ω => X ω * X ω - 2 * (X ω * Y ω)) μ := h1.sub (h2.const_mul 2)
  rw [e]
  refine ⟨h4.add h3, ?_⟩
  rw [integral_add h4 h3, integral_sub h1 (h2.const_mul 2), integral_const_mul, c1, c2, c3]
  ring

end

section
variable {ι : Type} [Fintype ι]

/-- The spread is `2N` times the squared distances to the centre of mass. -/
theorem spread_centre (x : Mat (ι → ℝ)) (N m : ℕ) (hN : 0 < N) : spread x N m = 2 * N * distTo x N m fun l => (∑ k ∈ Finset.range N, x.get m k l) / N := by
  have hN' : (N : ℝ) ≠ 0 := by positivity
  have h : ∀ (a : ℕ → ℝ), ∑ n ∈ Finset.range N, ∑ k ∈ Finset.range N, (a n - a k) ^ 2 = 2 * N * ∑ n ∈ Finset.range N, (a n - (∑ k ∈ Finset.range N, a k) / N) ^ 2 := by
    intro a
    set A := ∑ k ∈ Finset.range N, a k with hA
    have e : ∀ n, ∑ k ∈ Finset.range N, (a n - a k) ^ 2 = N * a n ^ 2 - 2 * a n * A + ∑ k ∈ Finset.range N, a k ^ 2 := by
      intro n
      have : ∀ k, (a n - a k) ^ 2 = a n ^ 2 - 2 * a n * a k + a k ^ 2 := fun k => by ring
      simp only [this, Finset.sum_add_distrib, Finset.sum_sub_distrib, Finset.sum_const, Finset.card_range, nsmul_eq_mul, ← Finset.mul_sum, ← hA]
    have e' : ∀ n, (a n - A / N) ^ 2 = a n ^ 2 - 2 * (A / N) * a n + (A / N) ^ 2 := fun n => by ring
    rw [Finset.sum_congr rfl fun n _ => e n, Finset.sum_congr rfl fun n _ => e' n]
    simp only [Finset.sum_add_distrib, Finset.sum_sub_distrib, Finset.sum_const, Finset.card_range, nsmul_eq_mul, ← Finset.mul_sum, ← Finset.sum_mul, ← hA]
    field_simp
    ring
  have hs : ∀ (g : ℕ → ℕ → ι → ℝ), ∑ n ∈ Finset.range N, ∑ k ∈ Finset.range N, ∑ l, g n k l = ∑ l, ∑ n ∈ Finset.range N, ∑ k ∈ Finset.range N, g n k l := by
    intro g
    rw [Finset.sum_comm, Finset.sum_congr rfl fun k _ => Finset.sum_comm, Finset.sum_comm]
    exact Finset.sum_congr rfl fun l _ => Finset.sum_comm
  unfold spread distTo
  rw [hs, Finset.sum_comm (s := Finset.range N), Finset.mul_sum]
  exact Finset.sum_congr rfl fun l _ => h fun n => x.get m n l

/-- The weights of particles whose objective values differ by at most `K`. -/
theorem weight_bounds {a K : ℝ} (ha : 0 ≤ a) {N : ℕ} (f : ℕ → ℝ) (hK : ∀ n < N, ∀ k < N, f n - f k ≤ K) {n : ℕ} (hn : n < N) :
    Real.exp (-(a * K)) / N ≤ Real.exp (-(a * f n)) / (∑ k ∈ Finset.range N, Real.exp (-(a * f k))) ∧
      Real.exp (-(a * f n)) / (∑ k ∈ Finset.range N, Real.exp (-(a * f k))) ≤ Real.exp (a * K) / N := by
  have hN : (0 : ℝ) < N := by exact_mod_cast (by omega : 0 < N)
  have hS : 0 < ∑ k ∈ Finset.range N, Real.exp (-(a * f k)) := Finset.sum_pos (fun k _ => Real.exp_pos _) ⟨n, Finset.mem_range.2 hn⟩
  constructor
  · rw [div_le_div_iff₀ hN hS, Finset.mul_sum]
    calc _ ≤ ∑ _k ∈ Finset.range N, Real.exp (-(a * f n)) := by
          refine Finset.sum_le_sum fun k hk => ?_
          rw [← Real.exp_add]
          refine Real.exp_le_exp.2 ?_
          have := mul_le_mul_of_nonneg_left (hK n hn k (Finset.mem_range.1 hk)) ha
          linarith
      _ = _ := by rw [Finset.sum_const, Finset.card_range, nsmul_eq_mul, mul_comm]
  · rw [div_le_div_iff₀ hS hN, Finset.mul_sum]
    calc _ = ∑ _k ∈ Finset.range N, Real.exp (-(a * f n)) := by rw [Finset.sum_const, Finset.card_range, nsmul_eq_mul, mul_comm]
      _ ≤ _ := by
          refine Finset.sum_le_sum fun k hk => ?_
          rw [← Real.exp_add]
          refine Real.exp_le_exp.2 ?_
          have := mul_le_mul_of_nonneg_left (hK k (Finset.mem_range.1 hk) n hn) ha
          linarith

/-- Bounds for the trace of the weighted covariance around the weighted mean. -/
theorem cov_trace_bounds {a K : ℝ} (ha : 0 ≤ a) {N : ℕ} (hN : 0 < N) (f : ℕ → ℝ) (hK : ∀ n < N, ∀ k < N, f n - f k ≤ K) (x : Mat (ι → ℝ)) (m : ℕ) {c : ι → ℝ}
    (hc : ∀ l, c l = ∑ n ∈ Finset.range N, Real.exp (-(a * f n)) / (∑ k ∈ Finset.range N, Real.exp (-(a * f k))) * x.get m n l) :
    Real.exp (-(a * K)) * spread x N m / (2 * N ^ 2) ≤ (weightedCov a N f (x.get m) c).trace ∧ (weightedCov a N f (x.get m) c).trace ≤ Real.exp (a * K) * spread x N m / (2 * N ^ 2) := by
  have hN' : (0 : ℝ) < N := by exact_mod_cast hN
  set w : ℕ → ℝ := fun n => Real.exp (-(a * f n)) / (∑ k ∈ Finset.range N, Real.exp (-(a * f k))) with hw
  have hS : 0 < ∑ k ∈ Finset.range N, Real.exp (-(a * f k)) := Finset.sum_pos (fun k _ => Real.exp_pos _) ⟨0, Finset.mem_range.2 hN⟩
  have hw1 : ∑ n ∈ Finset.range N, w n = 1 := by
    rw [hw, ← Finset.sum_div, div_self hS.ne']
  have hb : ∀ n < N, Real.exp (-(a * K)) / N ≤ w n ∧ w n ≤ Real.exp (a * K) / N := fun n hn => weight_bounds ha f hK hn
  have htr : (weightedCov a N f (x.get m) c).trace = ∑ n ∈ Finset.range N, ∑ l, w n * (x.get m n l - c l) ^ 2 := by
    rw [Finset.sum_comm]
    refine Finset.sum_congr rfl fun l _ => ?_
    simp only [Matrix.diag_apply, weightedCov, Matrix.of_apply]
    exact Finset.sum_congr rfl fun n _ => by rw [pow_two]
  constructor
  · calc _ ≤ Real.exp (-(a * K)) / N * distTo x N m c := by
          have := mul_le_mul_of_nonneg_left (spread_le x N m c) (Real.exp_pos (-(a * K))).le
          rw [div_le_iff₀ (by positivity)]
          calc _ ≤ _ := this
            _ = _ := by field_simp
      _ ≤ _ := by
          rw [htr, distTo, Finset.mul_sum]
          refine Finset.sum_le_sum fun n hn => ?_
          rw [Finset.mul_sum]
          exact Finset.sum_le_sum fun l _ => mul_le_mul_of_nonneg_right (hb n (Finset.mem_range.1 hn)).1 (sq_nonneg _)
  · set y : ι → ℝ := fun l => (∑ k ∈ Finset.range N, x.get m k l) / N with hy
    have hmin : ∀ l, ∑ n ∈ Finset.range N, w n * (x.get m n l - c l) ^ 2 ≤ ∑ n ∈ Finset.range N, w n * (x.get m n l - y l) ^ 2 := by
      intro l
      have e : ∑ n ∈ Finset.range N, w n * (x.get m n l - y l) ^ 2 - ∑ n ∈ Finset.range N, w n * (x.get m n l - c l) ^ 2 = (c l - y l) ^ 2 := by
        rw [← Finset.sum_sub_distrib]
        have : ∀ n, w n * (x.get m n l - y l) ^ 2 - w n * (x.get m n l - c l) ^ 2 = (w n * x.get m n l) * (2 * (c l - y l)) + w n * (y l ^ 2 - c l ^ 2) := fun n => by ring
        rw [Finset.sum_congr rfl fun n _ => this n, Finset.sum_add_distrib, ← Finset.sum_mul, ← Finset.sum_mul, hw1, ← hc l]
        ring
      nlinarith [sq_nonneg (c l - y l)]
    calc _ = ∑ l, ∑ n ∈ Finset.range N, w n * (x.get m n l - c l) ^ 2 := by rw [htr, Finset.sum_comm]
      _ ≤ ∑ l, ∑ n ∈ Finset.range N, w n * (x.get m n l - y l) ^ 2 := Finset.sum_le_sum fun l _ => hmin l
      _ ≤ ∑ l, ∑ n ∈ Finset.range N, Real.exp (a * K) / N * (x.get m n l - y l) ^ 2 :=
          Finset.sum_le_sum fun l _ => Finset.sum_le_sum fun n hn => mul_le_mul_of_nonneg_right (hb n (Finset.mem_range.1 hn)).2 (sq_nonneg _)
      _ = Real.exp (a * K) / N * distTo x N m y := by
          rw [Finset.sum_comm, distTo, Finset.mul_sum]
          exact Finset.sum_congr rfl fun n _ => by rw [Finset.mul_sum]
      _ = _ := by
          rw [spread_centre x N m hN, ← hy]
          field_simp

/-- Sum over all pairs of different particles of a constant. -/
theorem sum_pairs (N : ℕ) (g : ℕ → ℕ → ℝ) (v : ℝ) : ∑ n ∈ Finset.range N, ∑ k ∈ Finset.range N, (g n k + if n = k then 0 else v) =
    ∑ n ∈ Finset.range N, ∑ k ∈ Finset.range N, g n k + N * (N - 1) * v := by
  simp only [Finset.sum_add_distrib]
  congr 1
  have : ∀ n ∈ Finset.range N, ∑ k ∈ Finset.range N, (if n = k then (0 : ℝ) else v) = N * v - v := by
    intro n hn
    have e : ∀ k, (if n = k then (0 : ℝ) else v) = v - if n = k then v else 0 := fun k => by split_ifs <;> simp
    rw [Finset.sum_congr rfl fun k _ => e k, Finset.sum_sub_distrib, Finset.sum_const, Finset.card_range, nsmul_eq_mul, Finset.sum_ite_eq, if_pos hn]
  rw [Finset.sum_congr rfl this, Finset.sum_const, Finset.card_range, nsmul_eq_mul]
  ring

end

section
variable {Ω ι : Type} [MeasurableSpace Ω] {μ : Measure Ω} [IsProbabilityMeasure μ] [Fintype ι] [DecidableEq ι]

theorem linear_lp {z : Ω → ℕ → ℕ → ι → ℝ} (hz : White μ z) (a : ℝ) (g : ι → ℝ) (i j : ℕ) : MemLp (fun ω => a + ∑ k, g k * z ω i j k) 2 μ := by
  have h1 : MemLp (fun _ : Ω => a) 2 μ := memLp_const a
  have h2 : MemLp (fun ω => ∑ k, g k * z ω i j k) 2 μ := memLp_finsetSum _ fun k _ => (hz.lp i j k).const_mul _
  exact h1.add h2

/-- The default consensus point of an unbatched step with all runs active is the weighted mean of the run. -/
theorem cons_full {env : Env ℝ (ι → ℝ)} {f : (ι → ℝ) → ℝ} (hf : ∀ v, env.f v = .fin (f v)) {s : St ℝ (ι → ℝ)} (hw : WF s) (hact : s.active = List.range s.M) (hbat : s.batched = false) {m : ℕ} (hm : m < s.M) (l : ι) :
    consDefault (sampleOf env { s with cIdx := (preStep env s).cIdx } m) l =
      ∑ n ∈ Finset.range s.N, Real.exp (-(s.alpha m * f (s.x.get m n))) / (∑ k ∈ Finset.range s.N, Real.exp (-(s.alpha m * f (s.x.get m k)))) * s.x.get m n l := by
  obtain ⟨pc, -, pcol, prun, ppar⟩ := (preStep_pIdx env s hw).2.2 hbat
  have hl : s.active.length = s.M := by rw [hact, List.length_range]
  have hg : s.active.getD m 0 = m := by rw [hact, range_getD hm]
  have e : sampleOf env { s with cIdx := (preStep env s).cIdx } m = finSample (s.alpha m) ((List.range s.N).map fun n => (f (s.x.get m n), s.x.get m n)) := by
    simp only [sampleOf, ← pc, pcol, prun m (by omega), ppar, hg, hf, finSample, List.map_map]
    rfl
  rw [e, consDefault_fin]
  unfold gibbs
  simp only [List.map_map, Function.comp_def]
  rw [sum_map_range, Pi.smul_apply, smul_eq_mul]
  have e2 : ((List.range s.N).map fun n => Real.exp (-(s.alpha m * f (s.x.get m n))) • s.x.get m n).sum l = ∑ n ∈ Finset.range s.N, Real.exp (-(s.alpha m * f (s.x.get m n))) * s.x.get m n l := by
    rw [← sum_map_range]
    generalize List.range s.N = L
    induction L with
    | nil => rfl
    | cons q L ih => simp only [List.map_cons, List.sum_cons, Pi.add_apply, Pi.smul_apply, smul_eq_mul, ih]
  rw [e2, Finset.mul_sum]
  exact Finset.sum_congr rfl fun n _ => by ring

end

end Verif
