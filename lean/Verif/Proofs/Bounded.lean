import Verif.Proofs.AlmostSure
import Verif.Proofs.Stable

/-! Helper lemmas for C110: the distance between consensus point and centre of mass for a bounded objective. -/

set_option linter.unusedSectionVars false

namespace Verif

variable {ι : Type} [Fintype ι]

/-- Numbers `a`, weights `w` between `1/(CN)` and `C/N` with sum 1: squared distances to the weighted mean. -/
theorem weighted_dist {N : ℕ} (hN : 0 < N) (a w : ℕ → ℝ) {C : ℝ} (hw0 : ∀ n < N, 0 ≤ w n) (hw1 : ∑ n ∈ Finset.range N, w n = 1) (hwC : ∀ n < N, w n ≤ C / N)
    (hwc : ∀ n < N, 1 ≤ C * (N * w n)) :
    ∑ n ∈ Finset.range N, (a n - ∑ k ∈ Finset.range N, w k * a k) ^ 2 ≤ (1 + min C ((C - 1) ^ 2)) / (2 * N) * ∑ n ∈ Finset.range N, ∑ k ∈ Finset.range N, (a n - a k) ^ 2 := by
  have hN' : (0 : ℝ) < N := by exact_mod_cast hN
  set b : ℝ := (∑ n ∈ Finset.range N, a n) / N with hb
  set V : ℝ := ∑ n ∈ Finset.range N, (a n - b) ^ 2 with hV
  have hs : ∑ n ∈ Finset.range N, a n = N * b := by rw [hb]; field_simp
  have hs0 : ∑ n ∈ Finset.range N, (a n - b) = 0 := by
    rw [Finset.sum_sub_distrib, hs]
    simp
  have hpair : ∑ n ∈ Finset.range N, ∑ k ∈ Finset.range N, (a n - a k) ^ 2 = 2 * N * V := by
    have e : ∀ n, ∑ k ∈ Finset.range N, (a n - a k) ^ 2 = N * (a n - b) ^ 2 + V := by
      intro n
      have : ∀ k, (a n - a k) ^ 2 = (a n - b) ^ 2 - 2 * (a n - b) * (a k - b) + (a k - b) ^ 2 := fun k => by ring
      simp only [this, Finset.sum_add_distrib, Finset.sum_sub_distrib, Finset.sum_const, Finset.card_range, nsmul_eq_mul, ← Finset.mul_sum, hs0]
      ring
    rw [Finset.sum_congr rfl fun n _ => e n, Finset.sum_add_distrib, ← Finset.mul_sum, Finset.sum_const, Finset.card_range, nsmul_eq_mul]
    ring
  set c : ℝ := ∑ k ∈ Finset.range N, w k * a k with hc
  have hcb : c - b = ∑ k ∈ Finset.range N, w k * (a k - b) := by
    simp only [mul_sub, Finset.sum_sub_distrib, ← Finset.sum_mul, hw1, one_mul, hc]
  have h1 : (c - b) ^ 2 ≤ C / N * V := by
    rw [hcb]
    have h2 := Finset.sum_sq_le_sum_mul_sum_of_sq_eq_mul (Finset.range N) (r := fun k => w k * (a k - b)) (f := w) (g := fun k => w k * (a k - b) ^ 2)
      (fun k hk => hw0 k (Finset.mem_range.1 hk)) (fun k hk => mul_nonneg (hw0 k (Finset.mem_range.1 hk)) (sq_nonneg _)) (fun k _ => by ring)
    rw [hw1, one_mul] at h2
    refine h2.trans ?_
    rw [hV, Finset.mul_sum]
    exact Finset.sum_le_sum fun k hk => mul_le_mul_of_nonneg_right (hwC k (Finset.mem_range.1 hk)) (sq_nonneg _)
  have h3 : ∑ n ∈ Finset.range N, (a n - c) ^ 2 = V + N * (c - b) ^ 2 := by
    have : ∀ n, (a n - c) ^ 2 = (a n - b) ^ 2 - 2 * (c - b) * (a n - b) + (c - b) ^ 2 := fun n => by ring
    simp only [this, Finset.sum_add_distrib, Finset.sum_sub_distrib, Finset.sum_const, Finset.card_range, nsmul_eq_mul, ← Finset.mul_sum, hs0]
    ring
  have h5 : (c - b) ^ 2 ≤ (C - 1) ^ 2 / N * V := by
    have e : c - b = ∑ k ∈ Finset.range N, (w k - 1 / N) * (a k - b) := by
      rw [hcb]
      simp only [sub_mul (w _), Finset.sum_sub_distrib, ← Finset.mul_sum, hs0, mul_zero, sub_zero]
    have hd : ∀ k < N, (w k - 1 / N) ^ 2 ≤ ((C - 1) / N) ^ 2 := by
      intro k hk
      have h6 := hwC k hk
      have h7 := hwc k hk
      have hC : 0 < C := by
        rcases lt_or_ge 0 C with h | h
        · exact h
        · have := mul_nonneg hN'.le (hw0 k hk)
          nlinarith
      have h6' : N * w k ≤ C := by rw [le_div_iff₀ hN'] at h6; linarith
      have h0 := mul_nonneg hN'.le (hw0 k hk)
      have e7 : w k - 1 / N = (N * w k - 1) / N := by field_simp
      rw [e7, div_pow, div_pow]
      refine div_le_div_of_nonneg_right ?_ (by positivity)
      generalize N * w k = t at *
      refine sq_le_sq' ?_ (by linarith)
      have hCt : C * (1 - t) ≤ C - 1 := by linarith
      by_cases ht : t ≤ 1
      · have : 1 ≤ C := by nlinarith
        nlinarith
      · nlinarith
    rw [e]
    refine (Finset.sum_mul_sq_le_sq_mul_sq _ _ _).trans ?_
    refine mul_le_mul_of_nonneg_right ?_ (Finset.sum_nonneg fun _ _ => sq_nonneg _)
    refine (Finset.sum_le_sum fun k hk => hd k (Finset.mem_range.1 hk)).trans_eq ?_
    rw [Finset.sum_const, Finset.card_range, nsmul_eq_mul]
    field_simp
  have hV0 : 0 ≤ V := Finset.sum_nonneg fun _ _ => sq_nonneg _
  have h8 : (c - b) ^ 2 ≤ min C ((C - 1) ^ 2) / N * V := by
    rcases min_choice C ((C - 1) ^ 2) with h | h <;> rw [h] <;> assumption
  rw [h3, hpair]
  generalize min C ((C - 1) ^ 2) = K at *
  have e4 : (1 + K) / (2 * N) * (2 * N * V) = V + N * (K / N * V) := by field_simp
  rw [e4]
  have := mul_le_mul_of_nonneg_left h8 hN'.le
  linarith

/-- The consensus point of all particles, written with the weights. -/
theorem rowCons_range (f : (ι → ℝ) → ℝ) (α : ℝ) (N : ℕ) (y : ℕ → ι → ℝ) (l : ι) :
    rowCons f α (List.range N) y l = ∑ n ∈ Finset.range N, (Real.exp (-(α * f (y n))) / ∑ k ∈ Finset.range N, Real.exp (-(α * f (y k)))) * y n l := by
  have hs : ∀ (g : ℕ → ι → ℝ) n, ((List.range n).map g).sum l = ∑ k ∈ Finset.range n, g k l := by
    intro g n
    induction n with
    | zero => simp
    | succ n ih => rw [List.range_succ, List.map_append, List.sum_append, Finset.sum_range_succ, Pi.add_apply, ih]; simp
  unfold rowCons gibbs
  simp only [List.map_map, Function.comp_def, Pi.smul_apply, smul_eq_mul]
  rw [hs, sum_map_range, Finset.mul_sum]
  refine Finset.sum_congr rfl fun n _ => ?_
  simp only [Pi.smul_apply, smul_eq_mul]
  ring

/-- A bounded objective: the squared distances to the consensus point are bounded by the spread, with a factor that does not grow with the number of particles. -/
theorem bounded_dist {f : (ι → ℝ) → ℝ} {α Δ : ℝ} (hα : 0 ≤ α) (hΔ : ∀ u v, f u - f v ≤ Δ) {N : ℕ} (hN : 0 < N) (y : ℕ → ι → ℝ) :
    distTo (oneRow y) N 0 (rowCons f α (List.range N) y) ≤ (1 + min (Real.exp (α * Δ)) ((Real.exp (α * Δ) - 1) ^ 2)) / (2 * N) * spread (oneRow y) N 0 := by
  have hN' : (0 : ℝ) < N := by exact_mod_cast hN
  have hs : ∀ (g : ℕ → ℕ → ι → ℝ), ∑ n ∈ Finset.range N, ∑ k ∈ Finset.range N, ∑ l, g n k l = ∑ l, ∑ n ∈ Finset.range N, ∑ k ∈ Finset.range N, g n k l := by
    intro g
    rw [Finset.sum_comm, Finset.sum_congr rfl fun k _ => Finset.sum_comm, Finset.sum_comm]
    exact Finset.sum_congr rfl fun l _ => Finset.sum_comm
  have W : 0 < ∑ k ∈ Finset.range N, Real.exp (-(α * f (y k))) := Finset.sum_pos (fun _ _ => Real.exp_pos _) ⟨0, Finset.mem_range.2 hN⟩
  unfold distTo spread
  rw [hs, Finset.sum_comm (s := Finset.range N), Finset.mul_sum]
  refine Finset.sum_le_sum fun l _ => ?_
  simp only [oneRow, rowCons_range]
  refine weighted_dist hN (fun n => y n l) (fun n => Real.exp (-(α * f (y n))) / ∑ k ∈ Finset.range N, Real.exp (-(α * f (y k)))) (fun n _ => (div_pos (Real.exp_pos _) W).le) ?_ (fun n _ => ?_) fun n _ => ?_
  · rw [← Finset.sum_div, div_self W.ne']
  · rw [div_le_div_iff₀ W hN']
    have : ∑ k ∈ Finset.range N, Real.exp (-(α * f (y n))) ≤ ∑ k ∈ Finset.range N, Real.exp (α * Δ) * Real.exp (-(α * f (y k))) := by
      refine Finset.sum_le_sum fun k _ => ?_
      rw [← Real.exp_add]
      refine Real.exp_le_exp.2 ?_
      have := mul_le_mul_of_nonneg_left (hΔ (y k) (y n)) hα
      linarith
    rw [Finset.sum_const, Finset.card_range, nsmul_eq_mul, ← Finset.mul_sum] at this
    linarith
  · rw [← mul_assoc, ← mul_div_assoc, le_div_iff₀ W, one_mul]
    have : ∑ k ∈ Finset.range N, Real.exp (-(α * f (y k))) ≤ ∑ k ∈ Finset.range N, Real.exp (α * Δ) * Real.exp (-(α * f (y n))) := by
      refine Finset.sum_le_sum fun k _ => ?_
      rw [← Real.exp_add]
      refine Real.exp_le_exp.2 ?_
      have := mul_le_mul_of_nonneg_left (hΔ (y n) (y k)) hα
      linarith
    rw [Finset.sum_const, Finset.card_range, nsmul_eq_mul] at this
    linarith

/-- If all particles are left alone by the post processing then only the values of the objective at such points matter. -/
theorem recur_fix {f g : (ι → ℝ) → ℝ} {p : (ι → ℝ) → ι → ℝ} {β : (ι → ℝ) → ι → ℝ} {α lamda dt sigma : ℝ} {M N : ℕ} (i : Fin M) {J : ℕ → List ℕ} (hJ : ∀ k, ∀ n ∈ J k, n < N)
    (hpp : ∀ v, p (p v) = p v) (hg : ∀ v, p v = v → g v = f v) {y : ℕ → ι → ℝ} (hy : ∀ n < N, p (y n) = y n) (z : ℕ → Fin M × Fin N × ι → ℝ) :
    ∀ k, ∀ n < N, p (recur (fun k => rowNext f p β α lamda dt sigma i (J k)) y z k n) = recur (fun k => rowNext f p β α lamda dt sigma i (J k)) y z k n ∧
      recur (fun k => rowNext f p β α lamda dt sigma i (J k)) y z k n = recur (fun k => rowNext g p β α lamda dt sigma i (J k)) y z k n
  | 0, n, hn => ⟨hy n hn, rfl⟩
  | k + 1, n, hn => by
    have ih := recur_fix (f := f) (g := g) (β := β) (α := α) (lamda := lamda) (dt := dt) (sigma := sigma) i hJ hpp hg hy z k
    refine ⟨by simp only [recur, rowNext, hpp], ?_⟩
    simp only [recur]
    rw [← rowNext_congr g p β α lamda dt sigma i (hJ k) (fun n hn => (ih n hn).2) (z k) n hn]
    have hc : ∀ w, rowCons f α (J k) w = rowCons f α (J k) w := fun _ => rfl
    have : rowCons g α (J k) (recur (fun k => rowNext f p β α lamda dt sigma i (J k)) y z k) = rowCons f α (J k) (recur (fun k => rowNext f p β α lamda dt sigma i (J k)) y z k) := by
      unfold rowCons
      congr 1
      exact List.map_congr_left fun n hn => by rw [hg _ (ih n (hJ k n hn)).1]
    unfold rowNext at this ⊢
    rw [this]

end Verif
