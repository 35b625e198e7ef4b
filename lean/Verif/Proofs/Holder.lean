import Verif.Proofs.Objectives
import Mathlib.Analysis.Complex.ExponentialBounds
import Mathlib.Analysis.SpecialFunctions.Trigonometric.ArctanDeriv
import Mathlib.Analysis.Calculus.Deriv.MeanValue

/-! The Holder table function on its domain. Helper lemmas. -/

namespace Verif

open Real

theorem cos_bound8 {x : ℝ} (hx : |x| ≤ 1) : |cos x - (1 - x ^ 2 / 2 + x ^ 4 / 24 - x ^ 6 / 720)| ≤ |x| ^ 8 * (1 / 35840) := by
  have key : ∀ {x : ℂ}, ‖x‖ ≤ 1 → ‖Complex.cos x - (1 - x ^ 2 / 2 + x ^ 4 / 24 - x ^ 6 / 720)‖ ≤ ‖x‖ ^ 8 * (1 / 35840) := by
    intro x hx
    calc
      ‖Complex.cos x - (1 - x ^ 2 / 2 + x ^ 4 / 24 - x ^ 6 / 720)‖ =
          ‖(Complex.exp (-x * Complex.I) - ∑ m ∈ Finset.range 8, (-x * Complex.I) ^ m / m.factorial) / 2 +
           (Complex.exp (x * Complex.I) - ∑ m ∈ Finset.range 8, (x * Complex.I) ^ m / m.factorial) / 2‖ := by
        congr 1
        have e1 : ∀ n, (-x * Complex.I) ^ n = (-1) ^ n * (x ^ n * Complex.I ^ n) := fun n => by rw [← mul_pow, ← mul_pow]; ring
        have e2 : ∀ n, (x * Complex.I) ^ n = x ^ n * Complex.I ^ n := fun n => mul_pow _ _ _
        have h2 : Complex.I ^ 2 = -1 := Complex.I_sq
        have h3 : Complex.I ^ 3 = -Complex.I := by rw [pow_succ, h2]; ring
        have h4 : Complex.I ^ 4 = 1 := Complex.I_pow_four
        have h5 : Complex.I ^ 5 = Complex.I := by rw [pow_succ, h4]; ring
        have h6 : Complex.I ^ 6 = -1 := by rw [pow_succ, h5, ← sq, h2]
        have h7 : Complex.I ^ 7 = -Complex.I := by rw [pow_succ, h6]; ring
        simp only [Complex.cos, Finset.sum_range_succ, Finset.sum_range_zero, Nat.factorial, e1, e2, h2, h3, h4, h5, h6, h7]
        push_cast
        ring
      _ ≤ ‖Complex.exp (-x * Complex.I) - ∑ m ∈ Finset.range 8, (-x * Complex.I) ^ m / m.factorial‖ / 2 +
          ‖Complex.exp (x * Complex.I) - ∑ m ∈ Finset.range 8, (x * Complex.I) ^ m / m.factorial‖ / 2 := by
        grw [norm_add_le]
        simp
      _ ≤ ‖-x * Complex.I‖ ^ 8 * (Nat.succ 8 * (Nat.factorial 8 * (8 : ℕ) : ℝ)⁻¹) / 2 +
          ‖x * Complex.I‖ ^ 8 * (Nat.succ 8 * (Nat.factorial 8 * (8 : ℕ) : ℝ)⁻¹) / 2 := by
        grw [Complex.exp_bound (by simpa) (by simp), Complex.exp_bound (by simpa) (by simp)]
      _ ≤ ‖x‖ ^ 8 * (1 / 35840) := by norm_num [Nat.factorial]
  simpa [← Complex.ofReal_cos, ← norm_eq_abs, ← Complex.norm_real] using key (x := (x : ℂ)) (by simpa)

theorem sin_bound9 {x : ℝ} (hx : |x| ≤ 1) : |sin x - (x - x ^ 3 / 6 + x ^ 5 / 120 - x ^ 7 / 5040)| ≤ |x| ^ 9 * (1 / 326592) := by
  have key : ∀ {x : ℂ}, ‖x‖ ≤ 1 → ‖Complex.sin x - (x - x ^ 3 / 6 + x ^ 5 / 120 - x ^ 7 / 5040)‖ ≤ ‖x‖ ^ 9 * (1 / 326592) := by
    intro x hx
    calc
      ‖Complex.sin x - (x - x ^ 3 / 6 + x ^ 5 / 120 - x ^ 7 / 5040)‖ =
          ‖(Complex.exp (-x * Complex.I) - ∑ m ∈ Finset.range 9, (-x * Complex.I) ^ m / m.factorial) * Complex.I / 2 -
           (Complex.exp (x * Complex.I) - ∑ m ∈ Finset.range 9, (x * Complex.I) ^ m / m.factorial) * Complex.I / 2‖ := by
        congr 1
        have e1 : ∀ n, (-x * Complex.I) ^ n = (-1) ^ n * (x ^ n * Complex.I ^ n) := fun n => by rw [← mul_pow, ← mul_pow]; ring
        have e2 : ∀ n, (x * Complex.I) ^ n = x ^ n * Complex.I ^ n := fun n => mul_pow _ _ _
        have h2 : Complex.I ^ 2 = -1 := Complex.I_sq
        have h3 : Complex.I ^ 3 = -Complex.I := by rw [pow_succ, h2]; ring
        have h4 : Complex.I ^ 4 = 1 := Complex.I_pow_four
        have h5 : Complex.I ^ 5 = Complex.I := by rw [pow_succ, h4]; ring
        have h6 : Complex.I ^ 6 = -1 := by rw [pow_succ, h5, ← sq, h2]
        have h7 : Complex.I ^ 7 = -Complex.I := by rw [pow_succ, h6]; ring
        have h8 : Complex.I ^ 8 = 1 := by rw [pow_succ, h7, neg_mul, ← sq, h2]; ring
        simp only [Complex.sin, Finset.sum_range_succ, Finset.sum_range_zero, Nat.factorial, e1, e2, h2, h3, h4, h5, h6, h7, h8]
        push_cast
        linear_combination (-1 : ℂ) * (x - x ^ 3 / 6 + x ^ 5 / 120 - x ^ 7 / 5040) * h2
      _ ≤ ‖Complex.exp (-x * Complex.I) - ∑ m ∈ Finset.range 9, (-x * Complex.I) ^ m / m.factorial‖ / 2 +
          ‖Complex.exp (x * Complex.I) - ∑ m ∈ Finset.range 9, (x * Complex.I) ^ m / m.factorial‖ / 2 := by
        grw [norm_sub_le]
        simp
      _ ≤ ‖-x * Complex.I‖ ^ 9 * (Nat.succ 9 * (Nat.factorial 9 * (9 : ℕ) : ℝ)⁻¹) / 2 +
          ‖x * Complex.I‖ ^ 9 * (Nat.succ 9 * (Nat.factorial 9 * (9 : ℕ) : ℝ)⁻¹) / 2 := by
        grw [Complex.exp_bound (by simpa) (by simp), Complex.exp_bound (by simpa) (by simp)]
      _ ≤ ‖x‖ ^ 9 * (1 / 326592) := by norm_num [Nat.factorial]
  simpa [← Complex.ofReal_sin, ← norm_eq_abs, ← Complex.norm_real] using key (x := (x : ℂ)) (by simpa)

/-- `tan` grows at least as fast as the identity. -/
theorem tan_sub_ge {x y : ℝ} (hx : -(π / 2) < x) (hy : y < π / 2) (h : x ≤ y) : y - x ≤ tan y - tan x := by
  have cx : 0 < cos x := cos_pos_of_mem_Ioo ⟨hx, h.trans_lt hy⟩
  have cy : 0 < cos y := cos_pos_of_mem_Ioo ⟨hx.trans_le h, hy⟩
  have e : tan y - tan x = sin (y - x) / (cos y * cos x) := by
    rw [tan_eq_sin_div_cos, tan_eq_sin_div_cos, sin_sub]
    field_simp
  have hd : (y - x) / 2 < π / 2 := by linarith
  have hd0 : 0 ≤ (y - x) / 2 := by linarith
  have ch : 0 < cos ((y - x) / 2) := cos_pos_of_mem_Ioo ⟨by linarith [pi_pos], hd⟩
  have e2 : sin (y - x) = 2 * sin ((y - x) / 2) * cos ((y - x) / 2) := by
    rw [← sin_two_mul]; ring_nf
  have e3 : cos y * cos x ≤ cos ((y - x) / 2) ^ 2 := by
    have h1 : cos y * cos x = (cos (y - x) + cos (y + x)) / 2 := by rw [cos_sub, cos_add]; ring
    have h2 : cos ((y - x) / 2) ^ 2 = (cos (y - x) + 1) / 2 := by
      rw [cos_sq]; ring_nf
    rw [h1, h2]
    linarith [cos_le_one (y + x)]
  have sh : 0 ≤ sin ((y - x) / 2) := sin_nonneg_of_nonneg_of_le_pi hd0 (by linarith [pi_pos])
  have ht : (y - x) / 2 ≤ tan ((y - x) / 2) := le_tan hd0 hd
  rw [e]
  calc y - x ≤ 2 * tan ((y - x) / 2) := by linarith
    _ = sin (y - x) / cos ((y - x) / 2) ^ 2 := by
      rw [e2, tan_eq_sin_div_cos]; field_simp
    _ ≤ _ := by
      apply div_le_div_of_nonneg_left _ (by positivity) e3
      rw [e2]; positivity

/-- A Gaussian bound on the cosine around any point of its positive arc. -/
theorem cos_le_gauss {s s0 : ℝ} (h1 : -(π / 2) < s) (h2 : s < π / 2) (h3 : -(π / 2) < s0) (h4 : s0 < π / 2) :
    cos s ≤ cos s0 * exp (-tan s0 * (s - s0) - (s - s0) ^ 2 / 2) := by
  have hd : ∀ x, -(π / 2) < x → x < π / 2 → HasDerivAt (fun x => log (cos x) + x ^ 2 / 2) (-tan x + x) x := by
    intro x a b
    have c : 0 < cos x := cos_pos_of_mem_Ioo ⟨a, b⟩
    have d1 := (hasDerivAt_cos x).log c.ne'
    have d2 := ((hasDerivAt_id x).pow 2).div_const 2
    have := d1.add d2
    refine this.congr_deriv ?_
    rw [tan_eq_sin_div_cos]
    simp
    ring
  have main : log (cos s) + s ^ 2 / 2 ≤ log (cos s0) + s0 ^ 2 / 2 + (-tan s0 + s0) * (s - s0) := by
    rcases lt_trichotomy s s0 with h | h | h
    · obtain ⟨c, hc, e⟩ := exists_hasDerivAt_eq_slope (fun x => log (cos x) + x ^ 2 / 2) (fun x => -tan x + x) h
        (fun x hx => (hd x (h1.trans_le hx.1) (hx.2.trans_lt h4)).continuousAt.continuousWithinAt)
        (fun x hx => hd x (h1.trans hx.1) (hx.2.trans h4))
      have := tan_sub_ge (h1.trans hc.1) h4 hc.2.le
      rw [eq_div_iff (by linarith)] at e
      nlinarith [mul_nonneg (sub_nonneg.2 this) (sub_nonneg.2 h.le)]
    · subst h; simp
    · obtain ⟨c, hc, e⟩ := exists_hasDerivAt_eq_slope (fun x => log (cos x) + x ^ 2 / 2) (fun x => -tan x + x) h
        (fun x hx => (hd x (h3.trans_le hx.1) (hx.2.trans_lt h2)).continuousAt.continuousWithinAt)
        (fun x hx => hd x (h3.trans hx.1) (hx.2.trans h2))
      have := tan_sub_ge h3 (hc.2.trans h2) hc.1.le
      rw [eq_div_iff (by linarith)] at e
      nlinarith [mul_nonneg (sub_nonneg.2 this) (sub_nonneg.2 h.le)]
  have c : 0 < cos s := cos_pos_of_mem_Ioo ⟨h1, h2⟩
  have c0 : 0 < cos s0 := cos_pos_of_mem_Ioo ⟨h3, h4⟩
  have : log (cos s) ≤ log (cos s0) + (-tan s0 * (s - s0) - (s - s0) ^ 2 / 2) := by nlinarith
  calc cos s = exp (log (cos s)) := (exp_log c).symm
    _ ≤ exp (log (cos s0) + (-tan s0 * (s - s0) - (s - s0) ^ 2 / 2)) := exp_le_exp.2 this
    _ = _ := by rw [exp_add, exp_log c0]

/-- Values of the Holder table function at non-negative coordinates. -/
noncomputable def hold (u v : ℝ) : ℝ := abs (sin u * cos v * exp (abs (1 - √(u ^ 2 + v ^ 2) / π)))

/-- Size of `exp |1 - r/π|` when `r` is at most a given multiple of `π`. -/
theorem exp_abs_le {r q B : ℝ} (hr0 : 0 ≤ r) (hr : r / π ≤ q) (hB : exp (q - 1) ≤ B) (hB3 : exp 1 ≤ B) : exp |1 - r / π| ≤ B := by
  have h0 : 0 ≤ r / π := div_nonneg hr0 pi_pos.le
  rcases le_total (1 - r / π) 0 with h | h
  · rw [abs_of_nonpos h]
    exact (exp_le_exp.2 (by linarith)).trans hB
  · rw [abs_of_nonneg h]
    exact (exp_le_exp.2 (by linarith)).trans hB3

theorem hold_le {u v B C : ℝ} (hC : |sin u * cos v| ≤ C) (hB : exp |1 - √(u ^ 2 + v ^ 2) / π| ≤ B) : hold u v ≤ C * B := by
  unfold hold
  rw [abs_mul, abs_of_pos (exp_pos _)]
  exact mul_le_mul hC hB (exp_pos _).le ((abs_nonneg _).trans hC)

theorem sincos_le_one (u v : ℝ) : |sin u * cos v| ≤ 1 := by
  rw [abs_mul]
  exact mul_le_one₀ (abs_sin_le_one u) (abs_nonneg _) (abs_cos_le_one v)

/-- Outside one cell the function is larger than `-19.15`. -/
theorem hold_outside {u v : ℝ} (hu0 : 0 ≤ u) (hu : u ≤ 10) (hv0 : 0 ≤ v) (hv : v ≤ 10)
    (hout : u ≤ 2 * π ∨ 3 * π ≤ u ∨ v ≤ 5 * π / 2) : hold u v ≤ 19.15 := by
  have p1 := pi_gt_d6
  have p2 := pi_lt_d6
  have ppos := pi_pos
  have e1 := exp_one_lt_d9
  have e0 := exp_pos 1
  have e35 : exp 3.5 ≤ 33.12 := by
    have h : exp 3.5 ^ 2 = exp 1 ^ 7 := by rw [← exp_nat_mul, ← exp_nat_mul]; norm_num
    have h7 : exp 1 ^ 7 ≤ 2.7182818286 ^ 7 := pow_le_pow_left₀ e0.le e1.le 7
    rw [← h] at h7
    exact (pow_le_pow_iff_left₀ (exp_pos _).le (by norm_num) two_ne_zero).1 (h7.trans (by norm_num))
  by_cases h3 : 3 * π ≤ u
  · have hs : |sin u| ≤ 10 - 3 * π := by
      have : sin u = -sin (u - 3 * π) := by
        have : sin (u - 3 * π) = -sin u := by
          rw [show u - 3 * π = u - π - 2 * π by ring, sin_sub_two_pi, sin_sub_pi]
        rw [this, neg_neg]
      rw [this, abs_neg]
      exact (abs_sin_le_abs).trans (by rw [abs_of_nonneg (by linarith)]; linarith)
    have hr : √(u ^ 2 + v ^ 2) ≤ 14.1422 := by
      rw [sqrt_le_left (by norm_num)]
      nlinarith
    have hB : exp |1 - √(u ^ 2 + v ^ 2) / π| ≤ 33.2 := by
      refine exp_abs_le (q := 4.502) (sqrt_nonneg _) ?_ ?_ (by linarith)
      · rw [div_le_iff₀ ppos]; nlinarith
      · have h1 : exp (4.502 - 1) = exp 3.5 * exp 0.002 := by rw [← exp_add]; norm_num
        have h2 : exp (0.002 : ℝ) ≤ 1.0021 := by
          have := exp_bound_div_one_sub_of_interval (x := 0.002) (by norm_num) (by norm_num)
          exact this.trans (by norm_num)
        rw [h1]
        calc exp 3.5 * exp 0.002 ≤ 33.12 * 1.0021 := mul_le_mul e35 h2 (exp_pos _).le (by norm_num)
          _ ≤ 33.2 := by norm_num
    have hC : |sin u * cos v| ≤ 0.57523 := by
      rw [abs_mul]
      calc |sin u| * |cos v| ≤ (10 - 3 * π) * 1 := mul_le_mul hs (abs_cos_le_one v) (abs_nonneg _) (by linarith)
        _ ≤ _ := by linarith
    exact (hold_le hC hB).trans (by norm_num)
  · push Not at h3
    have hr : √(u ^ 2 + v ^ 2) ≤ 12.3 := by
      rw [sqrt_le_left (by norm_num)]
      rcases hout with h | h | h
      · nlinarith
      · linarith
      · nlinarith
    have hB : exp |1 - √(u ^ 2 + v ^ 2) / π| ≤ 19.1 := by
      refine exp_abs_le (q := 3.925) (sqrt_nonneg _) ?_ ?_ (by linarith)
      · rw [div_le_iff₀ ppos]; nlinarith
      · have h1 : exp (3.925 - 1) * exp 0.575 = exp 3.5 := by rw [← exp_add]; norm_num
        have h2 : 1.74 ≤ exp (0.575 : ℝ) := by
          have hq := quadratic_le_exp_of_nonneg (x := 0.575) (by norm_num)
          have : (1 : ℝ) + 0.575 + 0.575 ^ 2 / 2 ≤ exp 0.575 := by linarith
          norm_num at this ⊢
          linarith
        by_contra hcon
        push Not at hcon
        have : 19.1 * 1.74 < exp (3.925 - 1) * exp 0.575 := by
          calc (19.1 : ℝ) * 1.74 < exp (3.925 - 1) * 1.74 := by linarith
            _ ≤ _ := mul_le_mul_of_nonneg_left h2 (exp_pos _).le
        rw [h1] at this
        norm_num at this e35
        linarith
    exact (hold_le (sincos_le_one u v) hB).trans (by norm_num)

/-- Inside the cell the function is a product of two cosines and an exponential. -/
theorem hold_cell {u v : ℝ} (h1 : 2 * π ≤ u) (h2 : u ≤ 3 * π) (h3 : 5 * π / 2 ≤ v) (h4 : v ≤ 10) :
    hold u v = cos (u - 5 * π / 2) * cos (v - 3 * π) * exp (√(u ^ 2 + v ^ 2) / π - 1) := by
  have p1 := pi_gt_d6
  have es : sin u = cos (u - 5 * π / 2) := by
    rw [show u - 5 * π / 2 = u - π / 2 - 2 * π by ring, cos_sub_two_pi, cos_sub_pi_div_two]
  have ec : cos v = -cos (v - 3 * π) := by
    rw [show v - 3 * π = v - π - 2 * π by ring, cos_sub_two_pi, cos_sub_pi, neg_neg]
  have c1 : 0 ≤ cos (u - 5 * π / 2) := cos_nonneg_of_mem_Icc ⟨by linarith, by linarith⟩
  have c2 : 0 ≤ cos (v - 3 * π) := cos_nonneg_of_mem_Icc ⟨by linarith, by linarith⟩
  have hr : π ≤ √(u ^ 2 + v ^ 2) := by
    apply le_sqrt_of_sq_le
    nlinarith
  have ha : abs (1 - √(u ^ 2 + v ^ 2) / π) = √(u ^ 2 + v ^ 2) / π - 1 := by
    rw [abs_of_nonpos, neg_sub]
    rw [sub_nonpos, le_div_iff₀ pi_pos, one_mul]
    exact hr
  unfold hold
  rw [ha, es, ec, mul_neg, neg_mul, abs_neg, abs_of_nonneg (by positivity)]

/-- Comparison inside the cell: the value at any point is at most the value at `(u0, v0)` times a Gaussian, up to a small slope. -/
theorem hold_cell_le {u v u0 v0 : ℝ} (h1 : 2 * π ≤ u) (h2 : u ≤ 3 * π) (h3 : 5 * π / 2 ≤ v) (h4 : v ≤ 10)
    (k1 : 2 * π < u0) (k2 : u0 < 3 * π) (k3 : 5 * π / 2 < v0) (k4 : v0 ≤ 10) :
    hold u v ≤ hold u0 v0 * exp ((u0 / (√(u0 ^ 2 + v0 ^ 2) * π) - tan (u0 - 5 * π / 2)) * (u - u0) +
      (v0 / (√(u0 ^ 2 + v0 ^ 2) * π) - tan (v0 - 3 * π)) * (v - v0) -
      (1 / 2 - 1 / (2 * √(u0 ^ 2 + v0 ^ 2) * π)) * ((u - u0) ^ 2 + (v - v0) ^ 2)) := by
  have p1 := pi_gt_d6
  have p2 := pi_lt_d6
  have ppos := pi_pos
  rw [hold_cell h1 h2 h3 h4, hold_cell k1.le k2.le k3.le k4]
  set r0 := √(u0 ^ 2 + v0 ^ 2) with hr0
  have r0pos : 0 < r0 := sqrt_pos.2 (by nlinarith)
  have r0sq : r0 ^ 2 = u0 ^ 2 + v0 ^ 2 := sq_sqrt (by positivity)
  have hr : √(u ^ 2 + v ^ 2) ≤ (u ^ 2 + v ^ 2 + r0 ^ 2) / (2 * r0) := by
    have hsq : √(u ^ 2 + v ^ 2) ^ 2 = u ^ 2 + v ^ 2 := sq_sqrt (by positivity)
    rw [le_div_iff₀ (by positivity)]
    nlinarith [sq_nonneg (√(u ^ 2 + v ^ 2) - r0)]
  have c1 : 0 < cos (u0 - 5 * π / 2) := cos_pos_of_mem_Ioo ⟨by linarith, by linarith⟩
  have c2 : 0 < cos (v0 - 3 * π) := cos_pos_of_mem_Ioo ⟨by linarith, by linarith⟩
  have g1 : cos (u - 5 * π / 2) ≤ cos (u0 - 5 * π / 2) * exp (-tan (u0 - 5 * π / 2) * (u - u0) - (u - u0) ^ 2 / 2) := by
    rcases h1.lt_or_eq with h | h
    · rcases h2.lt_or_eq with h' | h'
      · have := cos_le_gauss (s := u - 5 * π / 2) (s0 := u0 - 5 * π / 2) (by linarith) (by linarith) (by linarith) (by linarith)
        rwa [show u - 5 * π / 2 - (u0 - 5 * π / 2) = u - u0 by ring] at this
      · rw [h', show 3 * π - 5 * π / 2 = π / 2 by ring, cos_pi_div_two]; positivity
    · rw [← h, show 2 * π - 5 * π / 2 = -(π / 2) by ring, cos_neg, cos_pi_div_two]; positivity
  have g2 : cos (v - 3 * π) ≤ cos (v0 - 3 * π) * exp (-tan (v0 - 3 * π) * (v - v0) - (v - v0) ^ 2 / 2) := by
    rcases h3.lt_or_eq with h | h
    · have := cos_le_gauss (s := v - 3 * π) (s0 := v0 - 3 * π) (by linarith) (by linarith) (by linarith) (by linarith)
      rwa [show v - 3 * π - (v0 - 3 * π) = v - v0 by ring] at this
    · rw [← h, show 5 * π / 2 - 3 * π = -(π / 2) by ring, cos_neg, cos_pi_div_two]; positivity
  have c3 : 0 ≤ cos (v - 3 * π) := cos_nonneg_of_mem_Icc ⟨by linarith, by linarith⟩
  have g3 : √(u ^ 2 + v ^ 2) / π - 1 ≤ (u ^ 2 + v ^ 2 + r0 ^ 2) / (2 * r0) / π - 1 :=
    sub_le_sub_right (div_le_div_of_nonneg_right hr ppos.le) 1
  calc cos (u - 5 * π / 2) * cos (v - 3 * π) * exp (√(u ^ 2 + v ^ 2) / π - 1)
      ≤ (cos (u0 - 5 * π / 2) * exp (-tan (u0 - 5 * π / 2) * (u - u0) - (u - u0) ^ 2 / 2)) *
        (cos (v0 - 3 * π) * exp (-tan (v0 - 3 * π) * (v - v0) - (v - v0) ^ 2 / 2)) *
        exp ((u ^ 2 + v ^ 2 + r0 ^ 2) / (2 * r0) / π - 1) := by
        refine mul_le_mul (mul_le_mul g1 g2 c3 (by positivity)) (exp_le_exp.2 g3) (exp_pos _).le (by positivity)
    _ = cos (u0 - 5 * π / 2) * cos (v0 - 3 * π) * (exp (-tan (u0 - 5 * π / 2) * (u - u0) - (u - u0) ^ 2 / 2) *
        exp (-tan (v0 - 3 * π) * (v - v0) - (v - v0) ^ 2 / 2) * exp ((u ^ 2 + v ^ 2 + r0 ^ 2) / (2 * r0) / π - 1)) := by ring
    _ = cos (u0 - 5 * π / 2) * cos (v0 - 3 * π) * (exp (r0 / π - 1) * exp ((u0 / (r0 * π) - tan (u0 - 5 * π / 2)) * (u - u0) +
      (v0 / (r0 * π) - tan (v0 - 3 * π)) * (v - v0) - (1 / 2 - 1 / (2 * r0 * π)) * ((u - u0) ^ 2 + (v - v0) ^ 2))) := by
        rw [← exp_add, ← exp_add, ← exp_add]
        have a1 : r0 / π = (u0 ^ 2 + v0 ^ 2) * (1 / (r0 * π)) := by rw [← r0sq]; field_simp
        have a2 : (u ^ 2 + v ^ 2 + r0 ^ 2) / (2 * r0) / π = (u ^ 2 + v ^ 2 + (u0 ^ 2 + v0 ^ 2)) * (1 / (r0 * π)) / 2 := by
          rw [r0sq]; field_simp
        have a3 : u0 / (r0 * π) = u0 * (1 / (r0 * π)) := by ring
        have a4 : v0 / (r0 * π) = v0 * (1 / (r0 * π)) := by ring
        have a5 : 1 / (2 * r0 * π) = (1 / (r0 * π)) / 2 := by ring
        rw [a1, a2, a3, a4, a5]
        congr 2
        ring
    _ = _ := by ring

set_option maxHeartbeats 1000000 in
-- numerical bounds with many digits
/-- The slopes at the documented point. -/
theorem hold_slopes : 12.58 ≤ √((8.05502 : ℝ) ^ 2 + 9.66459 ^ 2) ∧
    |8.05502 / (√((8.05502 : ℝ) ^ 2 + 9.66459 ^ 2) * π) - tan (8.05502 - 5 * π / 2)| ≤ 4e-6 ∧
    |9.66459 / (√((8.05502 : ℝ) ^ 2 + 9.66459 ^ 2) * π) - tan (9.66459 - 3 * π)| ≤ 1e-6 ∧
    19.20846 ≤ hold 8.05502 9.66459 ∧ hold 8.05502 9.66459 ≤ 19.20854 := by
  have p1 := pi_gt_d20
  have p2 := pi_lt_d20
  have ppos := pi_pos
  have r1 : 12.581241873 ≤ √((8.05502 : ℝ) ^ 2 + 9.66459 ^ 2) := le_sqrt_of_sq_le (by norm_num)
  have r2 : √((8.05502 : ℝ) ^ 2 + 9.66459 ^ 2) ≤ 12.581241874 := by
    rw [sqrt_le_left (by norm_num)]; norm_num
  set r := √((8.05502 : ℝ) ^ 2 + 9.66459 ^ 2) with hr
  have s1 : 0.201038366 ≤ 8.05502 - 5 * π / 2 := by linarith
  have s2 : 8.05502 - 5 * π / 2 ≤ 0.2010383661 := by linarith
  have t1 : 0.239812039 ≤ 9.66459 - 3 * π := by linarith
  have t2 : 9.66459 - 3 * π ≤ 0.2398120393 := by linarith
  have hs : ∀ {x a b : ℝ}, 0 ≤ a → b ≤ 1 → a ≤ x → x ≤ b →
      a - a ^ 3 / 6 + a ^ 5 / 120 - a ^ 7 / 5040 - a ^ 9 * (1 / 326592) ≤ sin x ∧
      sin x ≤ b - b ^ 3 / 6 + b ^ 5 / 120 - b ^ 7 / 5040 + b ^ 9 * (1 / 326592) ∧
      1 - b ^ 2 / 2 + b ^ 4 / 24 - b ^ 6 / 720 - b ^ 8 * (1 / 35840) ≤ cos x ∧
      cos x ≤ 1 - a ^ 2 / 2 + a ^ 4 / 24 - a ^ 6 / 720 + a ^ 8 * (1 / 35840) := by
    intro x a b ha hb hax hxb
    have sa := sin_bound9 (x := a) (by rw [abs_of_nonneg ha]; linarith)
    have sb := sin_bound9 (x := b) (by rw [abs_of_nonneg (by linarith)]; linarith)
    have ca := cos_bound8 (x := a) (by rw [abs_of_nonneg ha]; linarith)
    have cb := cos_bound8 (x := b) (by rw [abs_of_nonneg (by linarith)]; linarith)
    rw [abs_of_nonneg ha] at sa ca
    rw [abs_of_nonneg (show 0 ≤ b by linarith)] at sb cb
    rw [abs_le] at sa sb ca cb
    have m1 := sin_le_sin_of_le_of_le_pi_div_two (x := a) (y := x) (by linarith) (by linarith) hax
    have m2 := sin_le_sin_of_le_of_le_pi_div_two (x := x) (y := b) (by linarith) (by linarith) hxb
    have m3 := cos_le_cos_of_nonneg_of_le_pi (x := a) (y := x) ha (by linarith) hax
    have m4 := cos_le_cos_of_nonneg_of_le_pi (x := x) (y := b) (by linarith) (by linarith) hxb
    exact ⟨by linarith [sa.1], by linarith [sb.2], by linarith [cb.1], by linarith [ca.2]⟩
  obtain ⟨a1, a2, a3, a4⟩ := hs (by norm_num) (by norm_num) s1 s2
  obtain ⟨b1, b2, b3, b4⟩ := hs (by norm_num) (by norm_num) t1 t2
  have A1 : 0.19968689 ≤ sin (8.05502 - 5 * π / 2) := le_trans (by norm_num) a1
  have A2 : sin (8.05502 - 5 * π / 2) ≤ 0.1996868916 := a2.trans (by norm_num)
  have A3 : 0.9798597578 ≤ cos (8.05502 - 5 * π / 2) := le_trans (by norm_num) a3
  have A4 : cos (8.05502 - 5 * π / 2) ≤ 0.9798597584 := a4.trans (by norm_num)
  have B1 : 0.23752004 ≤ sin (9.66459 - 3 * π) := le_trans (by norm_num) b1
  have B2 : sin (9.66459 - 3 * π) ≤ 0.2375200492 := b2.trans (by norm_num)
  have B3 : 0.971382635 ≤ cos (9.66459 - 3 * π) := le_trans (by norm_num) b3
  have B4 : cos (9.66459 - 3 * π) ≤ 0.971382638 := b4.trans (by norm_num)
  clear a1 a2 a3 a4 b1 b2 b3 b4 hs s1 s2 t1 t2
  have w1 : 39.52513703 ≤ r * π := by nlinarith
  have w2 : r * π ≤ 39.52513705 := by nlinarith
  have w0 : 0 < r * π := by linarith
  refine ⟨by linarith, ?_, ?_, ?_⟩
  · have q1 : 0.2037948 ≤ 8.05502 / (r * π) := by rw [le_div_iff₀ w0]; linarith
    have q2 : 8.05502 / (r * π) ≤ 0.2037949 := by rw [div_le_iff₀ w0]; linarith
    have q3 : 0.2037912 ≤ tan (8.05502 - 5 * π / 2) := by
      rw [tan_eq_sin_div_cos, le_div_iff₀ (by linarith)]; linarith
    have q4 : tan (8.05502 - 5 * π / 2) ≤ 0.2037914 := by
      rw [tan_eq_sin_div_cos, div_le_iff₀ (by linarith)]; linarith
    rw [abs_le]
    constructor <;> linarith
  · have q1 : 0.2445175 ≤ 9.66459 / (r * π) := by rw [le_div_iff₀ w0]; linarith
    have q2 : 9.66459 / (r * π) ≤ 0.2445176 := by rw [div_le_iff₀ w0]; linarith
    have q3 : 0.2445174 ≤ tan (9.66459 - 3 * π) := by
      rw [tan_eq_sin_div_cos, le_div_iff₀ (by linarith)]; linarith
    have q4 : tan (9.66459 - 3 * π) ≤ 0.2445176 := by
      rw [tan_eq_sin_div_cos, div_le_iff₀ (by linarith)]; linarith
    rw [abs_le]
    constructor <;> linarith
  · rw [hold_cell (by linarith) (by linarith) (by linarith) (by norm_num), ← hr]
    have v1 : 4.0047336 ≤ r / π := by rw [le_div_iff₀ ppos]; linarith
    have v2 : r / π ≤ 4.0047338 := by rw [div_le_iff₀ ppos]; linarith
    have e1 := exp_one_gt_d9
    have e2 := exp_one_lt_d9
    have e3 : exp 3 = exp 1 ^ 3 := by rw [← exp_nat_mul]; norm_num
    have e4 : 20.085536 ≤ exp 3 := by
      rw [e3]
      have := pow_le_pow_left₀ (by norm_num) e1.le 3
      exact le_trans (by norm_num) this
    have e5 : exp 3 ≤ 20.085538 := by
      rw [e3]
      have := pow_le_pow_left₀ (exp_pos 1).le e2.le 3
      exact this.trans (by norm_num)
    have f1 : 1.0047448 ≤ exp (0.0047336 : ℝ) := by
      have := quadratic_le_exp_of_nonneg (x := 0.0047336) (by norm_num)
      exact le_trans (by norm_num) this
    have f2 : exp (0.0047338 : ℝ) ≤ 1.0047451 := by
      have := exp_bound (x := 0.0047338) (by rw [abs_of_pos] <;> norm_num) (n := 3) (by norm_num)
      rw [abs_le, abs_of_pos (by norm_num)] at this
      norm_num [Finset.sum_range_succ, Nat.factorial] at this ⊢
      linarith
    have g1 : 20.18083 ≤ exp (r / π - 1) := by
      have : exp 3 * exp 0.0047336 ≤ exp (r / π - 1) := by
        rw [← exp_add]; exact exp_le_exp.2 (by linarith)
      refine le_trans ?_ this
      exact le_trans (by norm_num) (mul_le_mul e4 f1 (by norm_num) (exp_pos _).le)
    have g2 : exp (r / π - 1) ≤ 20.180848 := by
      have : exp (r / π - 1) ≤ exp 3 * exp 0.0047338 := by
        rw [← exp_add]; exact exp_le_exp.2 (by linarith)
      refine this.trans ?_
      exact (mul_le_mul e5 f2 (exp_pos _).le (by norm_num)).trans (by norm_num)
    constructor
    · exact le_trans (by norm_num) (mul_le_mul (mul_le_mul A3 B3 (by norm_num) (by linarith)) g1 (by norm_num) (mul_nonneg (by linarith) (by linarith)))
    · exact (mul_le_mul (mul_le_mul A4 B4 (by linarith) (by norm_num)) g2 (exp_pos _).le (by norm_num)).trans (by norm_num)

/-- The Holder table function on `[0,10]²`, compared with the documented point. -/
theorem hold_main {u v : ℝ} (hu0 : 0 ≤ u) (hu : u ≤ 10) (hv0 : 0 ≤ v) (hv : v ≤ 10) :
    hold u v ≤ hold 8.05502 9.66459 + 1e-9 ∧
    (hold 8.05502 9.66459 ≤ hold u v → |u - 8.05502| ≤ 1e-5 ∧ |v - 9.66459| ≤ 1e-5) := by
  obtain ⟨k0, k1, k2, k3, k4⟩ := hold_slopes
  by_cases hout : u ≤ 2 * π ∨ 3 * π ≤ u ∨ v ≤ 5 * π / 2
  · have := hold_outside hu0 hu hv0 hv hout
    exact ⟨by linarith, fun h => by linarith⟩
  · push Not at hout
    obtain ⟨o1, o2, o3⟩ := hout
    have p1 := pi_gt_d6
    have p2 := pi_lt_d6
    have key := hold_cell_le (u0 := 8.05502) (v0 := 9.66459) o1.le o2.le o3.le hv (by linarith) (by linarith) (by linarith) (by norm_num)
    set r := √((8.05502 : ℝ) ^ 2 + 9.66459 ^ 2)
    set α := 8.05502 / (r * π) - tan (8.05502 - 5 * π / 2)
    set β := 9.66459 / (r * π) - tan (9.66459 - 3 * π)
    set h := u - 8.05502
    set k := v - 9.66459
    have hc : 0.48 ≤ 1 / 2 - 1 / (2 * r * π) := by
      have : 1 / (2 * r * π) ≤ 0.02 := by
        rw [div_le_iff₀ (by positivity)]
        nlinarith
      linarith
    have hexp : α * h + β * k - (1 / 2 - 1 / (2 * r * π)) * (h ^ 2 + k ^ 2) ≤ α * h + β * k - 0.48 * (h ^ 2 + k ^ 2) := by
      nlinarith [sq_nonneg h, sq_nonneg k]
    have a2 : α ^ 2 ≤ 1.6e-11 := by
      rw [← sq_abs]
      exact (pow_le_pow_left₀ (abs_nonneg _) k1 2).trans (by norm_num)
    have b2 : β ^ 2 ≤ 1e-12 := by
      rw [← sq_abs]
      exact (pow_le_pow_left₀ (abs_nonneg _) k2 2).trans (by norm_num)
    constructor
    · have hle : α * h + β * k - 0.48 * (h ^ 2 + k ^ 2) ≤ 1e-11 := by
        nlinarith [sq_nonneg (α - 0.96 * h), sq_nonneg (β - 0.96 * k)]
      have : exp (α * h + β * k - (1 / 2 - 1 / (2 * r * π)) * (h ^ 2 + k ^ 2)) ≤ 1 + 2e-11 := by
        refine (exp_le_exp.2 (hexp.trans hle)).trans ?_
        have := exp_bound_div_one_sub_of_interval (x := 1e-11) (by norm_num) (by norm_num)
        exact this.trans (by norm_num)
      have h19 : 0 ≤ hold 8.05502 9.66459 := by linarith
      calc hold u v ≤ _ := key
        _ ≤ hold 8.05502 9.66459 * (1 + 2e-11) := mul_le_mul_of_nonneg_left this h19
        _ ≤ _ := by linarith
    · intro hle
      have hpos : 0 < hold 8.05502 9.66459 := by linarith
      have h1 : 1 ≤ exp (α * h + β * k - (1 / 2 - 1 / (2 * r * π)) * (h ^ 2 + k ^ 2)) := by
        by_contra hcon
        push Not at hcon
        have := mul_lt_mul_of_pos_left hcon hpos
        linarith
      have h0 : 0 ≤ α * h + β * k - 0.48 * (h ^ 2 + k ^ 2) := (one_le_exp_iff.1 h1).trans hexp
      have hh : h ^ 2 + k ^ 2 ≤ (1e-5) ^ 2 := by
        nlinarith [sq_nonneg (α - 0.48 * h), sq_nonneg (β - 0.48 * k)]
      exact ⟨abs_le_of_sq_le_sq (by nlinarith [sq_nonneg k]) (by norm_num), abs_le_of_sq_le_sq (by nlinarith [sq_nonneg h]) (by norm_num)⟩

end Verif
