import Verif.Proofs.Tray

/-! The McCormick and Michalewicz functions on bounded domains. Helper lemmas. -/

namespace Verif

open Real

/-- The part of the McCormick function that depends on `x + y`. -/
theorem mc_pos {t : ℝ} (h : -2.91 ≤ t) (h0 : t ≠ 0) : 0 < √3 * (1 - cos t) + (t - sin t) := by
  have r0 : 0 < √3 := by positivity
  rcases lt_or_gt_of_ne h0 with hn | hp
  · obtain ⟨u, rfl⟩ : ∃ u, t = -u := ⟨-t, by ring⟩
    rw [cos_neg, sin_neg]
    have hu : 0 < u := by linarith
    have hu2 : u ≤ 2.91 := by linarith
    have p1 := pi_gt_d6
    have p2 := pi_lt_d6
    rcases le_or_gt u (2 * π / 3) with h1 | h1
    · obtain ⟨w, rfl⟩ : ∃ w, u = 2 * w := ⟨u / 2, by ring⟩
      have w0 : 0 < w := by linarith
      have c0 : 0 < cos w := cos_pos_of_mem_Ioo ⟨by linarith, by linarith⟩
      have s0 : 0 < sin w := sin_pos_of_pos_of_lt_pi w0 (by linarith)
      have hw := lt_tan w0 (by linarith)
      rw [tan_eq_sin_div_cos, lt_div_iff₀ c0] at hw
      have hs : sin w ≤ √3 * cos w := by
        have := sin_nonneg_of_nonneg_of_le_pi (x := π / 3 - w) (by linarith) (by linarith)
        rw [sin_sub, sin_pi_div_three, cos_pi_div_three] at this
        linarith
      have e := sin_sq_add_cos_sq w
      rw [cos_two_mul, sin_two_mul]
      have k1 : cos w * (w - sin w * cos w) < sin w ^ 3 := by nlinarith
      have k2 : sin w ^ 3 ≤ √3 * cos w * sin w ^ 2 := by nlinarith [sq_nonneg (sin w)]
      have k3 : w - sin w * cos w < √3 * sin w ^ 2 := by
        have : cos w * (w - sin w * cos w) < cos w * (√3 * sin w ^ 2) := by nlinarith
        exact lt_of_mul_lt_mul_left this c0.le
      have : 1 - (2 * cos w ^ 2 - 1) = 2 * sin w ^ 2 := by linarith
      rw [this]
      linarith
    · obtain ⟨v, rfl⟩ : ∃ v, u = π - v := ⟨π - u, by ring⟩
      rw [cos_pi_sub, sin_pi_sub]
      have s0 : 0 ≤ sin v := sin_nonneg_of_nonneg_of_le_pi (by linarith) (by linarith)
      have c0 := one_sub_sq_div_two_le_cos (x := v)
      have r1 : 1.73 ≤ √3 := le_sqrt_of_sq_le (by norm_num)
      have v1 : 0.23 ≤ v := by linarith
      have v2 : v ≤ 1.05 := by linarith
      have k : 1.73 * (2 - v ^ 2 / 2) ≤ √3 * (1 - -cos v) := by
        refine mul_le_mul r1 (by linarith) (by nlinarith) r0.le
      nlinarith
  · have h1 := sin_lt hp
    have h2 := cos_le_one t
    nlinarith

/-- The McCormick function in terms of sum and difference. -/
theorem mc_split (x y : ℝ) : sin (x + y) + (x - y) ^ 2 - 1.5 * x + 2.5 * y + 1 =
    -√3 / 2 - π / 3 + (√3 * (1 - cos (x + y + 2 * π / 3)) + (x + y + 2 * π / 3 - sin (x + y + 2 * π / 3))) / 2 + (x - y - 1) ^ 2 := by
  have c : cos (2 * π / 3) = -(1 / 2) := by
    rw [show 2 * π / 3 = π - π / 3 by ring, cos_pi_sub, cos_pi_div_three]
  have s : sin (2 * π / 3) = √3 / 2 := by
    rw [show 2 * π / 3 = π - π / 3 by ring, sin_pi_sub, sin_pi_div_three]
  have q : √3 * √3 = 3 := mul_self_sqrt (by norm_num)
  rw [cos_add (x + y), sin_add (x + y), c, s]
  linear_combination (-(1 : ℝ) / 4) * sin (x + y) * q

/-- The sine on its first arc, compared with any inner point of it. -/
theorem sin_arc {a b : ℝ} (hb0 : 0 < b) (hb : b < π) (ha0 : 0 ≤ a) (ha : a ≤ π) :
    sin a ≤ sin b * exp (cos b / sin b * (a - b) - (a - b) ^ 2 / 2) := by
  have := sin_exp_arc (k := 0) hb0 hb ha0 ha
  simpa using this

/-- Digits of the slope of the first summand of the Michalewicz function. -/
theorem mich_slope : |cos 2.2029 / sin 2.2029 + 20 * (cos (2.2029 ^ 2 / π) / sin (2.2029 ^ 2 / π) * (2 * 2.2029 / π))| ≤ 3e-4 ∧
    0 ≤ cos (2.2029 ^ 2 / π) / sin (2.2029 ^ 2 / π) ∧ cos (2.2029 ^ 2 / π) / sin (2.2029 ^ 2 / π) ≤ 0.02612 := by
  have p1 := pi_gt_d20
  have p2 := pi_lt_d20
  have ppos := pi_pos
  have v1 : 1.544684160 ≤ 2.2029 ^ 2 / π := by rw [le_div_iff₀ ppos]; linarith
  have v2 : 2.2029 ^ 2 / π ≤ 1.544684161 := by rw [div_le_iff₀ ppos]; linarith
  set u := 2.2029 ^ 2 / π with hu
  obtain ⟨a1, a2, a3, a4⟩ := sincos_bounds (x := π / 2 - u) (a := 0.026112165) (b := 0.026112167) (by norm_num) (by norm_num) (by linarith) (by linarith)
  rw [sin_pi_div_two_sub] at a1 a2
  rw [cos_pi_div_two_sub] at a3 a4
  obtain ⟨b1, b2, b3, b4⟩ := sincos_bounds (x := 2.2029 - π / 2) (a := 0.632103673) (b := 0.632103674) (by norm_num) (by norm_num) (by linarith) (by linarith)
  rw [sin_sub_pi_div_two] at b1 b2
  rw [cos_sub_pi_div_two] at b3 b4
  have su : 0 < sin u := sin_pos_of_pos_of_lt_pi (by linarith) (by linarith)
  have sb : 0 < sin (2.2029 : ℝ) := sin_pos_of_pos_of_lt_pi (by norm_num) (by linarith)
  have c1 : 0.026118 ≤ cos u / sin u := by
    rw [le_div_iff₀ su]
    exact le_trans (mul_le_mul_of_nonneg_left a4 (by norm_num)) (le_trans (by norm_num) a1)
  have c2 : cos u / sin u ≤ 0.0261183 := by
    rw [div_le_iff₀ su]
    exact a2.trans (le_trans (by norm_num) (mul_le_mul_of_nonneg_left a3 (by norm_num)))
  have d1 : 0.73234 ≤ -(cos (2.2029 : ℝ) / sin 2.2029) := by
    rw [← neg_div, le_div_iff₀ sb]
    exact le_trans (mul_le_mul_of_nonneg_left b4 (by norm_num)) (le_trans (by norm_num) b1)
  have d2 : -(cos (2.2029 : ℝ) / sin 2.2029) ≤ 0.732344 := by
    rw [← neg_div, div_le_iff₀ sb]
    exact b2.trans (le_trans (by norm_num) (mul_le_mul_of_nonneg_left b3 (by norm_num)))
  have w1 : 1.402409 ≤ 2 * 2.2029 / π := by rw [le_div_iff₀ ppos]; linarith
  have w2 : 2 * 2.2029 / π ≤ 1.40241 := by rw [div_le_iff₀ ppos]; linarith
  have m1 : 0.026118 * 1.402409 ≤ cos u / sin u * (2 * 2.2029 / π) := mul_le_mul c1 w1 (by norm_num) (by linarith)
  have m2 : cos u / sin u * (2 * 2.2029 / π) ≤ 0.0261183 * 1.40241 := mul_le_mul c2 w2 (by positivity) (by norm_num)
  refine ⟨?_, by linarith, by linarith⟩
  rw [abs_le]
  constructor <;> linarith

/-- The first summand on `[0,π]`. -/
theorem mich_first {x : ℝ} (h0 : 0 ≤ x) (h1 : x ≤ π) : sin x * sin (x ^ 2 / π) ^ 20 ≤ sin 2.2029 * sin (2.2029 ^ 2 / π) ^ 20 *
    exp ((cos 2.2029 / sin 2.2029 + 20 * (cos (2.2029 ^ 2 / π) / sin (2.2029 ^ 2 / π) * (2 * 2.2029 / π))) * (x - 2.2029) - 5 * (x - 2.2029) ^ 2) := by
  have p1 := pi_gt_d6
  have p2 := pi_lt_d6
  have ppos := pi_pos
  obtain ⟨-, k1, k2⟩ := mich_slope
  have v1 : 1.5 ≤ 2.2029 ^ 2 / π := by rw [le_div_iff₀ ppos]; linarith
  have v2 : 2.2029 ^ 2 / π ≤ 1.6 := by rw [div_le_iff₀ ppos]; linarith
  have u0 : 0 ≤ x ^ 2 / π := by positivity
  have u1 : x ^ 2 / π ≤ π := by rw [div_le_iff₀ ppos]; nlinarith
  have A := sin_arc (b := 2.2029) (by norm_num) (by linarith) h0 h1
  have B := sin_arc (b := 2.2029 ^ 2 / π) (by linarith) (by linarith) u0 u1
  have B' := pow_le_pow_left₀ (sin_nonneg_of_nonneg_of_le_pi u0 u1) B 20
  have sb : 0 < sin (2.2029 : ℝ) := sin_pos_of_pos_of_lt_pi (by norm_num) (by linarith)
  have su : 0 < sin (2.2029 ^ 2 / π) := sin_pos_of_pos_of_lt_pi (by linarith) (by linarith)
  have C := mul_le_mul A B' (pow_nonneg (sin_nonneg_of_nonneg_of_le_pi u0 u1) _) (by positivity)
  refine C.trans ?_
  rw [mul_pow, ← exp_nat_mul]
  set c := cos (2.2029 ^ 2 / π) / sin (2.2029 ^ 2 / π)
  set d := cos (2.2029 : ℝ) / sin 2.2029
  have hu : x ^ 2 / π - 2.2029 ^ 2 / π = (2 * 2.2029 / π) * (x - 2.2029) + (x - 2.2029) ^ 2 / π := by field_simp; ring
  have hu2 : 0.49 * (x - 2.2029) ^ 2 ≤ (x ^ 2 / π - 2.2029 ^ 2 / π) ^ 2 := by
    have e : x ^ 2 / π - 2.2029 ^ 2 / π = (x - 2.2029) * ((x + 2.2029) / π) := by field_simp; ring
    have f : 0.7 ≤ (x + 2.2029) / π := by rw [le_div_iff₀ ppos]; linarith
    have f2 : 0.49 ≤ ((x + 2.2029) / π) ^ 2 := le_trans (by norm_num) (pow_le_pow_left₀ (by norm_num) f 2)
    rw [e, mul_pow, mul_comm]
    exact mul_le_mul_of_nonneg_left f2 (sq_nonneg _)
  have hc : c * ((x - 2.2029) ^ 2 / π) ≤ 0.02 * (x - 2.2029) ^ 2 := by
    have : (x - 2.2029) ^ 2 / π ≤ (x - 2.2029) ^ 2 * (1 / 2) := by
      rw [div_le_iff₀ ppos]; nlinarith [sq_nonneg (x - 2.2029)]
    calc c * ((x - 2.2029) ^ 2 / π) ≤ 0.02612 * ((x - 2.2029) ^ 2 * (1 / 2)) := mul_le_mul k2 this (by positivity) (by norm_num)
      _ ≤ _ := by nlinarith [sq_nonneg (x - 2.2029)]
  have main : exp (d * (x - 2.2029) - (x - 2.2029) ^ 2 / 2) * exp ((20 : ℕ) * (c * (x ^ 2 / π - 2.2029 ^ 2 / π) - (x ^ 2 / π - 2.2029 ^ 2 / π) ^ 2 / 2)) ≤
      exp ((d + 20 * (c * (2 * 2.2029 / π))) * (x - 2.2029) - 5 * (x - 2.2029) ^ 2) := by
    rw [← exp_add]
    apply exp_le_exp.2
    have : c * (x ^ 2 / π - 2.2029 ^ 2 / π) = c * (2 * 2.2029 / π) * (x - 2.2029) + c * ((x - 2.2029) ^ 2 / π) := by rw [hu]; ring
    rw [this]
    push_cast
    nlinarith [sq_nonneg (x - 2.2029)]
  calc _ = sin 2.2029 * sin (2.2029 ^ 2 / π) ^ 20 * (exp (d * (x - 2.2029) - (x - 2.2029) ^ 2 / 2) *
        exp ((20 : ℕ) * (c * (x ^ 2 / π - 2.2029 ^ 2 / π) - (x ^ 2 / π - 2.2029 ^ 2 / π) ^ 2 / 2))) := by ring
    _ ≤ _ := mul_le_mul_of_nonneg_left main (by positivity)

/-- The second summand at the listed point. -/
theorem mich_second : 1 - 1e-9 ≤ sin 1.5708 * sin (2 * 1.5708 ^ 2 / π) ^ 20 := by
  have p1 := pi_gt_d20
  have p2 := pi_lt_d20
  have ppos := pi_pos
  have s1 : 1 - 1e-11 ≤ sin 1.5708 := by
    rw [show (1.5708 : ℝ) = 1.5708 - π / 2 + π / 2 by ring, sin_add_pi_div_two]
    refine le_trans ?_ (one_sub_sq_div_two_le_cos)
    nlinarith
  have v1 : π / 2 ≤ 2 * 1.5708 ^ 2 / π := by rw [le_div_iff₀ ppos]; nlinarith
  have v2 : 2 * 1.5708 ^ 2 / π ≤ π / 2 + 7.4e-6 := by rw [div_le_iff₀ ppos]; nlinarith
  have s2 : 1 - 2.8e-11 ≤ sin (2 * 1.5708 ^ 2 / π) := by
    rw [show 2 * 1.5708 ^ 2 / π = 2 * 1.5708 ^ 2 / π - π / 2 + π / 2 by ring, sin_add_pi_div_two]
    refine le_trans ?_ (one_sub_sq_div_two_le_cos)
    nlinarith
  have s3 := pow_le_pow_left₀ (by norm_num) s2 20
  exact le_trans (by norm_num) (mul_le_mul s1 s3 (by norm_num) (by linarith))

end Verif
