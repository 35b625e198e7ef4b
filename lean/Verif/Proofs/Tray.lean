import Verif.Proofs.Holder
import Mathlib.Analysis.SpecialFunctions.Pow.Real
import Mathlib.Analysis.SpecialFunctions.Trigonometric.Arctan

/-! The cross-in-tray, McCormick and Michalewicz functions on bounded domains. Helper lemmas. -/

namespace Verif

open Real

/-- Bounds for sine and cosine on an interval inside `[0,1]`. -/
theorem sincos_bounds {x a b : ℝ} (ha : 0 ≤ a) (hb : b ≤ 1) (hax : a ≤ x) (hxb : x ≤ b) :
    a - a ^ 3 / 6 + a ^ 5 / 120 - a ^ 7 / 5040 - a ^ 9 * (1 / 326592) ≤ sin x ∧
    sin x ≤ b - b ^ 3 / 6 + b ^ 5 / 120 - b ^ 7 / 5040 + b ^ 9 * (1 / 326592) ∧
    1 - b ^ 2 / 2 + b ^ 4 / 24 - b ^ 6 / 720 - b ^ 8 * (1 / 35840) ≤ cos x ∧
    cos x ≤ 1 - a ^ 2 / 2 + a ^ 4 / 24 - a ^ 6 / 720 + a ^ 8 * (1 / 35840) := by
  have p1 := pi_gt_three
  have sa := sin_bound9 (x := a) (by rw [abs_of_nonneg ha]; linarith)
  have sb := sin_bound9 (x := b) (by rw [abs_of_nonneg (by linarith)]; linarith)
  have ca := cos_bound8 (x := a) (by rw [abs_of_nonneg ha]; linarith)
  have cb := cos_bound8 (x := b) (by rw [abs_of_nonneg (by linarith)]; linarith)
  rw [abs_of_nonneg ha] at sa ca
  rw [abs_of_nonneg (show 0 ≤ b by linarith)] at sb cb
  rw [abs_le] at sa sb ca cb
  have m1 := sin_le_sin_of_le_of_le_pi_div_two (x := a) (y := x) (by linarith) (by linarith) hax
  have m2 := sin_le_sin_of_le_of_le_pi_div_two (x := x) (y := b) (by linarith) (by linarith) hxb
  have m3 := cos_le_cos_of_nonneg_of_le_pi (x := a) (y := x) ha (by linarith) hax
  have m4 := cos_le_cos_of_nonneg_of_le_pi (x := x) (y := b) (by linarith) (by linarith) hxb
  exact ⟨by linarith [sa.1], by linarith [sb.2], by linarith [cb.1], by linarith [ca.2]⟩

/-- The damped sine, compared with any point of its first arc. -/
theorem sin_exp_arc {k a b : ℝ} (hb0 : 0 < b) (hb : b < π) (ha0 : 0 ≤ a) (ha : a ≤ π) :
    sin a * exp (-k * a) ≤ sin b * exp (-k * b) * exp ((cos b / sin b - k) * (a - b) - (a - b) ^ 2 / 2) := by
  have sb : 0 < sin b := sin_pos_of_pos_of_lt_pi hb0 hb
  have ht : tan (b - π / 2) = -(cos b / sin b) := by
    rw [tan_eq_sin_div_cos, sin_sub_pi_div_two, cos_sub_pi_div_two, neg_div]
  have hs : sin a ≤ sin b * exp (cos b / sin b * (a - b) - (a - b) ^ 2 / 2) := by
    rcases ha0.lt_or_eq with h | h
    · rcases ha.lt_or_eq with h' | h'
      · have := cos_le_gauss (s := a - π / 2) (s0 := b - π / 2) (by linarith) (by linarith) (by linarith) (by linarith)
        rwa [cos_sub_pi_div_two, cos_sub_pi_div_two, ht, neg_neg, show a - π / 2 - (b - π / 2) = a - b by ring] at this
      · rw [h', sin_pi]; positivity
    · rw [← h, sin_zero]; positivity
  calc sin a * exp (-k * a) ≤ sin b * exp (cos b / sin b * (a - b) - (a - b) ^ 2 / 2) * exp (-k * a) :=
        mul_le_mul_of_nonneg_right hs (exp_pos _).le
    _ = sin b * (exp (cos b / sin b * (a - b) - (a - b) ^ 2 / 2) * exp (-k * a)) := by ring
    _ = sin b * (exp (-k * b) * exp ((cos b / sin b - k) * (a - b) - (a - b) ^ 2 / 2)) := by
        rw [← exp_add, ← exp_add]; congr 2; ring
    _ = _ := by ring

/-- The damped sine is largest where its slope vanishes on the first arc, and only there. -/
theorem sin_exp_max {k a b : ℝ} (hk : 0 < k) (hb0 : 0 < b) (hb : b < π) (hc : cos b / sin b = k) (ha : 0 ≤ a) :
    |sin a| * exp (-k * a) ≤ sin b * exp (-k * b) ∧ (|sin a| * exp (-k * a) = sin b * exp (-k * b) → a = b) := by
  have sb : 0 < sin b := sin_pos_of_pos_of_lt_pi hb0 hb
  have G : 0 < sin b * exp (-k * b) := by positivity
  have arc : ∀ c, 0 ≤ c → c ≤ π → sin c * exp (-k * c) ≤ sin b * exp (-k * b) * exp (-(c - b) ^ 2 / 2) := by
    intro c h0 h1
    have := sin_exp_arc (k := k) hb0 hb h0 h1
    rw [hc] at this
    refine this.trans_eq ?_
    congr 2
    ring
  have le1 : ∀ c, exp (-(c - b) ^ 2 / 2) ≤ 1 := fun c => exp_le_one_iff.2 (by nlinarith [sq_nonneg (c - b)])
  by_cases h : a ≤ π
  · rw [abs_of_nonneg (sin_nonneg_of_nonneg_of_le_pi ha h)]
    have := arc a ha h
    refine ⟨this.trans (mul_le_of_le_one_right G.le (le1 a)), fun e => ?_⟩
    rw [e] at this
    have h1 : 1 ≤ exp (-(a - b) ^ 2 / 2) := by
      by_contra hcon
      push Not at hcon
      have := mul_lt_mul_of_pos_left hcon G
      linarith
    have h2 := one_le_exp_iff.1 h1
    have h3 : (a - b) ^ 2 = 0 := le_antisymm (by linarith) (sq_nonneg _)
    have h4 : a - b = 0 := by simpa using h3
    linarith
  · push Not at h
    have ppos := pi_pos
    obtain ⟨n, hn1, hn2⟩ : ∃ n : ℕ, (n : ℝ) * π ≤ a ∧ a < (n + 1) * π := by
      refine ⟨⌊a / π⌋₊, ?_, ?_⟩
      · rw [← le_div_iff₀ ppos]; exact Nat.floor_le (by positivity)
      · rw [← div_lt_iff₀ ppos]; exact Nat.lt_floor_add_one _
    have hn0 : 1 ≤ n := by
      rcases Nat.eq_zero_or_pos n with h0 | h0
      · subst h0; simp at hn2; linarith
      · exact h0
    have hs : |sin a| = |sin (a - n * π)| := by
      rw [sin_sub_nat_mul_pi, abs_mul, abs_pow, abs_neg, abs_one, one_pow, one_mul]
    have c0 : 0 ≤ a - n * π := by linarith
    have c1 : a - n * π ≤ π := by linarith
    have s0 := sin_nonneg_of_nonneg_of_le_pi c0 c1
    have hstrict : |sin a| * exp (-k * a) < sin b * exp (-k * b) := by
      rw [hs, abs_of_nonneg s0]
      rcases s0.lt_or_eq with hp | hp
      · calc sin (a - n * π) * exp (-k * a) < sin (a - n * π) * exp (-k * (a - n * π)) := by
              apply mul_lt_mul_of_pos_left _ hp
              apply exp_lt_exp.2
              have : 0 < k * (n * π) := by
                have : (0 : ℝ) < n := by exact_mod_cast hn0
                positivity
              linarith
          _ ≤ _ := (arc _ c0 c1).trans (mul_le_of_le_one_right G.le (le1 _))
      · rw [← hp, zero_mul]; exact G
    exact ⟨hstrict.le, fun e => absurd e hstrict.ne⟩

/-- The common coordinate of the minimisers of the cross-in-tray function. -/
noncomputable def trayPt : ℝ := arctan (π * √2)

theorem trayPt_pos : 0 < trayPt ∧ trayPt < π / 2 :=
  ⟨arctan_pos.2 (by positivity), arctan_lt_pi_div_two _⟩

theorem trayPt_cot : cos trayPt / sin trayPt = 1 / (π * √2) := by
  have h := tan_arctan (π * √2)
  rw [tan_eq_sin_div_cos] at h
  rw [← h, one_div_div]
  rfl

/-- The argument of the power in the cross-in-tray function, inside the disc of radius `100 π`. -/
theorem tray_arg {x y : ℝ} (h : x ^ 2 + y ^ 2 ≤ (100 * π) ^ 2) :
    abs (sin x * sin y * exp (abs (100 - √(x ^ 2 + y ^ 2) / π))) = |sin x| * |sin y| * exp (100 - √(x ^ 2 + y ^ 2) / π) := by
  have h1 : √(x ^ 2 + y ^ 2) / π ≤ 100 := by
    rw [div_le_iff₀ pi_pos]
    exact sqrt_le_iff.2 ⟨by positivity, h⟩
  rw [abs_of_nonneg (sub_nonneg.2 h1), abs_mul, abs_mul, abs_of_pos (exp_pos _)]

theorem tray_diag {a : ℝ} (ha : 0 ≤ a) : √(a ^ 2 + a ^ 2) / π = 1 / (π * √2) * a + 1 / (π * √2) * a := by
  have h2 : √2 ^ 2 = 2 := sq_sqrt (by norm_num)
  have h0 : 0 < √2 := by positivity
  have : √(a ^ 2 + a ^ 2) = a * √2 := by
    rw [show a ^ 2 + a ^ 2 = a ^ 2 * 2 by ring, sqrt_mul (sq_nonneg a), sqrt_sq ha]
  rw [this]
  field_simp
  rw [h2]; ring

/-- The argument is at most its value at the diagonal point, with equality only there. -/
theorem tray_le {x y : ℝ} :
    |sin x| * |sin y| * exp (100 - √(x ^ 2 + y ^ 2) / π) ≤ sin trayPt * sin trayPt * exp (100 - √(trayPt ^ 2 + trayPt ^ 2) / π) ∧
    (|sin x| * |sin y| * exp (100 - √(x ^ 2 + y ^ 2) / π) = sin trayPt * sin trayPt * exp (100 - √(trayPt ^ 2 + trayPt ^ 2) / π) →
      |x| = trayPt ∧ |y| = trayPt) := by
  have ppos := pi_pos
  obtain ⟨b0, b1⟩ := trayPt_pos
  have hab : ∀ z, |sin z| = |sin (|z|)| := by
    intro z
    rcases abs_choice z with h | h <;> rw [h]
    rw [sin_neg, abs_neg]
  set k := 1 / (π * √2) with hk
  have k0 : 0 < k := by positivity
  have h2 : √2 ^ 2 = 2 := sq_sqrt (by norm_num)
  have hr : k * |x| + k * |y| ≤ √(x ^ 2 + y ^ 2) / π := by
    rw [le_div_iff₀ ppos]
    have e : (k * |x| + k * |y|) * π = (|x| + |y|) / √2 := by rw [hk]; field_simp
    rw [e, div_le_iff₀ (by positivity)]
    refine abs_le_of_sq_le_sq' ?_ (by positivity) |>.2
    rw [mul_pow, h2, sq_sqrt (by positivity)]
    nlinarith [sq_nonneg (|x| - |y|), sq_abs x, sq_abs y]
  obtain ⟨mx, ex⟩ := sin_exp_max (a := |x|) k0 b0 (by linarith) trayPt_cot (abs_nonneg x)
  obtain ⟨my, ey⟩ := sin_exp_max (a := |y|) k0 b0 (by linarith) trayPt_cot (abs_nonneg y)
  rw [← hab] at mx ex my ey
  set G := sin trayPt * exp (-k * trayPt) with hG
  have G0 : 0 < G := mul_pos (sin_pos_of_pos_of_lt_pi b0 (by linarith)) (exp_pos _)
  have e1 : sin trayPt * sin trayPt * exp (100 - √(trayPt ^ 2 + trayPt ^ 2) / π) = exp 100 * (G * G) := by
    rw [tray_diag b0.le, ← hk, sub_eq_add_neg, exp_add, show -(k * trayPt + k * trayPt) = -k * trayPt + -k * trayPt by ring, exp_add]
    ring
  have e2 : |sin x| * |sin y| * exp (100 - √(x ^ 2 + y ^ 2) / π) ≤ exp 100 * ((|sin x| * exp (-k * |x|)) * (|sin y| * exp (-k * |y|))) := by
    have : exp (100 - √(x ^ 2 + y ^ 2) / π) ≤ exp 100 * (exp (-k * |x|) * exp (-k * |y|)) := by
      rw [← exp_add, ← exp_add]
      exact exp_le_exp.2 (by linarith)
    calc _ ≤ |sin x| * |sin y| * (exp 100 * (exp (-k * |x|) * exp (-k * |y|))) := mul_le_mul_of_nonneg_left this (by positivity)
      _ = _ := by ring
  have A0 : 0 ≤ |sin x| * exp (-k * |x|) := by positivity
  have B0 : 0 ≤ |sin y| * exp (-k * |y|) := by positivity
  have e100 := exp_pos 100
  have e3 : (|sin x| * exp (-k * |x|)) * (|sin y| * exp (-k * |y|)) ≤ G * G := mul_le_mul mx my B0 G0.le
  rw [e1]
  refine ⟨e2.trans (mul_le_mul_of_nonneg_left e3 e100.le), fun h => ?_⟩
  rw [h] at e2
  have e4 := le_of_mul_le_mul_left e2 e100
  have e5 : |sin x| * exp (-k * |x|) = G := by
    by_contra hne
    have hlt := lt_of_le_of_ne mx hne
    have : (|sin x| * exp (-k * |x|)) * (|sin y| * exp (-k * |y|)) < G * G :=
      (mul_le_mul_of_nonneg_left my A0).trans_lt (mul_lt_mul_of_pos_right hlt G0)
    linarith
  have e6 : |sin y| * exp (-k * |y|) = G := by
    by_contra hne
    have hlt := lt_of_le_of_ne my hne
    have : (|sin x| * exp (-k * |x|)) * (|sin y| * exp (-k * |y|)) < G * G :=
      (mul_le_mul_of_nonneg_right mx B0).trans_lt (mul_lt_mul_of_pos_left hlt G0)
    linarith
  exact ⟨ex e5, ey e6⟩

/-- Digits of the minimiser. -/
theorem trayPt_digits : 1.349405 ≤ trayPt ∧ trayPt ≤ 1.349415 := by
  have p1 := pi_gt_d20
  have p2 := pi_lt_d20
  have q1 : 1.4142135 ≤ √2 := le_sqrt_of_sq_le (by norm_num)
  have q2 : √2 ≤ 1.4142136 := sqrt_le_iff.2 ⟨by norm_num, by norm_num⟩
  have w1 : 4.44288 ≤ π * √2 := by nlinarith
  have w2 : π * √2 ≤ 4.442884 := by nlinarith
  have ht : ∀ c : ℝ, tan c = cos (π / 2 - c) / sin (π / 2 - c) := by
    intro c
    rw [cos_pi_div_two_sub, sin_pi_div_two_sub, tan_eq_sin_div_cos]
  constructor
  · obtain ⟨s1, -, -, c2⟩ := sincos_bounds (x := π / 2 - 1.349405) (a := 0.2213913) (b := 0.2213914) (by norm_num) (by norm_num) (by linarith) (by linarith)
    have : tan 1.349405 ≤ π * √2 := by
      rw [ht, div_le_iff₀ (lt_of_lt_of_le (by norm_num) s1)]
      refine c2.trans (le_trans ?_ (mul_le_mul w1 s1 (by norm_num) (by positivity)))
      norm_num
    have := arctan_mono this
    rwa [arctan_tan (by linarith) (by linarith)] at this
  · obtain ⟨-, s2, c1, -⟩ := sincos_bounds (x := π / 2 - 1.349415) (a := 0.2213813) (b := 0.2213814) (by norm_num) (by norm_num) (by linarith) (by linarith)
    have sp : 0 < sin (π / 2 - 1.349415) := sin_pos_of_pos_of_lt_pi (by linarith) (by linarith)
    have : π * √2 ≤ tan 1.349415 := by
      rw [ht, le_div_iff₀ sp]
      refine le_trans (mul_le_mul w2 s2 sp.le (by norm_num)) (le_trans ?_ c1)
      norm_num
    have := arctan_mono this
    rwa [arctan_tan (by linarith) (by linarith)] at this

/-- The tenth root, compared with a number whose tenth power is known. -/
theorem root10_le {P B : ℝ} (hP : 0 ≤ P) (hB : 0 ≤ B) : (P ≤ B ^ 10 → P ^ (0.1 : ℝ) ≤ B) ∧ (B ^ 10 ≤ P → B ≤ P ^ (0.1 : ℝ)) := by
  have e : (B ^ 10) ^ (0.1 : ℝ) = B := by
    have := pow_rpow_inv_natCast hB (n := 10) (by norm_num)
    norm_num at this ⊢
    exact this
  constructor
  · intro h
    rw [← e]
    exact rpow_le_rpow hP h (by norm_num)
  · intro h
    rw [← e]
    exact rpow_le_rpow (by positivity) h (by norm_num)

theorem tray_sin_sq : sin trayPt * sin trayPt = 2 * π ^ 2 / (1 + 2 * π ^ 2) := by
  have h := sin_arctan (π * √2)
  have h2 : √2 ^ 2 = 2 := sq_sqrt (by norm_num)
  have e : (π * √2) ^ 2 = 2 * π ^ 2 := by rw [mul_pow, h2]; ring
  rw [e] at h
  rw [trayPt, h, div_mul_div_comm, mul_self_sqrt (by positivity), ← sq, e]

/-- Digits of the minimum. -/
theorem tray_value : 20626.05 ^ 10 - 1 ≤ sin trayPt * sin trayPt * exp (100 - √(trayPt ^ 2 + trayPt ^ 2) / π) ∧
    sin trayPt * sin trayPt * exp (100 - √(trayPt ^ 2 + trayPt ^ 2) / π) ≤ 20626.15 ^ 10 - 1 := by
  have p1 := pi_gt_d20
  have p2 := pi_lt_d20
  have ppos := pi_pos
  obtain ⟨t1, t2⟩ := trayPt_digits
  have q1 : 1.4142135 ≤ √2 := le_sqrt_of_sq_le (by norm_num)
  have q2 : √2 ≤ 1.4142136 := sqrt_le_iff.2 ⟨by norm_num, by norm_num⟩
  have w1 : 4.44288 ≤ π * √2 := by nlinarith
  have w2 : π * √2 ≤ 4.442884 := by nlinarith
  have w0 : 0 < π * √2 := by positivity
  rw [tray_diag trayPt_pos.1.le, tray_sin_sq]
  have k1 : 0.607445 ≤ 1 / (π * √2) * trayPt + 1 / (π * √2) * trayPt := by
    rw [show 1 / (π * √2) * trayPt + 1 / (π * √2) * trayPt = 2 * trayPt / (π * √2) by ring, le_div_iff₀ w0]
    linarith
  have k2 : 1 / (π * √2) * trayPt + 1 / (π * √2) * trayPt ≤ 0.6074506 := by
    rw [show 1 / (π * √2) * trayPt + 1 / (π * √2) * trayPt = 2 * trayPt / (π * √2) by ring, div_le_iff₀ w0]
    linarith
  have s1 : 0.951782 ≤ 2 * π ^ 2 / (1 + 2 * π ^ 2) := by
    rw [le_div_iff₀ (by positivity)]; nlinarith
  have s2 : 2 * π ^ 2 / (1 + 2 * π ^ 2) ≤ 0.9517823 := by
    rw [div_le_iff₀ (by positivity)]; nlinarith
  have e1 := exp_one_gt_d9
  have e2 := exp_one_lt_d9
  have e3 : exp 100 = exp 1 ^ 100 := by rw [← exp_nat_mul]; norm_num
  have b1 := exp_bound (x := -0.6074506) (by rw [abs_of_neg] <;> norm_num) (n := 9) (by norm_num)
  have b2 := exp_bound (x := -0.607445) (by rw [abs_of_neg] <;> norm_num) (n := 9) (by norm_num)
  rw [abs_le, abs_of_neg (by norm_num)] at b1 b2
  have c1 : 0.544737 ≤ exp (-0.6074506) := by
    have := b1.1
    norm_num [Finset.sum_range_succ, Nat.factorial] at this ⊢
    linarith
  have c2 : exp (-0.607445) ≤ 0.5447413 := by
    have := b2.2
    norm_num [Finset.sum_range_succ, Nat.factorial] at this ⊢
    linarith
  constructor
  · have h1 : (2.7182818283 : ℝ) ^ 100 ≤ exp 100 := by rw [e3]; exact pow_le_pow_left₀ (by norm_num) e1.le 100
    have h2 : exp 100 * exp (-0.6074506) ≤ exp (100 - (1 / (π * √2) * trayPt + 1 / (π * √2) * trayPt)) := by
      rw [← exp_add]; exact exp_le_exp.2 (by linarith)
    have h3 : (2.7182818283 : ℝ) ^ 100 * 0.544737 ≤ exp (100 - (1 / (π * √2) * trayPt + 1 / (π * √2) * trayPt)) :=
      (mul_le_mul h1 c1 (by norm_num) (exp_pos _).le).trans h2
    refine le_trans ?_ (mul_le_mul s1 h3 (by positivity) (by positivity))
    norm_num
  · have h1 : exp 100 ≤ (2.7182818286 : ℝ) ^ 100 := by rw [e3]; exact pow_le_pow_left₀ (exp_pos 1).le e2.le 100
    have h2 : exp (100 - (1 / (π * √2) * trayPt + 1 / (π * √2) * trayPt)) ≤ exp 100 * exp (-0.607445) := by
      rw [← exp_add]; exact exp_le_exp.2 (by linarith)
    have h3 : exp (100 - (1 / (π * √2) * trayPt + 1 / (π * √2) * trayPt)) ≤ (2.7182818286 : ℝ) ^ 100 * 0.5447413 :=
      h2.trans (mul_le_mul h1 c2 (exp_pos _).le (by positivity))
    refine le_trans (mul_le_mul s2 h3 (exp_pos _).le (by norm_num)) ?_
    norm_num

/-- The rounded point is almost as good as the minimiser. -/
theorem tray_round : sin trayPt * sin trayPt * exp (100 - √(trayPt ^ 2 + trayPt ^ 2) / π) ≤
    sin 1.34941 * sin 1.34941 * exp (100 - √((1.34941 : ℝ) ^ 2 + 1.34941 ^ 2) / π) * exp 1e-10 := by
  have p1 := pi_gt_d20
  have p2 := pi_lt_d20
  have ppos := pi_pos
  obtain ⟨t1, t2⟩ := trayPt_digits
  have q1 : 1.4142135 ≤ √2 := le_sqrt_of_sq_le (by norm_num)
  have q2 : √2 ≤ 1.4142136 := sqrt_le_iff.2 ⟨by norm_num, by norm_num⟩
  have w1 : 4.44288 ≤ π * √2 := by nlinarith
  have w2 : π * √2 ≤ 4.442884 := by nlinarith
  have w0 : 0 < π * √2 := by positivity
  have key := sin_exp_arc (k := 1 / (π * √2)) (a := trayPt) (b := 1.34941) (by norm_num) (by linarith) trayPt_pos.1.le (by linarith)
  have k1 : 0.225079 ≤ 1 / (π * √2) := by rw [le_div_iff₀ w0]; linarith
  have k2 : 1 / (π * √2) ≤ 0.22508 := by rw [div_le_iff₀ w0]; linarith
  obtain ⟨s1, s2, c1, c2⟩ := sincos_bounds (x := π / 2 - 1.34941) (a := 0.22138632) (b := 0.22138633) (by norm_num) (by norm_num) (by linarith) (by linarith)
  rw [sin_pi_div_two_sub] at s1 s2
  rw [cos_pi_div_two_sub] at c1 c2
  have sp : 0 < sin (1.34941 : ℝ) := sin_pos_of_pos_of_lt_pi (by norm_num) (by linarith)
  have r1 : 0.22507 ≤ cos (1.34941 : ℝ) / sin 1.34941 := by
    rw [le_div_iff₀ sp]
    exact le_trans (mul_le_mul_of_nonneg_left c2 (by norm_num)) (le_trans (by norm_num) s1)
  have r2 : cos (1.34941 : ℝ) / sin 1.34941 ≤ 0.22508 := by
    rw [div_le_iff₀ sp]
    exact s2.trans (le_trans (by norm_num) (mul_le_mul_of_nonneg_left c1 (by norm_num)))
  set q := cos (1.34941 : ℝ) / sin 1.34941
  set k := 1 / (π * √2) with hk
  have ex : (q - k) * (trayPt - 1.34941) - (trayPt - 1.34941) ^ 2 / 2 ≤ 5e-11 := by
    have a1 : |q - k| ≤ 1e-5 := by rw [abs_le]; constructor <;> linarith
    have a2 : |trayPt - 1.34941| ≤ 5e-6 := by rw [abs_le]; constructor <;> linarith
    have a3 : (q - k) * (trayPt - 1.34941) ≤ 1e-5 * 5e-6 :=
      (le_abs_self _).trans (by rw [abs_mul]; exact mul_le_mul a1 a2 (abs_nonneg _) (by norm_num))
    nlinarith [sq_nonneg (trayPt - 1.34941)]
  have st : 0 < sin trayPt := sin_pos_of_pos_of_lt_pi trayPt_pos.1 (by linarith)
  have key2 : sin trayPt * exp (-k * trayPt) ≤ sin 1.34941 * exp (-k * 1.34941) * exp 5e-11 :=
    key.trans (mul_le_mul_of_nonneg_left (exp_le_exp.2 ex) (by positivity))
  have l0 : 0 ≤ sin trayPt * exp (-k * trayPt) := by positivity
  have sqr := mul_le_mul key2 key2 l0 (l0.trans key2)
  rw [tray_diag trayPt_pos.1.le, tray_diag (by norm_num : (0 : ℝ) ≤ 1.34941), ← hk]
  have e1 : ∀ z, exp (100 - (k * z + k * z)) = exp 100 * (exp (-k * z) * exp (-k * z)) := by
    intro z
    rw [← exp_add, ← exp_add]
    congr 1; ring
  have e2 : exp (1e-10 : ℝ) = exp 5e-11 * exp 5e-11 := by rw [← exp_add]; norm_num
  rw [e1, e1, e2]
  calc _ = exp 100 * (sin trayPt * exp (-k * trayPt) * (sin trayPt * exp (-k * trayPt))) := by ring
    _ ≤ exp 100 * (sin 1.34941 * exp (-k * 1.34941) * exp 5e-11 * (sin 1.34941 * exp (-k * 1.34941) * exp 5e-11)) :=
      mul_le_mul_of_nonneg_left sqr (exp_pos _).le
    _ = _ := by ring

end Verif
