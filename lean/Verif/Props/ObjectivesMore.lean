import Verif.Model.Objectives
import Verif.Spec.Objectives
import Verif.Proofs.Michalewicz

/-! Property C42, continued: documented minima that are minima on a bounded domain only. -/

namespace Verif

open Real Obj

/-- **C42, partial, cross-in-tray:** inside the disc of radius `100 π` (which contains the plotted square `[-2,2]²` and the square `[-10,10]²` of the cited reference) the minimisers are exactly
the four points with coordinates `±arctan (π √2)`. To all digits given, these are the listed points and the minimum is the documented value; the listed points are as good up to `1e-9`.
Missing: outside of such a domain, see `C42_cross_in_tray_false`. -/
theorem C42_cross_in_tray_partial :
    (∀ x : Fin 2 → ℝ, x 0 ^ 2 + x 1 ^ 2 ≤ (100 * π) ^ 2 → crossInTray ![arctan (π * √2), arctan (π * √2)] ≤ crossInTray x ∧
      (crossInTray x = crossInTray ![arctan (π * √2), arctan (π * √2)] ↔ |x 0| = arctan (π * √2) ∧ |x 1| = arctan (π * √2))) ∧
    |arctan (π * √2) - 1.34941| ≤ 5e-6 ∧ |crossInTray ![arctan (π * √2), arctan (π * √2)] - -2.06261| ≤ 5e-6 ∧
    ∀ p ∈ crossInTrayMinima, crossInTray p ≤ crossInTray ![arctan (π * √2), arctan (π * √2)] + 1e-9 := by
  have p1 := pi_gt_d6
  obtain ⟨t1, t2⟩ := trayPt_digits
  obtain ⟨b0, b1⟩ := trayPt_pos
  have st : 0 < sin trayPt := sin_pos_of_pos_of_lt_pi b0 (by linarith)
  have hd : trayPt ^ 2 + trayPt ^ 2 ≤ (100 * π) ^ 2 := by nlinarith
  set Q := sin trayPt * sin trayPt * exp (100 - √(trayPt ^ 2 + trayPt ^ 2) / π) with hQ
  have Q0 : 0 < Q := by positivity
  have hT : crossInTray ![arctan (π * √2), arctan (π * √2)] = -0.0001 * (Q + 1) ^ (0.1 : ℝ) := by
    show crossInTray ![trayPt, trayPt] = _
    simp only [crossInTray, Matrix.cons_val_zero, Matrix.cons_val_one]
    rw [tray_arg hd, abs_of_pos st]
  have hX : ∀ x : Fin 2 → ℝ, x 0 ^ 2 + x 1 ^ 2 ≤ (100 * π) ^ 2 →
      crossInTray x = -0.0001 * (|sin (x 0)| * |sin (x 1)| * exp (100 - √(x 0 ^ 2 + x 1 ^ 2) / π) + 1) ^ (0.1 : ℝ) := by
    intro x hx
    simp only [crossInTray]
    rw [tray_arg hx]
  obtain ⟨q1, q2⟩ := tray_value
  rw [← hQ] at q1 q2
  have r1 : 20626.05 ≤ (Q + 1) ^ (0.1 : ℝ) := (root10_le (by linarith) (by norm_num)).2 (by linarith)
  have r2 : (Q + 1) ^ (0.1 : ℝ) ≤ 20626.15 := (root10_le (by linarith) (by norm_num)).1 (by linarith)
  refine ⟨fun x hx => ?_, ?_, ?_, ?_⟩
  · rw [hT, hX x hx]
    obtain ⟨m, e⟩ := tray_le (x := x 0) (y := x 1)
    rw [← hQ] at m e
    set P := |sin (x 0)| * |sin (x 1)| * exp (100 - √(x 0 ^ 2 + x 1 ^ 2) / π) with hP
    have P0 : 0 ≤ P := by positivity
    have mono : (P + 1) ^ (0.1 : ℝ) ≤ (Q + 1) ^ (0.1 : ℝ) := rpow_le_rpow (by linarith) (by linarith) (by norm_num)
    refine ⟨by linarith, fun h => ?_, fun h => ?_⟩
    · refine e (le_antisymm m ?_)
      by_contra hlt
      push Not at hlt
      have := rpow_lt_rpow (by linarith : 0 ≤ P + 1) (by linarith : P + 1 < Q + 1) (by norm_num : (0 : ℝ) < 0.1)
      linarith
    · have hab : ∀ z, |sin z| = |sin (|z|)| := by
        intro z
        rcases abs_choice z with h | h <;> rw [h]
        rw [sin_neg, abs_neg]
      have : P = Q := by
        rw [hP, hab (x 0), hab (x 1), ← sq_abs (x 0), ← sq_abs (x 1), h.1, h.2, hQ]
        show |sin trayPt| * |sin trayPt| * exp (100 - √(trayPt ^ 2 + trayPt ^ 2) / π) = _
        rw [abs_of_pos st]
      rw [this]
  · show |trayPt - _| ≤ _
    rw [abs_le]
    constructor <;> linarith
  · rw [hT, abs_le]
    constructor <;> linarith
  · intro p hp
    have hp' : |sin (p 0)| * |sin (p 1)| * exp (100 - √(p 0 ^ 2 + p 1 ^ 2) / π) =
        sin 1.34941 * sin 1.34941 * exp (100 - √((1.34941 : ℝ) ^ 2 + 1.34941 ^ 2) / π) ∧ p 0 ^ 2 + p 1 ^ 2 ≤ (100 * π) ^ 2 := by
      have s0 : 0 < sin (1.34941 : ℝ) := sin_pos_of_pos_of_lt_pi (by norm_num) (by linarith)
      have hd : (1.34941 : ℝ) ^ 2 + 1.34941 ^ 2 ≤ (100 * π) ^ 2 := by nlinarith
      simp only [crossInTrayMinima, List.mem_cons, List.not_mem_nil, or_false] at hp
      rcases hp with rfl | rfl | rfl | rfl <;>
        simp only [Matrix.cons_val_zero, Matrix.cons_val_one, sin_neg, abs_neg, neg_sq, abs_of_pos s0] <;> exact ⟨trivial, hd⟩
    rw [hT, hX p hp'.2, hp'.1]
    have h := tray_round
    rw [← hQ] at h
    set R := sin 1.34941 * sin 1.34941 * exp (100 - √((1.34941 : ℝ) ^ 2 + 1.34941 ^ 2) / π)
    have R0 : 0 ≤ R := by
      by_contra hc
      push Not at hc
      have := mul_neg_of_neg_of_pos hc (exp_pos 1e-10)
      linarith
    have e1 : (1 : ℝ) ≤ exp 1e-10 := one_le_exp (by norm_num)
    have h1 : Q + 1 ≤ (R + 1) * exp 1e-10 := by nlinarith
    have h2 : (Q + 1) ^ (0.1 : ℝ) ≤ (R + 1) ^ (0.1 : ℝ) * exp 1e-10 := by
      refine (rpow_le_rpow (by linarith) h1 (by norm_num)).trans ?_
      rw [mul_rpow (by linarith) (exp_pos _).le, ← exp_mul]
      refine mul_le_mul_of_nonneg_left (exp_le_exp.2 (by norm_num)) (rpow_nonneg (by linarith) _)
    have h3 : exp (1e-10 : ℝ) ≤ 1 + 2e-10 := by
      have := exp_bound_div_one_sub_of_interval (x := 1e-10) (by norm_num) (by norm_num)
      exact this.trans (by norm_num)
    have h4 : (R + 1) ^ (0.1 : ℝ) ≤ 20627 := by
      by_contra hc
      push Not at hc
      have a := (root10_le (P := R + 1) (B := 20627) (by linarith) (by norm_num)).1
      have b : R ≤ Q := by
        have := (tray_le (x := 1.34941) (y := 1.34941)).1
        rwa [abs_of_pos (sin_pos_of_pos_of_lt_pi (by norm_num) (by linarith))] at this
      have := rpow_le_rpow (by linarith : 0 ≤ R + 1) (by linarith : R + 1 ≤ Q + 1) (by norm_num : (0 : ℝ) ≤ 0.1)
      linarith
    have h5 : (R + 1) ^ (0.1 : ℝ) * exp 1e-10 ≤ (R + 1) ^ (0.1 : ℝ) + 20627 * 2e-10 := by
      have z := rpow_nonneg (by linarith : 0 ≤ R + 1) (0.1 : ℝ)
      nlinarith
    linarith

/-- The listed points and the squares `[-2,2]²` and `[-10,10]²` lie inside the disc. -/
example : ∀ x : Fin 2 → ℝ, |x 0| ≤ 10 → |x 1| ≤ 10 → x 0 ^ 2 + x 1 ^ 2 ≤ (100 * π) ^ 2 := by
  intro x h0 h1
  have := pi_gt_three
  rw [← sq_abs (x 0), ← sq_abs (x 1)]
  nlinarith [abs_nonneg (x 0), abs_nonneg (x 1)]

/-- **C42, partial, McCormick:** on the half plane `x + y ≥ -5` (which contains the plotted rectangle `[-2,3] × [-3,4]`) there is exactly one minimiser, and the first documented point is that
point up to `1e-5`. The second documented point is not even a local minimiser. Missing: outside of such a domain, see `C42_mccormick_false`. -/
theorem C42_mccormick_partial :
    (∀ x : Fin 2 → ℝ, -5 ≤ x 0 + x 1 → -√3 / 2 - π / 3 ≤ mcCormick x ∧
      (mcCormick x = -√3 / 2 - π / 3 ↔ x = ![1 / 2 - π / 3, -1 / 2 - π / 3])) ∧
    |(-0.54719) - (1 / 2 - π / 3)| ≤ 1e-5 ∧ |(-1.54719) - (-1 / 2 - π / 3)| ≤ 1e-5 ∧ mcCormick ![-0.54719, -1.54719] ≤ -√3 / 2 - π / 3 + 1e-9 ∧
    ∀ ε > 0, ∃ x, |x 0 - 1.54719| ≤ ε ∧ |x 1 - 0.54719| ≤ ε ∧ mcCormick x < mcCormick ![1.54719, 0.54719] := by
  have p1 := pi_gt_d20
  have p2 := pi_lt_d20
  refine ⟨fun x hx => ?_, ?_, ?_, ?_, ?_⟩
  · unfold mcCormick
    rw [mc_split]
    set t := x 0 + x 1 + 2 * π / 3 with ht
    have h0 : 0 ≤ √3 * (1 - cos t) + (t - sin t) := by
      by_cases h : t = 0
      · simp [h]
      · exact (mc_pos (by linarith) h).le
    have h1 := sq_nonneg (x 0 - x 1 - 1)
    refine ⟨by linarith, fun h => ?_, fun h => ?_⟩
    · have h2 : t = 0 := by
        by_contra hne
        have := mc_pos (t := t) (by linarith) hne
        linarith
      have h3 : (x 0 - x 1 - 1) ^ 2 = 0 := by linarith
      have h4 : x 0 - x 1 - 1 = 0 := by simpa using h3
      funext i
      fin_cases i <;> simp <;> linarith
    · have e0 : x 0 = 1 / 2 - π / 3 := by rw [h]; rfl
      have e1 : x 1 = -1 / 2 - π / 3 := by rw [h]; rfl
      have : t = 0 := by rw [ht, e0, e1]; ring
      rw [this, e0, e1]
      simp
      ring
  · rw [abs_le]; constructor <;> linarith
  · rw [abs_le]; constructor <;> linarith
  · simp only [mcCormick, Matrix.cons_val_zero, Matrix.cons_val_one]
    rw [mc_split]
    set t : ℝ := -0.54719 + -1.54719 + 2 * π / 3 with ht
    have t0 : 0 < t := by rw [ht]; linarith
    have t1 : t ≤ 1.6e-5 := by rw [ht]; linarith
    have c := one_sub_sq_div_two_le_cos (x := t)
    have s := sin_gt_sub_cube t0
    have r : √3 ≤ 2 := sqrt_le_iff.2 ⟨by norm_num, by norm_num⟩
    have r0 : 0 ≤ √3 := sqrt_nonneg 3
    have a : √3 * (1 - cos t) ≤ 2 * (t ^ 2 / 2) := mul_le_mul r (by linarith) (by linarith [cos_le_one t]) (by norm_num)
    have b : t ^ 2 ≤ (1.6e-5) ^ 2 := pow_le_pow_left₀ t0.le t1 2
    have b' : t ^ 3 ≤ (1.6e-5) ^ 3 := pow_le_pow_left₀ t0.le t1 3
    norm_num at b b' ⊢
    linarith
  · intro ε hε
    obtain ⟨δ, d0, d1, d2⟩ : ∃ δ : ℝ, 0 < δ ∧ δ ≤ ε ∧ δ ≤ 1 := ⟨min ε 1, by positivity, min_le_left _ _, min_le_right _ _⟩
    refine ⟨![1.54719 - δ, 0.54719 - δ], ?_, ?_, ?_⟩
    · simp [abs_of_pos d0, d1]
    · simp [abs_of_pos d0, d1]
    · simp only [mcCormick, Matrix.cons_val_zero, Matrix.cons_val_one]
      have e : sin (1.54719 + 0.54719) - sin (1.54719 - δ + (0.54719 - δ)) = 2 * sin δ * cos (1.54719 + 0.54719 - δ) := by
        rw [sin_sub_sin]
        ring_nf
      have s0 : 0 < sin δ := sin_pos_of_pos_of_lt_pi d0 (by linarith)
      have s1 := sin_lt d0
      have c : -(1 / 2) ≤ cos (1.54719 + 0.54719 - δ) := by
        have : cos (2 * π / 3) = -(1 / 2) := by
          rw [show 2 * π / 3 = π - π / 3 by ring, cos_pi_sub, cos_pi_div_three]
        rw [← this]
        exact cos_le_cos_of_nonneg_of_le_pi (by linarith) (by linarith) (by linarith)
      nlinarith

/-- Every point of the plotted rectangle is covered. -/
example : ∀ x : Fin 2 → ℝ, -2 ≤ x 0 → x 0 ≤ 3 → -3 ≤ x 1 → x 1 ≤ 4 → -5 ≤ x 0 + x 1 := fun _ h _ h' _ => by linarith

/-- **C42, partial, Michalewicz** in two dimensions with `m = 10`: on the square `[0,π]²` (the domain of the cited reference) no point is better than the listed one by `1e-8` or more, and every
point that is at least as good lies within `2e-4` of it. Missing: outside of the square, see `C42_michalewicz_false`. -/
theorem C42_michalewicz_partial : ∀ x : Fin 2 → ℝ, (∀ i, 0 ≤ x i ∧ x i ≤ π) →
    michalewicz (d := 2) 10 ![2.2029, 1.5708] ≤ michalewicz 10 x + 1e-8 ∧
    (michalewicz 10 x ≤ michalewicz (d := 2) 10 ![2.2029, 1.5708] → |x 0 - 2.2029| ≤ 2e-4 ∧ |x 1 - 1.5708| ≤ 2e-4) := by
  intro x hx
  have p1 := pi_gt_d20
  have p2 := pi_lt_d20
  have ppos := pi_pos
  have fx : ∀ x : Fin 2 → ℝ, michalewicz 10 x = -(sin (x 0) * sin (x 0 ^ 2 / π) ^ 20 + sin (x 1) * sin (2 * x 1 ^ 2 / π) ^ 20) := by
    intro x
    simp only [michalewicz, Fin.sum_univ_two, Fin.val_zero, Fin.val_one, Nat.cast_zero, Nat.cast_one, zero_add, one_mul]
    norm_num
  have A := mich_first (hx 0).1 (hx 0).2
  obtain ⟨L1, -, -⟩ := mich_slope
  have B := mich_second
  rw [fx, fx]
  simp only [Matrix.cons_val_zero, Matrix.cons_val_one]
  set L := cos 2.2029 / sin 2.2029 + 20 * (cos (2.2029 ^ 2 / π) / sin (2.2029 ^ 2 / π) * (2 * 2.2029 / π))
  set G := sin 2.2029 * sin (2.2029 ^ 2 / π) ^ 20 with hG
  have sb : 0 < sin (2.2029 : ℝ) := sin_pos_of_pos_of_lt_pi (by norm_num) (by linarith)
  have v1 : 1.5 ≤ 2.2029 ^ 2 / π := by rw [le_div_iff₀ ppos]; linarith
  have v2 : 2.2029 ^ 2 / π ≤ 1.6 := by rw [div_le_iff₀ ppos]; linarith
  have su : 0 < sin (2.2029 ^ 2 / π) := sin_pos_of_pos_of_lt_pi (by linarith) (by linarith)
  have G0 : 0 < G := by positivity
  have G1 : G ≤ 1 := mul_le_one₀ (sin_le_one _) (by positivity) (pow_le_one₀ su.le (sin_le_one _))
  have Glow : 0.5 ≤ G := by
    have h1 : 0.79 ≤ sin (2.2029 : ℝ) := by
      rw [show (2.2029 : ℝ) = 2.2029 - π / 2 + π / 2 by ring, sin_add_pi_div_two]
      refine le_trans ?_ one_sub_sq_div_two_le_cos
      nlinarith
    have h2 : 0.99 ≤ sin (2.2029 ^ 2 / π) := by
      rw [show 2.2029 ^ 2 / π = 2.2029 ^ 2 / π - π / 2 + π / 2 by ring, sin_add_pi_div_two]
      refine le_trans ?_ one_sub_sq_div_two_le_cos
      nlinarith
    have h3 := pow_le_pow_left₀ (by norm_num) h2 20
    exact le_trans (by norm_num) (mul_le_mul h1 h3 (by norm_num) sb.le)
  set h := x 0 - 2.2029 with hh
  have hL : L ^ 2 ≤ 9e-8 := by
    rw [← sq_abs]
    exact (pow_le_pow_left₀ (abs_nonneg _) L1 2).trans (by norm_num)
  have hle : L * h - 5 * h ^ 2 ≤ 4.5e-9 := by nlinarith [sq_nonneg (L - 10 * h)]
  have E : exp (L * h - 5 * h ^ 2) ≤ 1 + 4.6e-9 := by
    refine (exp_le_exp.2 hle).trans ?_
    have := exp_bound_div_one_sub_of_interval (x := 4.5e-9) (by norm_num) (by norm_num)
    exact this.trans (by norm_num)
  have A' : sin (x 0) * sin (x 0 ^ 2 / π) ^ 20 ≤ G + 4.6e-9 := by
    refine A.trans ((mul_le_mul_of_nonneg_left E G0.le).trans ?_)
    nlinarith
  have s1 : 0 ≤ sin (x 1) := sin_nonneg_of_nonneg_of_le_pi (hx 1).1 (hx 1).2
  have q0 : 0 ≤ sin (2 * x 1 ^ 2 / π) ^ 20 := Even.pow_nonneg (by decide) _
  have q1 : sin (2 * x 1 ^ 2 / π) ^ 20 ≤ 1 := by
    rw [show 20 = 2 * 10 by rfl, pow_mul]
    exact pow_le_one₀ (sq_nonneg _) (sin_sq_le_one _)
  have C : sin (x 1) * sin (2 * x 1 ^ 2 / π) ^ 20 ≤ sin (x 1) := mul_le_of_le_one_right s1 q1
  have C' := sin_le_one (x 1)
  refine ⟨by linarith, fun hle2 => ⟨?_, ?_⟩⟩
  · have k1 : G * (1 - 1e-9 * 2) ≤ G * exp (L * h - 5 * h ^ 2) := by nlinarith
    have k2 := le_of_mul_le_mul_left k1 G0
    have k3 : -3e-9 ≤ L * h - 5 * h ^ 2 := by
      by_contra hc
      push Not at hc
      have e1 := exp_lt_exp.2 hc
      have e2 : exp (-3e-9 : ℝ) ≤ 1 - 2.5e-9 := by
        rw [exp_neg]
        have := add_one_le_exp (3e-9 : ℝ)
        rw [inv_le_comm₀ (exp_pos _) (by norm_num)]
        exact le_trans (by norm_num) this
      linarith
    have : h ^ 2 ≤ (2e-4) ^ 2 := by nlinarith [sq_nonneg (L - 5 * h)]
    exact abs_le_of_sq_le_sq this (by norm_num)
  · have k1 : 1 - 6e-9 ≤ sin (x 1) := by linarith
    have k2 : sin (x 1) = cos (x 1 - π / 2) := by rw [cos_sub_pi_div_two]
    have k3 := cos_le_one_sub_mul_cos_sq (x := x 1 - π / 2) (by rw [abs_le]; constructor <;> linarith [(hx 1).1, (hx 1).2])
    rw [k2] at k1
    have k4 : 2 / π ^ 2 * (x 1 - π / 2) ^ 2 ≤ 6e-9 := by linarith
    have kp : π ^ 2 ≤ 3.15 ^ 2 := pow_le_pow_left₀ ppos.le (by linarith) 2
    have k5 : 0.2 ≤ 2 / π ^ 2 := by rw [le_div_iff₀ (by positivity)]; linarith
    have k6 : 0.2 * (x 1 - π / 2) ^ 2 ≤ 6e-9 := (mul_le_mul_of_nonneg_right k5 (sq_nonneg _)).trans k4
    have k7 := abs_le.1 (abs_le_of_sq_le_sq (show (x 1 - π / 2) ^ 2 ≤ (1.8e-4) ^ 2 by linarith) (by norm_num))
    rw [abs_le]
    clear_value G L
    clear A A' B E Glow G0 G1 hL hle hle2 C
    constructor <;> linarith [k7.1, k7.2]

/-- The listed point lies in the square. -/
example : ∀ i, 0 ≤ (![2.2029, 1.5708] : Fin 2 → ℝ) i ∧ (![2.2029, 1.5708] : Fin 2 → ℝ) i ≤ π := by
  have := pi_gt_three
  intro i
  fin_cases i <;> simp <;> constructor <;> linarith

end Verif
