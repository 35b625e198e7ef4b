import Verif.Model.Objectives
import Verif.Spec.Objectives
import Mathlib.Analysis.Real.Pi.Bounds
import Mathlib.Analysis.SpecialFunctions.Trigonometric.Bounds

/-! Helper lemmas for `Props/Objectives.lean`. -/

namespace Verif

open Obj Real

theorem rastrigin_eq {d : ℕ} (b c A : ℝ) (x : Fin d → ℝ) :
    rastrigin b c A x = ∑ i, ((x i - b) ^ 2 + A * (1 - cos (2 * π * (x i - b)))) + c := by
  simp only [rastrigin]
  have : A * (d : ℝ) = ∑ _i : Fin d, A := by simp [mul_comm]
  rw [this, ← Finset.sum_add_distrib]
  congr 1
  refine Finset.sum_congr rfl fun i _ => ?_
  ring

theorem norm2_nonneg {d : ℕ} (x : Fin d → ℝ) : 0 ≤ norm2 x := sqrt_nonneg _

theorem norm2_eq_zero {d : ℕ} {x : Fin d → ℝ} (h : norm2 x = 0) : x = 0 := by
  rw [norm2, sqrt_eq_zero (Finset.sum_nonneg fun i _ => sq_nonneg _),
    Finset.sum_eq_zero_iff_of_nonneg fun i _ => sq_nonneg _] at h
  funext i
  exact pow_eq_zero_iff (two_ne_zero) |>.1 (h i (Finset.mem_univ i))

theorem ackley_arg2 {d : ℕ} (hd : 0 < d) (c : ℝ) (y : Fin d → ℝ) : (1 / (d : ℝ)) * ∑ i, cos (c * y i) ≤ 1 := by
  have h : ∑ i, cos (c * y i) ≤ d := by
    calc ∑ i, cos (c * y i) ≤ ∑ _i : Fin d, (1 : ℝ) := Finset.sum_le_sum fun i _ => cos_le_one _
      _ = d := by simp
  have hd' : (0 : ℝ) < d := by exact_mod_cast hd
  rw [one_div, inv_mul_le_iff₀ hd', mul_one]
  exact h

theorem multimodal_acc {d : ℕ} (V : (Fin d → ℝ) → ℝ) (hV : ∀ y, 0 ≤ V y) (l : List (ℝ × (Fin d → ℝ))) (x : Fin d → ℝ) :
    ∀ y : ℝ, 0 ≤ y → 0 ≤ l.foldl (fun y p => y * V fun i => p.1 * (x i - p.2 i)) y ∧
      ((y = 0 ∨ ∃ p ∈ l, V (fun i => p.1 * (x i - p.2 i)) = 0) ↔
        l.foldl (fun y p => y * V fun i => p.1 * (x i - p.2 i)) y = 0) := by
  induction l with
  | nil => intro y hy; exact ⟨hy, by simp⟩
  | cons p l ih =>
    intro y hy
    obtain ⟨h1, h2⟩ := ih (y * V fun i => p.1 * (x i - p.2 i)) (mul_nonneg hy (hV _))
    refine ⟨h1, ?_⟩
    simp only [List.foldl_cons, List.mem_cons, exists_eq_or_imp]
    rw [← h2, mul_eq_zero, or_assoc]

theorem multimodal_min {d : ℕ} (V : (Fin d → ℝ) → ℝ) (hV : GlobalMin V 0 0) (l : List (ℝ × (Fin d → ℝ))) (p : ℝ × (Fin d → ℝ))
    (hp : p ∈ l) : GlobalMin (multimodal V l) p.2 0 := by
  constructor
  · refine ((multimodal_acc V hV.2 l p.2 1 zero_le_one).2).1 (Or.inr ⟨p, hp, ?_⟩)
    simp only [sub_self, mul_zero]
    exact hV.1
  · exact fun x => (multimodal_acc V hV.2 l x 1 zero_le_one).1

theorem sin_peak (k : ℕ) : sin (π / 2 + k * (2 * π)) = 1 := by
  rw [sin_add_nat_mul_two_pi, sin_pi_div_two]

/-- The three rays of the snowflake. -/
theorem flake_ge (psi r phi : ℝ) (hr : 0 ≤ r) : -1 / 4 ≤ flake psi r phi := by
  simp only [flake]
  have h := mul_nonneg (rpow_nonneg (abs_nonneg (cos (phi + psi))) 0.5) (rpow_nonneg hr 0.3)
  nlinarith [sq_nonneg (r ^ 4 - 1 / 2)]

theorem flake_eq (psi r phi : ℝ) (hr : 0 ≤ r) : flake psi r phi = -1 / 4 ↔ r ^ 4 = 1 / 2 ∧ cos (phi + psi) = 0 := by
  simp only [flake]
  have h := mul_nonneg (rpow_nonneg (abs_nonneg (cos (phi + psi))) 0.5) (rpow_nonneg hr 0.3)
  have e : r ^ 8 = r ^ 4 * r ^ 4 := by ring
  constructor
  · intro hx
    have h1 : (r ^ 4 - 1 / 2) ^ 2 = 0 := by nlinarith [sq_nonneg (r ^ 4 - 1 / 2)]
    have h2 : r ^ 4 = 1 / 2 := by have := pow_eq_zero_iff (two_ne_zero) |>.1 h1; linarith
    have h3 : |cos (phi + psi)| ^ (0.5 : ℝ) * r ^ (0.3 : ℝ) = 0 := by rw [e, h2] at hx; linarith
    refine ⟨h2, ?_⟩
    have hr0 : r ≠ 0 := by rintro rfl; norm_num at h2
    rcases mul_eq_zero.1 h3 with h | h
    · rw [rpow_eq_zero (abs_nonneg _) (by norm_num)] at h
      exact abs_eq_zero.1 h
    · rw [rpow_eq_zero hr (by norm_num)] at h
      exact absurd h hr0
  · rintro ⟨h1, h2⟩
    rw [h2, abs_zero, zero_rpow (by norm_num), e, h1]
    norm_num

theorem snowflake_eq (alpha : ℝ) (x : Fin 2 → ℝ) :
    (-1 / 4 ≤ snowflake alpha x) ∧ (snowflake alpha x = -1 / 4 ↔ ∃ psi ∈ [0, π / 3, π * 2 / 3],
      (norm2 fun i => alpha * x i) ^ 4 = 1 / 2 ∧ cos (Complex.arg ⟨alpha * x 0, alpha * x 1⟩ + psi) = 0) := by
  simp only [snowflake, List.foldl_cons, List.foldl_nil, List.mem_cons, List.not_mem_nil, or_false, exists_eq_or_imp,
    exists_eq_left]
  set r := norm2 fun i => alpha * x i
  set phi := Complex.arg ⟨alpha * x 0, alpha * x 1⟩
  have hr : 0 ≤ r := norm2_nonneg _
  rw [← flake_eq _ _ _ hr, ← flake_eq _ _ _ hr, ← flake_eq _ _ _ hr]
  have g1 := flake_ge 0 r phi hr
  have g2 := flake_ge (π / 3) r phi hr
  have g3 := flake_ge (π * 2 / 3) r phi hr
  constructor
  · refine le_min (le_min (le_min (le_min (by norm_num) g1) g2) g3) (by norm_num)
  · constructor
    · intro h
      rcases min_choice (min (min (min 1 (flake 0 r phi)) (flake (π / 3) r phi)) (flake (π * 2 / 3) r phi)) 0.8 with h' | h'
      · rw [h'] at h
        rcases min_choice (min (min 1 (flake 0 r phi)) (flake (π / 3) r phi)) (flake (π * 2 / 3) r phi) with h' | h'
        · rw [h'] at h
          rcases min_choice (min 1 (flake 0 r phi)) (flake (π / 3) r phi) with h' | h'
          · rw [h'] at h
            rcases min_choice 1 (flake 0 r phi) with h' | h'
            · rw [h'] at h; norm_num at h
            · rw [h'] at h; exact Or.inl h
          · rw [h'] at h; exact Or.inr (Or.inl h)
        · rw [h'] at h; exact Or.inr (Or.inr h)
      · rw [h'] at h; norm_num at h
    · intro h
      refine le_antisymm ?_ (le_min (le_min (le_min (le_min (by norm_num) g1) g2) g3) (by norm_num))
      rcases h with h | h | h
      · rw [← h]
        exact (min_le_left _ _).trans ((min_le_left _ _).trans ((min_le_left _ _).trans (min_le_right _ _)))
      · rw [← h]
        exact (min_le_left _ _).trans ((min_le_left _ _).trans (min_le_right _ _))
      · rw [← h]
        exact (min_le_left _ _).trans (min_le_right _ _)

theorem polar (a b psi : ℝ) (r : ℝ) (hr : r = √(a ^ 2 + b ^ 2)) :
    r * cos (Complex.arg ⟨a, b⟩ + psi) = a * cos psi - b * sin psi := by
  have hn : ‖(⟨a, b⟩ : ℂ)‖ = r := by
    rw [hr, Complex.norm_def, Complex.normSq_mk]; congr 1; ring
  have h1 := Complex.norm_mul_cos_arg (⟨a, b⟩ : ℂ)
  have h2 := Complex.norm_mul_sin_arg (⟨a, b⟩ : ℂ)
  rw [hn] at h1 h2
  simp only at h1 h2
  rw [cos_add, mul_sub, ← mul_assoc, ← mul_assoc, h1, h2]

theorem half_root : (0 : ℝ) < (0.5 : ℝ) ^ (1 / 4 : ℝ) ∧ ((0.5 : ℝ) ^ (1 / 4 : ℝ)) ^ 4 = 1 / 2 := by
  refine ⟨rpow_pos_of_pos (by norm_num) _, ?_⟩
  rw [← rpow_natCast, ← rpow_mul (by norm_num)]
  norm_num

theorem norm2_two (y : Fin 2 → ℝ) : norm2 y = √(y 0 ^ 2 + y 1 ^ 2) := by
  simp [norm2, Fin.sum_univ_two]

theorem ray_iff (y : Fin 2 → ℝ) (psi : ℝ) : (norm2 y ^ 4 = 1 / 2 ∧ cos (Complex.arg ⟨y 0, y 1⟩ + psi) = 0) ↔
    ∃ c : ℝ, (c = 1 ∨ c = -1) ∧ y 0 = c * (0.5 : ℝ) ^ (1 / 4 : ℝ) * sin psi ∧ y 1 = c * (0.5 : ℝ) ^ (1 / 4 : ℝ) * cos psi := by
  obtain ⟨h0, h4⟩ := half_root
  set q := (0.5 : ℝ) ^ (1 / 4 : ℝ)
  have hp := polar (y 0) (y 1) psi _ (norm2_two y)
  have hq : 0 ≤ y 0 ^ 2 + y 1 ^ 2 := add_nonneg (sq_nonneg _) (sq_nonneg _)
  have hn2 : norm2 y ^ 2 = y 0 ^ 2 + y 1 ^ 2 := by rw [norm2_two, sq_sqrt hq]
  have hcs := sin_sq_add_cos_sq psi
  have hqq : ∀ u : ℝ, 0 ≤ u → u ^ 2 = 1 / 2 → u = q ^ 2 := by
    intro u hu h
    refine (sq_eq_sq₀ hu (sq_nonneg q)).1 ?_
    rw [h, ← h4]; ring
  constructor
  · rintro ⟨h1, h2⟩
    rw [h2, mul_zero] at hp
    have e1 : y 0 ^ 2 + y 1 ^ 2 = q ^ 2 := hqq _ hq (by rw [← hn2, ← h1]; ring)
    set t := y 0 * sin psi + y 1 * cos psi with ht
    have e2 : t ^ 2 = q ^ 2 := by
      rw [← e1, ht]
      linear_combination (y 0 ^ 2 + y 1 ^ 2) * hcs + (y 0 * cos psi - y 1 * sin psi) * hp
    have f0 : y 0 = t * sin psi := by
      rw [ht]; linear_combination -y 0 * hcs - cos psi * hp
    have f1 : y 1 = t * cos psi := by
      rw [ht]; linear_combination -y 1 * hcs + sin psi * hp
    rcases sq_eq_sq_iff_eq_or_eq_neg.1 e2 with h | h
    · exact ⟨1, Or.inl rfl, by rw [one_mul, ← h]; exact f0, by rw [one_mul, ← h]; exact f1⟩
    · exact ⟨-1, Or.inr rfl, by rw [neg_one_mul, ← h]; exact f0, by rw [neg_one_mul, ← h]; exact f1⟩
  · rintro ⟨c, hc, f0, f1⟩
    have hc2 : c ^ 2 = 1 := by rcases hc with rfl | rfl <;> norm_num
    have e1 : norm2 y ^ 2 = q ^ 2 := by
      rw [hn2, f0, f1]; linear_combination (c ^ 2 * q ^ 2) * hcs + q ^ 2 * hc2
    have e2 : norm2 y ^ 4 = 1 / 2 := by
      rw [← h4, show norm2 y ^ 4 = (norm2 y ^ 2) ^ 2 by ring, e1]; ring
    refine ⟨e2, ?_⟩
    have hr : norm2 y ≠ 0 := by intro h; rw [h] at e2; norm_num at e2
    rw [f0, f1] at hp
    have : norm2 y * cos (Complex.arg ⟨y 0, y 1⟩ + psi) = 0 := by
      rw [f0, f1, hp]; ring
    exact (mul_eq_zero.1 this).resolve_left hr

theorem snowflake_mem (alpha : ℝ) (ha : alpha ≠ 0) (x : Fin 2 → ℝ) : x ∈ snowflakeMinima alpha ↔
    ∃ psi ∈ [0, π / 3, π * 2 / 3], ∃ c : ℝ, (c = 1 ∨ c = -1) ∧
      alpha * x 0 = c * (0.5 : ℝ) ^ (1 / 4 : ℝ) * sin psi ∧ alpha * x 1 = c * (0.5 : ℝ) ^ (1 / 4 : ℝ) * cos psi := by
  set q := (0.5 : ℝ) ^ (1 / 4 : ℝ) with hq
  have key : ∀ psi c : ℝ, x = ![c / alpha * q * cos (π / 2 - psi), c / alpha * q * sin (π / 2 - psi)] ↔
      (alpha * x 0 = c * q * sin psi ∧ alpha * x 1 = c * q * cos psi) := by
    intro psi c
    rw [cos_pi_div_two_sub, sin_pi_div_two_sub]
    constructor
    · intro h
      rw [h]
      simp only [Matrix.cons_val_zero, Matrix.cons_val_one]
      constructor <;> field_simp
    · rintro ⟨h0, h1⟩
      funext i
      fin_cases i
      · show x 0 = c / alpha * q * sin psi
        field_simp
        linarith
      · show x 1 = c / alpha * q * cos psi
        field_simp
        linarith
  have e2 : 2 * π / 3 = π * 2 / 3 := by ring
  simp only [snowflakeMinima, ← hq, List.map_cons, List.map_nil, List.mem_cons, List.not_mem_nil, or_false, exists_eq_or_imp,
    exists_eq_left, e2]
  rw [← key, ← key, ← key, ← key, ← key, ← key]
  simp only [sub_zero]
  tauto

end Verif
