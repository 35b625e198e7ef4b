import Verif.Model.Mirror
import Verif.Spec.Mirror
import Mathlib.LinearAlgebra.Matrix.NonsingularInverse
import Mathlib.Algebra.Order.Chebyshev
import Mathlib.Algebra.BigOperators.Field

/-! Helper lemmas for `Props/Mirror.lean`. -/

namespace Verif

open Mirror Matrix

set_option linter.unusedSectionVars false

variable {ι : Type} [Fintype ι]

theorem euclid_sq (v : ι → ℝ) : euclid v ^ 2 = v ⬝ᵥ v := by
  rw [euclid, Real.sq_sqrt (Finset.sum_nonneg fun i _ => sq_nonneg _)]
  simp [dotProduct, sq]

theorem euclid_nonneg (v : ι → ℝ) : 0 ≤ euclid v := Real.sqrt_nonneg _

theorem dot_self_nonneg (v : ι → ℝ) : 0 ≤ v ⬝ᵥ v := by rw [← euclid_sq]; exact sq_nonneg _

theorem euclid_eq_zero {v : ι → ℝ} : euclid v = 0 ↔ v = 0 := by
  constructor
  · intro h
    have := euclid_sq v
    rw [h] at this
    exact dotProduct_self_eq_zero.1 (by rw [← this]; norm_num)
  · rintro rfl; simp [euclid]

theorem euclid_pos {v : ι → ℝ} (h : v ≠ 0) : 0 < euclid v :=
  lt_of_le_of_ne (euclid_nonneg v) fun h' => h (euclid_eq_zero.1 h'.symm)

theorem dot_le (u v : ι → ℝ) : u ⬝ᵥ v ≤ euclid u * euclid v := by
  have h : (u ⬝ᵥ v) ^ 2 ≤ (euclid u * euclid v) ^ 2 := by
    rw [mul_pow, euclid_sq, euclid_sq]
    have := Finset.sum_mul_sq_le_sq_mul_sq Finset.univ u v
    simpa [dotProduct, sq] using this
  exact le_of_sq_le_sq h (mul_nonneg (euclid_nonneg u) (euclid_nonneg v))

theorem dist2_eq (y p z : ι → ℝ) : dist2 y z = dist2 y p + dist2 z p - 2 * ((y - p) ⬝ᵥ (z - p)) := by
  simp only [dist2, dotProduct, Pi.sub_apply]
  rw [← Finset.sum_add_distrib, Finset.mul_sum, ← Finset.sum_sub_distrib]
  exact Finset.sum_congr rfl fun i _ => by ring

theorem dist2_nonneg (u v : ι → ℝ) : 0 ≤ dist2 u v := dot_self_nonneg _

theorem nearest_of_vi {S : (ι → ℝ) → Prop} {y p : ι → ℝ} (hp : S p) (h : ∀ z, S z → (y - p) ⬝ᵥ (z - p) ≤ 0) : Nearest S y p :=
  ⟨hp, fun z hz => by rw [dist2_eq y p z]; linarith [h z hz, dist2_nonneg z p]⟩

theorem nonexp_of_vi {S : (ι → ℝ) → Prop} {y p y' p' : ι → ℝ} (hp : S p) (hp' : S p')
    (h : ∀ z, S z → (y - p) ⬝ᵥ (z - p) ≤ 0) (h' : ∀ z, S z → (y' - p') ⬝ᵥ (z - p') ≤ 0) : dist2 p p' ≤ dist2 y y' := by
  have h1 := h p' hp'
  have h2 := h' p hp
  have e : (y - p) ⬝ᵥ (p' - p) + (y' - p') ⬝ᵥ (p - p') = dist2 p p' - (y - y') ⬝ᵥ (p - p') := by
    simp only [dist2, dotProduct, Pi.sub_apply]
    rw [← Finset.sum_add_distrib, ← Finset.sum_sub_distrib]
    exact Finset.sum_congr rfl fun i _ => by ring
  have h3 : dist2 p p' ≤ (y - y') ⬝ᵥ (p - p') := by linarith
  have h4 := dot_le (y - y') (p - p')
  have e1 : dist2 p p' = euclid (p - p') ^ 2 := (euclid_sq _).symm
  have e2 : dist2 y y' = euclid (y - y') ^ 2 := (euclid_sq _).symm
  rw [e1, e2]
  rw [e1] at h3
  have n1 := euclid_nonneg (p - p')
  have n2 := euclid_nonneg (y - y')
  nlinarith

theorem ball_eq (r : ℝ) (c y : ι → ℝ) :
    ballConj r c y = c + (max 1 (euclid (y - c) / r))⁻¹ • (y - c) := by
  funext i
  simp only [ballConj, Pi.add_apply, Pi.smul_apply, Pi.sub_apply, smul_eq_mul]
  rw [div_eq_inv_mul]
  rfl

theorem ball_mem (r : ℝ) (hr : 0 < r) (c y : ι → ℝ) : InBall c r (ballConj r c y) := by
  rw [ball_eq, InBall, dist2, add_sub_cancel_left, dotProduct_smul, smul_dotProduct, ← euclid_sq]
  simp only [smul_eq_mul]
  set n := euclid (y - c)
  have hn : 0 ≤ n := euclid_nonneg _
  set q := max 1 (n / r)
  have hq : 0 < q := lt_of_lt_of_le one_pos (le_max_left _ _)
  have h1 : n ≤ q * r := by
    have := le_max_right 1 (n / r)
    rwa [div_le_iff₀ hr] at this
  have h2 : q⁻¹ * n ≤ r := by rw [inv_mul_le_iff₀ hq]; exact h1
  have h3 : 0 ≤ q⁻¹ * n := mul_nonneg (inv_nonneg.2 hq.le) hn
  nlinarith

theorem ball_vi (r : ℝ) (hr : 0 < r) (c y z : ι → ℝ) (hz : InBall c r z) :
    (y - ballConj r c y) ⬝ᵥ (z - ballConj r c y) ≤ 0 := by
  have hzr : euclid (z - c) ≤ r := by
    refine le_of_sq_le_sq ?_ hr.le
    rw [euclid_sq]; exact hz
  rw [ball_eq]
  set n := euclid (y - c) with hn'
  have hn : 0 ≤ n := euclid_nonneg _
  set q := max 1 (n / r) with hq'
  have hq1 : 1 ≤ q := le_max_left _ _
  have e1 : y - (c + q⁻¹ • (y - c)) = (1 - q⁻¹) • (y - c) := by module
  have e2 : z - (c + q⁻¹ • (y - c)) = (z - c) - q⁻¹ • (y - c) := by module
  rw [e1, e2, smul_dotProduct, dotProduct_sub, dotProduct_smul, ← euclid_sq, ← hn']
  simp only [smul_eq_mul]
  have h1 := dot_le (y - c) (z - c)
  rw [← hn'] at h1
  have h0 : 0 ≤ 1 - q⁻¹ := by
    have := inv_le_one_of_one_le₀ hq1; linarith
  rcases le_or_gt (n / r) 1 with h | h
  · have : q = 1 := max_eq_left h
    rw [this]; norm_num
  · have hq : q = n / r := max_eq_right h.le
    have hn0 : 0 < n := by
      rcases hn.lt_or_eq with h' | h'
      · exact h'
      · rw [← h'] at h; norm_num at h
    have e3 : q⁻¹ * n ^ 2 = r * n := by rw [hq]; field_simp
    rw [e3]
    have h2 : euclid (z - c) * n ≤ r * n := mul_le_mul_of_nonneg_right hzr hn
    nlinarith

theorem npSign_mul_abs (a : ℝ) : npSign a * |a| = a := by
  unfold npSign
  split
  · rename_i h; rw [abs_of_pos h, one_mul]
  · split
    · rename_i h; rw [abs_of_neg h]; ring
    · have : a = 0 := by linarith
      simp [this]

theorem plane_eq (a : ι → ℝ) (b : ℝ) (y : ι → ℝ) : planeConj (some a) b y = y - ((a ⬝ᵥ y - b) / (a ⬝ᵥ a)) • a := by
  funext i
  simp only [planeConj, planeInit, Pi.sub_apply, Pi.smul_apply, smul_eq_mul, dotProduct, sq]

theorem argmax_foldl {d : ℕ} (y : Fin (d + 1) → ℝ) (l : List (Fin (d + 1))) : ∀ k,
    |y k| ≤ |y (l.foldl (fun k i => if |y k| < |y i| then i else k) k)| ∧
      ∀ i ∈ l, |y i| ≤ |y (l.foldl (fun k i => if |y k| < |y i| then i else k) k)| := by
  induction l with
  | nil => intro k; exact ⟨le_rfl, by simp⟩
  | cons a l ih =>
    intro k
    simp only [List.foldl_cons, List.mem_cons, forall_eq_or_imp]
    by_cases h : |y k| < |y a|
    · rw [if_pos h]
      obtain ⟨h1, h2⟩ := ih a
      exact ⟨h.le.trans h1, h1, h2⟩
    · rw [if_neg h]
      obtain ⟨h1, h2⟩ := ih k
      exact ⟨h1, (not_lt.1 h).trans h1, h2⟩

theorem argmaxAbs_ge {d : ℕ} (y : Fin (d + 1) → ℝ) (i : Fin (d + 1)) : |y i| ≤ |y (argmaxAbs y)| :=
  (argmax_foldl y _ 0).2 i (List.mem_finRange i)

theorem clip_abs (r : ℝ) (hr : 0 ≤ r) (y : ι → ℝ) (i : ι) : |clipVec r y i| ≤ r := by
  rw [abs_le, clipVec]
  exact ⟨le_min (le_max_right _ _) (by linarith), min_le_right _ _⟩

theorem clip_same (r : ℝ) (y : ι → ℝ) (i : ι) (h : |y i| ≤ r) : clipVec r y i = y i := by
  obtain ⟨h1, h2⟩ := abs_le.1 h
  rw [clipVec, max_eq_left h1, min_eq_left h2]

theorem npSign_abs (a : ℝ) (h : a ≠ 0) : |npSign a| = 1 := by
  unfold npSign
  split
  · simp
  · split
    · simp
    · exfalso; apply h; linarith

theorem clip_ne_zero (r : ℝ) (hr : 0 < r) (y : ι → ℝ) (i : ι) (h : y i ≠ 0) : clipVec r y i ≠ 0 := by
  rw [clipVec]
  rcases lt_or_gt_of_ne h with h | h
  · have h1 : max (y i) (-r) < 0 := max_lt h (by linarith)
    exact ((min_le_left _ _).trans_lt h1).ne
  · exact (lt_min (lt_max_of_lt_left h) hr).ne'

theorem fmax_fin (a b : ℝ) : Flt.maximum (.fin a) (.fin b) = .fin (max a b) := by
  by_cases h : a < b
  · simp [Flt.maximum, Flt.isNaN, Flt.lt, h, max_eq_right h.le]
  · simp [Flt.maximum, Flt.isNaN, Flt.lt, h, max_eq_left (not_lt.1 h)]

end Verif
