import Verif.Spec.Ieee
import Verif.Proofs.RoundedErr

/-! Helper lemmas about IEEE arithmetic. -/

set_option linter.unusedSectionVars false

namespace Verif

/-! ### The numbers of a format -/

theorem IsIeee.isFloat {p : ℕ} {emin : ℤ} {x : ℝ} (h : IsIeee p emin x) : IsFloat p x := by
  obtain ⟨m, e, h1, -, h2⟩ := h
  exact ⟨m, e, h1, h2⟩

theorem IsIeee.neg {p : ℕ} {emin : ℤ} {x : ℝ} (h : IsIeee p emin x) : IsIeee p emin (-x) := by
  obtain ⟨m, e, h1, h3, rfl⟩ := h
  exact ⟨-m, e, by rw [abs_neg]; exact h1, h3, by push_cast; ring⟩

theorem isIeee_zero (p : ℕ) (emin : ℤ) : IsIeee p emin 0 := ⟨0, emin, by simp, le_rfl, by simp⟩

/-- Numbers of the format are multiples of the smallest one. -/
theorem IsIeee.mult {p : ℕ} {emin : ℤ} {x : ℝ} (h : IsIeee p emin x) : ∃ k : ℤ, x = k * (2 : ℝ) ^ emin := by
  obtain ⟨m, e, -, h3, rfl⟩ := h
  refine ⟨m * 2 ^ (e - emin).toNat, ?_⟩
  push_cast
  rw [← zpow_natCast, Int.toNat_of_nonneg (by omega), mul_assoc, ← zpow_add₀ two_ne_zero]
  congr 2
  ring

/-- Small multiples of the smallest number are in the format. -/
theorem isIeee_small {p : ℕ} {emin : ℤ} {k : ℤ} (h : |k| < 2 ^ p) : IsIeee p emin (k * (2 : ℝ) ^ emin) := ⟨k, emin, h, le_rfl, rfl⟩

/-- Large floating point numbers are in the format. -/
theorem IsFloat.isIeee {p : ℕ} {emin : ℤ} {x : ℝ} (h : IsFloat p x) (hx : (2 : ℝ) ^ (emin + p - 1) ≤ |x|) : IsIeee p emin x := by
  obtain ⟨m, e, h1, rfl⟩ := h
  refine ⟨m, e, h1, ?_, rfl⟩
  rw [abs_mul, abs_of_pos (two_zpow_pos e)] at hx
  have h2 : |(m : ℝ)| < 2 ^ p := by exact_mod_cast h1
  have h3 : (2 : ℝ) ^ (emin + p - 1) < 2 ^ ((p : ℤ) + e) := by
    rw [zpow_add₀ two_ne_zero, zpow_natCast]
    exact hx.trans_lt (mul_lt_mul_of_pos_right h2 (two_zpow_pos e))
  have := (zpow_lt_zpow_iff_right₀ (by norm_num : (1 : ℝ) < 2)).1 h3
  omega

/-- A power of two in the range of normal numbers. -/
theorem isFloat_zpow {p : ℕ} (hp : 1 ≤ p) (e : ℤ) : IsFloat p ((2 : ℝ) ^ e) :=
  ⟨1, e, by simpa using one_lt_pow₀ (by norm_num : (1 : ℤ) < 2) (by omega), by push_cast; ring⟩

theorem roundTo_large {p : ℕ} (hp : 1 ≤ p) {e : ℤ} {x : ℝ} (hx : (2 : ℝ) ^ e ≤ |x|) : (2 : ℝ) ^ e ≤ |roundTo p x| := by
  have h := roundTo_nearest hp x
  have key : ∀ y, IsFloat p y → |roundTo p x - x| ≤ |y - x| := h.2
  rcases le_total 0 x with h0 | h0
  · rw [abs_of_nonneg h0] at hx
    have h1 := key _ (isFloat_zpow hp e)
    rw [abs_of_nonpos (by linarith : (2 : ℝ) ^ e - x ≤ 0)] at h1
    have := (abs_le.1 h1).1
    exact le_trans (by linarith) (le_abs_self _)
  · rw [abs_of_nonpos h0] at hx
    have h1 := key _ (isFloat_zpow hp e).neg
    rw [abs_of_nonneg (by linarith : 0 ≤ -(2 : ℝ) ^ e - x)] at h1
    have := (abs_le.1 h1).2
    exact le_trans (by linarith) (neg_le_abs _)

/-- Rounding to nearest with gradual underflow. -/
noncomputable def roundIeee (p : ℕ) (emin : ℤ) (x : ℝ) : ℝ :=
  if (2 : ℝ) ^ (emin + p - 1) ≤ |x| then roundTo p x else _root_.round (x / 2 ^ emin) * 2 ^ emin

theorem roundIeee_nearest {p : ℕ} (hp : 1 ≤ p) (emin : ℤ) (x : ℝ) :
    IsIeee p emin (roundIeee p emin x) ∧ ∀ y, IsIeee p emin y → |roundIeee p emin x - x| ≤ |y - x| := by
  unfold roundIeee
  split_ifs with h
  · have hn := roundTo_nearest hp x
    exact ⟨hn.1.isIeee (roundTo_large hp h), fun y hy => hn.2 y hy.isFloat⟩
  · push Not at h
    have he := two_zpow_pos emin
    have e1 : ∀ i : ℤ, |(i : ℝ) * 2 ^ emin - x| = |x / 2 ^ emin - i| * 2 ^ emin := by
      intro i
      conv_rhs => rw [← abs_of_pos he, ← abs_mul, abs_of_pos he]
      rw [abs_sub_comm]
      congr 1
      field_simp
    constructor
    · refine isIeee_small ?_
      have hlt : |x / 2 ^ emin| ≤ ((2 ^ (p - 1) : ℤ) : ℝ) := by
        rw [abs_div, abs_of_pos he, div_le_iff₀ he]
        push_cast
        rw [← zpow_natCast, ← zpow_add₀ two_ne_zero]
        refine h.le.trans (le_of_eq ?_)
        congr 1
        omega
      have h2 : |_root_.round (x / 2 ^ emin)| ≤ (2 ^ (p - 1) : ℤ) := by
        rw [abs_le] at hlt ⊢
        rw [round_eq]
        constructor
        · rw [Int.le_floor]
          push_cast at hlt ⊢
          linarith [hlt.1]
        · rw [← Int.lt_add_one_iff, Int.floor_lt]
          push_cast at hlt ⊢
          linarith [hlt.2]
      exact h2.trans_lt (pow_lt_pow_right₀ (by norm_num) (by omega))
    · intro y hy
      obtain ⟨k, rfl⟩ := hy.mult
      rw [e1, e1]
      exact mul_le_mul_of_nonneg_right (round_le _ _) he.le

/-! ### Rounding -/

namespace IeeeFmt
variable {φ : IeeeFmt}

theorem u_pos (φ : IeeeFmt) : 0 < φ.u := two_zpow_pos _

theorem rd_repr (φ : IeeeFmt) (x : ℝ) : IsIeee φ.p φ.emin (φ.rd x) := (φ.near x).1

theorem rd_fix {x : ℝ} (h : IsIeee φ.p φ.emin x) : φ.rd x = x := by
  have := (φ.near x).2 x h
  rw [sub_self, abs_zero] at this
  have := abs_nonpos_iff.1 this
  linarith

theorem rd_mono {x y : ℝ} (h : x ≤ y) : φ.rd x ≤ φ.rd y := by
  rcases eq_or_lt_of_le h with rfl | h
  · exact le_rfl
  by_contra hn
  push Not at hn
  have h1 := (φ.near x).2 _ (φ.rd_repr y)
  have h2 := (φ.near y).2 _ (φ.rd_repr x)
  rcases abs_le.1 h1 with ⟨-, h1'⟩
  rcases abs_le.1 h2 with ⟨h2', -⟩
  rcases le_total x (φ.rd y) with h3 | h3
  · rw [abs_of_nonneg (by linarith)] at h1'
    linarith
  · rw [abs_of_nonpos (by linarith)] at h1'
    rcases le_total y (φ.rd x) with h4 | h4
    · rw [abs_of_nonneg (by linarith)] at h2'
      linarith
    · rw [abs_of_nonpos (by linarith)] at h2'
      linarith

theorem rd_zero (φ : IeeeFmt) : φ.rd 0 = 0 := rd_fix (isIeee_zero _ _)

theorem one_repr (φ : IeeeFmt) : IsIeee φ.p φ.emin 1 :=
  ⟨1, 0, by simpa using one_lt_pow₀ (by norm_num : (1 : ℤ) < 2) (by have := φ.pos; omega), φ.emin_le, by simp⟩

theorem rd_nonneg {x : ℝ} (h : 0 ≤ x) : 0 ≤ φ.rd x := by
  have := φ.rd_mono h
  rwa [rd_zero] at this

theorem rd_nonpos {x : ℝ} (h : x ≤ 0) : φ.rd x ≤ 0 := by
  have := φ.rd_mono h
  rwa [rd_zero] at this

/-- Rounding does not leave a symmetric interval with end points in the format. -/
theorem rd_abs {x X : ℝ} (hX : IsIeee φ.p φ.emin X) (h : |x| ≤ X) : |φ.rd x| ≤ X := by
  rw [abs_le] at h ⊢
  have h1 := φ.rd_mono h.1
  have h2 := φ.rd_mono h.2
  rw [rd_fix hX.neg] at h1
  rw [rd_fix hX] at h2
  exact ⟨h1, h2⟩

theorem zero_num (φ : IeeeFmt) : φ.Num 0 := ⟨isIeee_zero _ _, by rw [abs_zero]; linarith [φ.top_ge]⟩

theorem one_num (φ : IeeeFmt) : φ.Num 1 := ⟨φ.one_repr, by rw [abs_one]; exact φ.top_ge⟩

/-- Sums have no underflow error. -/
theorem add_err {a b : ℝ} (ha : IsIeee φ.p φ.emin a) (hb : IsIeee φ.p φ.emin b) : |φ.rd (a + b) - (a + b)| ≤ φ.u * |a + b| := by
  by_cases h : (2 : ℝ) ^ (φ.emin + φ.p - 1) ≤ |a + b|
  · exact ((φ.near _).2 _ ((roundTo_float φ.pos _).isIeee (roundTo_large φ.pos h))).trans (roundTo_err _ _)
  · push Not at h
    have hr : IsIeee φ.p φ.emin (a + b) := by
      obtain ⟨k, rfl⟩ := ha.mult
      obtain ⟨j, rfl⟩ := hb.mult
      rw [← add_mul] at h ⊢
      rw [abs_mul, abs_of_pos (two_zpow_pos φ.emin), show φ.emin + (φ.p : ℤ) - 1 = ((φ.p - 1 : ℕ) : ℤ) + φ.emin by have := φ.pos; omega, zpow_add₀ two_ne_zero, zpow_natCast] at h
      have h2 := lt_of_mul_lt_mul_right h (two_zpow_pos φ.emin).le
      have h3 : |k + j| < 2 ^ (φ.p - 1) := by exact_mod_cast h2
      have := isIeee_small (emin := φ.emin) (h3.trans_le (pow_le_pow_right₀ (by norm_num) (by omega : φ.p - 1 ≤ φ.p)))
      push_cast at this
      exact this
    rw [rd_fix hr, sub_self, abs_zero]
    exact mul_nonneg φ.u_pos.le (abs_nonneg _)

/-- Relative error and underflow error. -/
theorem rd_err (x : ℝ) : |φ.rd x - x| ≤ φ.u * |x| + 2 ^ φ.emin := by
  have hu := mul_nonneg φ.u_pos.le (abs_nonneg x)
  by_cases h : (2 : ℝ) ^ (φ.emin + φ.p - 1) ≤ |x|
  · have := ((φ.near _).2 _ ((roundTo_float φ.pos _).isIeee (roundTo_large φ.pos h))).trans (roundTo_err φ.p x)
    have h2 := two_zpow_pos φ.emin
    unfold u at hu ⊢
    linarith
  · have h1 := (φ.near x).2 _ (roundIeee_nearest φ.pos φ.emin x).1
    unfold roundIeee at h1
    rw [if_neg h] at h1
    have he := two_zpow_pos φ.emin
    have h2 := abs_sub_round (x / 2 ^ φ.emin)
    have e : (_root_.round (x / 2 ^ φ.emin) : ℝ) * 2 ^ φ.emin - x = -((x / 2 ^ φ.emin - _root_.round (x / 2 ^ φ.emin)) * 2 ^ φ.emin) := by
      field_simp
      ring
    rw [e, abs_neg, abs_mul, abs_of_pos he] at h1
    have := mul_le_mul_of_nonneg_right h2 he.le
    linarith

theorem round_fin {x : ℝ} (h : |φ.rd x| ≤ φ.top) : φ.round (.fin x) = .fin (φ.rd x) := by
  rw [abs_le] at h
  show (if φ.top < φ.rd x then _ else if φ.rd x < -φ.top then _ else _) = _
  rw [if_neg (not_lt.2 h.2), if_neg (not_lt.2 h.1)]

theorem round_num {x : ℝ} (h : φ.Num x) : φ.round (.fin x) = .fin x := by
  have e := rd_fix h.1
  rw [round_fin (by rw [e]; exact h.2), e]

theorem rd_num {x : ℝ} (h : |φ.rd x| ≤ φ.top) : φ.Num (φ.rd x) := ⟨φ.rd_repr x, h⟩

theorem rd_top {x : ℝ} (h : |x| ≤ φ.top) : |φ.rd x| ≤ φ.top := rd_abs φ.top_repr h

/-- Rounding of a non-positive number. -/
theorem round_nonpos {x : ℝ} (h : x ≤ 0) : φ.round (.fin x) = .ninf ∨ ∃ r, φ.round (.fin x) = .fin r ∧ φ.Num r ∧ r ≤ 0 := by
  have h1 := φ.rd_nonpos h
  have h2 := φ.top_ge
  by_cases h3 : φ.rd x < -φ.top
  · left
    show (if φ.top < φ.rd x then _ else if φ.rd x < -φ.top then _ else _) = _
    rw [if_neg (by linarith), if_pos h3]
  · right
    push Not at h3
    have h4 : |φ.rd x| ≤ φ.top := abs_le.2 ⟨h3, by linarith⟩
    exact ⟨_, round_fin h4, rd_num h4, h1⟩

/-- Rounding of a number bounded below by a number of the format. -/
theorem round_ge {x m : ℝ} (hm : φ.Num m) (h : m ≤ x) : φ.round (.fin x) = .pinf ∨ ∃ r, φ.round (.fin x) = .fin r ∧ φ.Num r ∧ m ≤ r := by
  have h1 := φ.rd_mono h
  rw [rd_fix hm.1] at h1
  have h2 := (abs_le.1 hm.2).1
  by_cases h3 : φ.top < φ.rd x
  · left
    show (if φ.top < φ.rd x then _ else _) = _
    rw [if_pos h3]
  · right
    push Not at h3
    have h4 : |φ.rd x| ≤ φ.top := abs_le.2 ⟨by linarith, h3⟩
    exact ⟨_, round_fin h4, rd_num h4, h1⟩

end IeeeFmt

/-! ### The largest weight -/

/-- The largest weight, when all weights are finite or `-inf`. -/
theorem foldl_maximum_good (l : List (Flt ℝ)) (a : Flt ℝ) (ha : a = .ninf ∨ ∃ x, a = .fin x) (hl : ∀ v ∈ l, v = .ninf ∨ ∃ x, v = .fin x) :
    l.foldl Flt.maximum a = .ninf ∧ a = .ninf ∧ (∀ v ∈ l, v = .ninf) ∨
      ∃ m, l.foldl Flt.maximum a = .fin m ∧ (a = .fin m ∨ .fin m ∈ l) ∧ (∀ x, a = .fin x → x ≤ m) ∧ ∀ x, .fin x ∈ l → x ≤ m := by
  induction l generalizing a with
  | nil =>
    rcases ha with rfl | ⟨x, rfl⟩
    · left; exact ⟨rfl, rfl, fun v hv => by cases hv⟩
    · right
      refine ⟨x, rfl, .inl rfl, fun y hy => ?_, fun y hy => by cases hy⟩
      injection hy with hy
      exact hy.ge
  | cons b l ih =>
    have hb := hl b (List.mem_cons_self ..)
    have hl' := fun v hv => hl v (List.mem_cons_of_mem _ hv)
    rw [List.foldl_cons]
    rcases ha with rfl | ⟨x, rfl⟩
    · have e : Flt.maximum (.ninf : Flt ℝ) b = b := by rcases hb with rfl | ⟨y, rfl⟩ <;> rfl
      rw [e]
      rcases ih b hb hl' with ⟨h1, h2, h3⟩ | ⟨m, h1, h2, h3, h4⟩
      · left
        refine ⟨h1, rfl, fun v hv => ?_⟩
        rcases List.mem_cons.1 hv with rfl | hv
        · exact h2
        · exact h3 v hv
      · right
        refine ⟨m, h1, .inr ?_, fun z hz => (nomatch hz), fun z hz => ?_⟩
        · rcases h2 with rfl | h2
          · exact List.mem_cons_self ..
          · exact List.mem_cons_of_mem _ h2
        · rcases List.mem_cons.1 hz with hz | hz
          · exact h3 z hz.symm
          · exact h4 z hz
    · rcases hb with rfl | ⟨y, rfl⟩
      · have e : Flt.maximum (.fin x : Flt ℝ) .ninf = .fin x := rfl
        rw [e]
        rcases ih (.fin x) (.inr ⟨x, rfl⟩) hl' with ⟨-, h2, -⟩ | ⟨m, h1, h2, h3, h4⟩
        · cases h2
        · right
          refine ⟨m, h1, h2.imp_right (List.mem_cons_of_mem _), h3, fun z hz => ?_⟩
          rcases List.mem_cons.1 hz with hz | hz
          · cases hz
          · exact h4 z hz
      · have e : Flt.maximum (.fin x : Flt ℝ) (.fin y) = .fin (max x y) := by
          show (if decide (x < y) = true then Flt.fin y else .fin x) = _
          by_cases h : x < y
          · rw [if_pos (decide_eq_true h), max_eq_right h.le]
          · rw [if_neg (by simpa using h), max_eq_left (not_lt.1 h)]
        rw [e]
        rcases ih (.fin (max x y)) (.inr ⟨_, rfl⟩) hl' with ⟨-, h2, -⟩ | ⟨m, h1, h2, h3, h4⟩
        · cases h2
        · right
          have h5 := h3 _ rfl
          refine ⟨m, h1, ?_, fun z hz => ?_, fun z hz => ?_⟩
          · rcases h2 with h2 | h2
            · injection h2 with h2
              rcases max_choice x y with h | h
              · left; rw [← h2, h]
              · right; rw [← h2, h]; exact List.mem_cons_self ..
            · exact .inr (List.mem_cons_of_mem _ h2)
          · injection hz with hz
            rw [← hz]
            exact (le_max_left _ _).trans h5
          · rcases List.mem_cons.1 hz with hz | hz
            · injection hz with hz
              rw [hz]
              exact (le_max_right _ _).trans h5
            · exact h4 z hz

theorem lseShift_good {n : ℕ} (w : Fin n → Flt ℝ) (h : ∀ i, w i = .ninf ∨ ∃ x, w i = .fin x) (hf : ∃ i x, w i = .fin x) :
    ∃ i, w i = .fin (lseShift (List.ofFn w)) ∧ ∀ j x, w j = .fin x → x ≤ lseShift (List.ofFn w) := by
  cases n with
  | zero => obtain ⟨i, -⟩ := hf; exact i.elim0
  | succ n =>
    rw [List.ofFn_succ]
    unfold lseShift
    rcases foldl_maximum_good (List.ofFn fun i => w (Fin.succ i)) (w 0) (h 0) (fun v hv => by
      obtain ⟨i, rfl⟩ := List.mem_ofFn.1 hv
      exact h _) with ⟨-, h2, h3⟩ | ⟨m, h1, h2, h3, h4⟩
    · obtain ⟨i, x, hx⟩ := hf
      cases i using Fin.cases with
      | zero => rw [h2] at hx; cases hx
      | succ i => rw [h3 _ (List.mem_ofFn.2 ⟨i, rfl⟩)] at hx; cases hx
    · simp only [h1]
      have h5 : ∀ j x, w j = .fin x → x ≤ m := by
        intro j x hx
        cases j using Fin.cases with
        | zero => exact h3 x hx
        | succ j => exact h4 x (List.mem_ofFn.2 ⟨j, hx⟩)
      rcases h2 with h2 | h2
      · exact ⟨0, h2, h5⟩
      · obtain ⟨i, hi⟩ := List.mem_ofFn.1 h2
        exact ⟨i.succ, hi, h5⟩

end Verif
