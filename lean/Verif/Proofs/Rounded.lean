import Verif.Spec.Rounded
import Mathlib.Analysis.SpecialFunctions.Exp
import Mathlib.Analysis.SpecialFunctions.Exponential
import Mathlib.Analysis.Complex.ExponentialBounds
import Mathlib.Data.Int.Log
import Mathlib.Algebra.Order.BigOperators.Group.List

/-! Helper lemmas about rounded arithmetic. -/

set_option linter.unusedSectionVars false

namespace Verif

/-! ### Rounding to nearest -/

theorem two_zpow_pos (e : ℤ) : (0 : ℝ) < 2 ^ e := zpow_pos (by norm_num) e

theorem IsFloat.le {p : ℕ} (hp : 1 ≤ p) {m e : ℤ} (h : |m| ≤ 2 ^ p) : IsFloat p (m * (2 : ℝ) ^ e) := by
  rcases lt_or_eq_of_le h with h | h
  · exact ⟨m, e, h, rfl⟩
  · obtain ⟨q, rfl⟩ : ∃ q, p = q + 1 := ⟨p - 1, by omega⟩
    have hq : (0 : ℤ) < 2 ^ q := by positivity
    rcases abs_eq (show (0 : ℤ) ≤ 2 ^ (q + 1) by positivity) |>.1 h with h | h
    · refine ⟨2 ^ q, e + 1, by rw [abs_of_pos hq, pow_succ]; linarith, ?_⟩
      rw [h, zpow_add₀ two_ne_zero]
      push_cast
      ring
    · refine ⟨-2 ^ q, e + 1, by rw [abs_neg, abs_of_pos hq, pow_succ]; linarith, ?_⟩
      rw [h, zpow_add₀ two_ne_zero]
      push_cast
      ring

/-- Rounding to the nearest multiple of the unit in the last place. -/
noncomputable def roundTo (p : ℕ) (x : ℝ) : ℝ :=
  round (x / 2 ^ (Int.log 2 |x| + 1 - p)) * 2 ^ (Int.log 2 |x| + 1 - p)

theorem roundTo_zero (p : ℕ) : roundTo p 0 = 0 := by simp [roundTo]

theorem log_bounds {x : ℝ} (hx : x ≠ 0) : (2 : ℝ) ^ Int.log 2 |x| ≤ |x| ∧ |x| < 2 ^ (Int.log 2 |x| + 1) := by
  constructor
  · have := Int.zpow_log_le_self (b := 2) (r := |x|) (by norm_num) (abs_pos.2 hx)
    exact_mod_cast this
  · have := Int.lt_zpow_succ_log_self (b := 2) (by norm_num) |x|
    exact_mod_cast this

theorem roundTo_err (p : ℕ) (x : ℝ) : |roundTo p x - x| ≤ (2 : ℝ) ^ (-(p : ℤ)) * |x| := by
  by_cases hx : x = 0
  · subst hx; simp [roundTo_zero]
  obtain ⟨h1, -⟩ := log_bounds hx
  set k := Int.log 2 |x|
  have he := two_zpow_pos (k + 1 - p)
  have h2 := abs_sub_round (x / 2 ^ (k + 1 - p))
  have e : roundTo p x - x = -((x / 2 ^ (k + 1 - p) - round (x / 2 ^ (k + 1 - p))) * 2 ^ (k + 1 - p)) := by
    unfold roundTo
    field_simp
    ring
  rw [e, abs_neg, abs_mul, abs_of_pos he]
  calc _ ≤ 1 / 2 * (2 : ℝ) ^ (k + 1 - p) := mul_le_mul_of_nonneg_right h2 he.le
    _ = (2 : ℝ) ^ (-(p : ℤ)) * 2 ^ k := by
        rw [show k + 1 - (p : ℤ) = -(p : ℤ) + k + 1 by ring, zpow_add₀ two_ne_zero, zpow_add₀ two_ne_zero, zpow_one]
        ring
    _ ≤ _ := mul_le_mul_of_nonneg_left h1 (two_zpow_pos _).le

theorem roundTo_float {p : ℕ} (hp : 1 ≤ p) (x : ℝ) : IsFloat p (roundTo p x) := by
  by_cases hx : x = 0
  · subst hx
    rw [roundTo_zero]
    exact ⟨0, 0, by simp, by simp⟩
  obtain ⟨-, h2⟩ := log_bounds hx
  unfold roundTo
  set k := Int.log 2 |x|
  refine IsFloat.le hp ?_
  have he := two_zpow_pos (k + 1 - p)
  have hlt : |x / 2 ^ (k + 1 - p)| ≤ ((2 ^ p : ℤ) : ℝ) := by
    rw [abs_div, abs_of_pos he, div_le_iff₀ he]
    push_cast
    rw [← zpow_natCast, ← zpow_add₀ two_ne_zero]
    rw [show (p : ℤ) + (k + 1 - p) = k + 1 by ring]
    exact h2.le
  rw [abs_le] at hlt ⊢
  rw [round_eq]
  constructor
  · rw [Int.le_floor]
    push_cast at hlt ⊢
    linarith [hlt.1]
  · rw [← Int.lt_add_one_iff, Int.floor_lt]
    push_cast at hlt ⊢
    linarith [hlt.2]

theorem roundTo_nearest {p : ℕ} (hp : 1 ≤ p) : RoundNearest p (roundTo p) := by
  intro x
  refine ⟨roundTo_float hp x, ?_⟩
  by_cases hx : x = 0
  · subst hx; intro y _; rw [roundTo_zero]; simp
  obtain ⟨h1, -⟩ := log_bounds hx
  -- multiples of the unit
  have key : ∀ j : ℤ, |roundTo p x - x| ≤ |j * (2 : ℝ) ^ (Int.log 2 |x| + 1 - p) - x| := by
    intro j
    unfold roundTo
    set e := Int.log 2 |x| + 1 - (p : ℤ)
    have he := two_zpow_pos e
    have h := round_le (x / (2 : ℝ) ^ e) j
    have e1 : ∀ i : ℤ, |(i : ℝ) * 2 ^ e - x| = |x / 2 ^ e - i| * 2 ^ e := by
      intro i
      conv_rhs => rw [← abs_of_pos he, ← abs_mul, abs_of_pos he]
      rw [abs_sub_comm]
      congr 1
      field_simp
    rw [e1, e1]
    exact mul_le_mul_of_nonneg_right h he.le
  rintro y ⟨m, f, hm, rfl⟩
  set k := Int.log 2 |x|
  by_cases hf : k + 1 - p ≤ f
  · have := key (m * 2 ^ (f - (k + 1 - p)).toNat)
    have e : ((m * 2 ^ (f - (k + 1 - p)).toNat : ℤ) : ℝ) * 2 ^ (k + 1 - (p : ℤ)) = m * (2 : ℝ) ^ f := by
      push_cast
      rw [← zpow_natCast, Int.toNat_of_nonneg (by omega), mul_assoc, ← zpow_add₀ two_ne_zero]
      congr 2
      ring
    rw [e] at this
    exact this
  · -- `|y| < 2^k ≤ |x|`
    have hy : |(m : ℝ) * 2 ^ f| < 2 ^ k := by
      rw [abs_mul, abs_of_pos (two_zpow_pos f)]
      have h3 : |(m : ℝ)| < 2 ^ p := by exact_mod_cast hm
      calc _ < (2 : ℝ) ^ p * 2 ^ f := mul_lt_mul_of_pos_right h3 (two_zpow_pos f)
        _ = 2 ^ ((p : ℤ) + f) := by rw [zpow_add₀ two_ne_zero, zpow_natCast]
        _ ≤ 2 ^ k := zpow_le_zpow_right₀ (by norm_num) (by omega)
    have e : ∀ i : ℤ, ((i * 2 ^ (p - 1) : ℤ) : ℝ) * 2 ^ (k + 1 - (p : ℤ)) = i * (2 : ℝ) ^ k := by
      intro i
      push_cast
      rw [← zpow_natCast, mul_assoc, ← zpow_add₀ two_ne_zero]
      congr 2
      omega
    rcases lt_or_gt_of_ne hx with h0 | h0
    · have := key (-1 * 2 ^ (p - 1))
      rw [e] at this
      refine this.trans ?_
      rw [abs_of_neg h0] at h1
      have := abs_lt.1 hy
      push_cast
      rw [abs_of_nonneg (by linarith), abs_of_nonneg (by linarith)]
      linarith
    · have := key (1 * 2 ^ (p - 1))
      rw [e] at this
      refine this.trans ?_
      rw [abs_of_pos h0] at h1
      have := abs_lt.1 hy
      push_cast
      rw [abs_of_nonpos (by linarith), abs_of_nonpos (by linarith)]
      linarith

variable {p : ℕ} {rd : ℝ → ℝ}

theorem RoundNearest.err (hp : 1 ≤ p) (h : RoundNearest p rd) (x : ℝ) : |rd x - x| ≤ (2 : ℝ) ^ (-(p : ℤ)) * |x| :=
  ((h x).2 _ (roundTo_float hp x)).trans (roundTo_err p x)

theorem RoundNearest.fix (h : RoundNearest p rd) {x : ℝ} (hx : IsFloat p x) : rd x = x := by
  have := (h x).2 x hx
  rw [sub_self, abs_zero] at this
  have := abs_nonpos_iff.1 this
  linarith

theorem IsFloat.neg {x : ℝ} (h : IsFloat p x) : IsFloat p (-x) := by
  obtain ⟨m, e, h1, rfl⟩ := h
  exact ⟨-m, e, by rw [abs_neg]; exact h1, by push_cast; ring⟩

theorem isFloat_int {m : ℤ} (hp : 1 ≤ p) (h : |m| ≤ 2 ^ p) : IsFloat p m := by
  have := IsFloat.le hp (e := 0) h
  simpa using this

theorem RoundNearest.nonneg (h : RoundNearest p rd) {x : ℝ} (hx : 0 ≤ x) : 0 ≤ rd x := by
  by_contra hn
  push Not at hn
  have h0 := (h x).2 0 ⟨0, 0, by simp, by simp⟩
  rw [abs_of_nonpos (by linarith), abs_of_nonpos (by linarith)] at h0
  linarith

/-- Rounding to nearest obeys the standard model. -/
theorem RoundNearest.std (hp : 1 ≤ p) (h : RoundNearest p rd) : StdModel (Arith.ofRound rd) ((2 : ℝ) ^ (-(p : ℤ))) 0 where
  u_nonneg := (two_zpow_pos _).le
  η_nonneg := le_rfl
  add a b := h.err hp _
  sub a b := h.err hp _
  mul a b := by rw [add_zero]; exact h.err hp _
  exp a := by
    rw [add_zero]
    have := h.err hp (Real.exp a)
    rwa [abs_of_pos (Real.exp_pos a)] at this
  exp_nonneg a := h.nonneg (Real.exp_pos a).le
  log a _ := by rw [add_zero]; exact h.err hp _

/-- Distance of floating point numbers. -/
theorem IsFloat.spacing (hp : 1 ≤ p) {w y : ℝ} (hw : IsFloat p w) (hy : IsFloat p y) {k : ℕ} (hk : (2 : ℝ) ^ (p + 1 + k) ≤ |w|) (hne : y ≠ w) :
    (2 : ℝ) ^ (k + 1) ≤ |y - w| := by
  obtain ⟨a, e, ha, rfl⟩ := hw
  obtain ⟨b, f, hb, rfl⟩ := hy
  have ha' : |(a : ℝ)| < 2 ^ p := by exact_mod_cast ha
  have hb' : |(b : ℝ)| < 2 ^ p := by exact_mod_cast hb
  rw [abs_mul, abs_of_pos (two_zpow_pos e)] at hk
  have he : (k : ℤ) + 1 < e := by
    have h1 : (2 : ℝ) ^ (p + 1 + k) < 2 ^ p * 2 ^ e := hk.trans_lt (mul_lt_mul_of_pos_right ha' (two_zpow_pos e))
    rw [← zpow_natCast, ← zpow_natCast, ← zpow_add₀ two_ne_zero] at h1
    have := (zpow_lt_zpow_iff_right₀ (by norm_num : (1 : ℝ) < 2)).1 h1
    push_cast at this
    omega
  by_cases hf : (k : ℤ) + 1 ≤ f
  · -- multiples of `2^(k+1)`
    have e1 : ∀ (c g : ℤ), (k : ℤ) + 1 ≤ g → (c : ℝ) * 2 ^ g = ((c * 2 ^ (g - (k + 1)).toNat : ℤ) : ℝ) * 2 ^ (k + 1) := by
      intro c g hg
      push_cast
      rw [← zpow_natCast, ← zpow_natCast, Int.toNat_of_nonneg (by omega), mul_assoc, ← zpow_add₀ two_ne_zero]
      congr 2
      push_cast
      ring
    rw [e1 b f hf, e1 a e he.le] at hne ⊢
    rw [← sub_mul, abs_mul, abs_of_pos (show (0 : ℝ) < 2 ^ (k + 1) by positivity)]
    have h1 : (1 : ℤ) ≤ |b * 2 ^ (f - (k + 1)).toNat - a * 2 ^ (e - (k + 1)).toNat| :=
      Int.one_le_abs (fun hz => hne (by rw [sub_eq_zero.1 hz]))
    have h2 : (1 : ℝ) ≤ |((b * 2 ^ (f - (k + 1)).toNat : ℤ) : ℝ) - ((a * 2 ^ (e - (k + 1)).toNat : ℤ) : ℝ)| := by exact_mod_cast h1
    nlinarith [show (0 : ℝ) < 2 ^ (k + 1) by positivity]
  · have h3 : |(b : ℝ) * 2 ^ f| ≤ 2 ^ (p + k) := by
      rw [abs_mul, abs_of_pos (two_zpow_pos f)]
      calc _ ≤ (2 : ℝ) ^ p * 2 ^ f := mul_le_mul_of_nonneg_right hb'.le (two_zpow_pos f).le
        _ ≤ 2 ^ p * 2 ^ (k : ℤ) := mul_le_mul_of_nonneg_left (zpow_le_zpow_right₀ (by norm_num) (by omega)) (by positivity)
        _ = _ := by rw [zpow_natCast, pow_add]
    have h4 : |(a : ℝ) * 2 ^ e| = |(a : ℝ)| * 2 ^ e := by rw [abs_mul, abs_of_pos (two_zpow_pos e)]
    have h5 := abs_sub_abs_le_abs_sub ((a : ℝ) * 2 ^ e) ((b : ℝ) * 2 ^ f)
    rw [abs_sub_comm ((a : ℝ) * 2 ^ e)] at h5
    have h6 : (2 : ℝ) ^ (p + 1 + k) = 2 * 2 ^ (p + k) := by rw [show p + 1 + k = p + k + 1 by ring, pow_succ]; ring
    have h7 : (2 : ℝ) ^ (k + 1) ≤ 2 ^ (p + k) := pow_le_pow_right₀ (by norm_num) (by omega)
    linarith

/-- A small number is lost when it is added to a large one. -/
theorem RoundNearest.absorb (hp : 1 ≤ p) (h : RoundNearest p rd) {w z : ℝ} (hw : IsFloat p w) {k : ℕ} (hk : (2 : ℝ) ^ (p + 1 + k) ≤ |w|) (hz : |z| < 2 ^ k) :
    rd (z + w) = w := by
  by_contra hne
  have h1 := hw.spacing hp (h (z + w)).1 hk hne
  have h2 := (h (z + w)).2 w hw
  have h3 : |w - (z + w)| = |z| := by rw [show w - (z + w) = -z by ring, abs_neg]
  rw [h3] at h2
  have h4 : |rd (z + w) - w| ≤ |rd (z + w) - (z + w)| + |z| := by
    have := abs_add_le (rd (z + w) - (z + w)) z
    rwa [show rd (z + w) - (z + w) + z = rd (z + w) - w by ring] at this
  rw [pow_succ] at h1
  linarith

/-- Counting is exact. -/
theorem sum_ones (hp : 1 ≤ p) (h : RoundNearest p rd) {ι : Type} (t : SumTree ι) (hn : t.leaves.length ≤ 2 ^ p) :
    t.eval (Arith.ofRound rd).add (fun _ => (1 : ℝ)) = t.leaves.length := by
  induction t with
  | leaf i => simp [SumTree.eval, SumTree.leaves]
  | node l r hl hr =>
    simp only [SumTree.leaves, SumTree.eval, List.length_append] at hn ⊢
    rw [hl (by omega), hr (by omega)]
    have := isFloat_int (p := p) (m := ((l.leaves.length + r.leaves.length : ℕ) : ℤ)) hp (by
      rw [abs_of_nonneg (by positivity)]
      exact_mod_cast hn)
    push_cast at this ⊢
    exact h.fix this

end Verif
