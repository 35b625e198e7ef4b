import Verif.Spec.Fl
import Verif.Model.Dyn

/-! Lemmas about floating point numbers as scalars. -/

set_option linter.unusedSectionVars false

namespace Verif

variable {p : ℕ} {rd : ℝ → ℝ}

theorem RoundNearest.mono (h : RoundNearest p rd) {x y : ℝ} (hxy : x ≤ y) : rd x ≤ rd y := by
  by_contra hc
  push Not at hc
  have h1 := (h x).2 _ (h y).1
  have h2 := (h y).2 _ (h x).1
  have hne : x ≠ y := by rintro rfl; exact lt_irrefl _ hc
  have hlt : x < y := lt_of_le_of_ne hxy hne
  rcases abs_cases (rd x - x) with ⟨a, _⟩ | ⟨a, _⟩ <;> rcases abs_cases (rd y - x) with ⟨b, _⟩ | ⟨b, _⟩ <;>
    rcases abs_cases (rd y - y) with ⟨c, _⟩ | ⟨c, _⟩ <;> rcases abs_cases (rd x - y) with ⟨d, _⟩ | ⟨d, _⟩ <;> linarith

theorem RoundNearest.pos (hp : 1 ≤ p) (h : RoundNearest p rd) {x : ℝ} (hx : 0 < x) : 0 < rd x := by
  have h1 := h.err hp x
  have h2 : (2 : ℝ) ^ (-(p : ℤ)) ≤ 1 / 2 := by
    have : (2 : ℝ) ^ (-(p : ℤ)) ≤ 2 ^ (-1 : ℤ) := zpow_le_zpow_right₀ (by norm_num) (by omega)
    simpa using this
  rw [abs_of_pos hx, abs_le] at h1
  have := mul_le_mul_of_nonneg_right h2 hx.le
  linarith [h1.1]

theorem isFloat_zero (p : ℕ) : IsFloat p 0 := ⟨0, 0, by simp, by simp⟩

theorem RoundNearest.zero (h : RoundNearest p rd) : rd 0 = 0 := h.fix (isFloat_zero p)

theorem isFloat_one (hp : 1 ≤ p) : IsFloat p 1 := by
  have := isFloat_int (p := p) (m := 1) hp (by simpa using one_le_pow₀ (by norm_num : (1 : ℤ) ≤ 2))
  simpa using this

namespace Fl
variable {φ : FloatFmt}

theorem ext {a b : Fl φ} (h : a.val = b.val) : a = b := Subtype.ext h
theorem le_iff {a b : Fl φ} : a ≤ b ↔ a.val ≤ b.val := Iff.rfl
theorem lt_iff {a b : Fl φ} : a < b ↔ a.val < b.val := Iff.rfl
theorem isFloat (a : Fl φ) : IsFloat φ.p a.val := a.2
theorem val_round (x : ℝ) : (round φ x).val = φ.rd x := rfl
theorem val_zero : (0 : Fl φ).val = 0 := φ.near.zero
theorem val_one : (1 : Fl φ).val = 1 := φ.near.fix (isFloat_one φ.pos)
theorem val_neg (a : Fl φ) : (-a).val = -a.val := rfl
theorem val_add (a b : Fl φ) : (a + b).val = φ.rd (a.val + b.val) := rfl
theorem val_sub (a b : Fl φ) : (a - b).val = φ.rd (a.val - b.val) := rfl
theorem val_mul (a b : Fl φ) : (a * b).val = φ.rd (a.val * b.val) := rfl
theorem rd_val (a : Fl φ) : φ.rd a.val = a.val := φ.near.fix a.2
theorem val_smul (a b : Fl φ) : (a • b).val = φ.rd (a.val * b.val) := rfl

theorem add_zero' (a : Fl φ) : a + 0 = a := ext (by rw [val_add, val_zero, add_zero, rd_val])

instance : SoundArith (Fl φ) where
  le_add t d hd := by
    have hd' : 0 ≤ d.val := by rw [← val_zero (φ := φ)]; exact hd
    rw [le_iff, val_add, ← rd_val t, rd_val t]
    have := φ.near.mono (show t.val ≤ t.val + d.val by linarith)
    rwa [rd_val] at this
  zero_add a := ext (by rw [val_add, val_zero, zero_add, rd_val])
  sub_pos a b := by
    rw [lt_iff, lt_iff, val_add, val_neg, val_zero]
    constructor
    · intro h
      by_contra hc
      push Not at hc
      have := φ.near.mono (show a.val + -b.val ≤ 0 by linarith)
      rw [φ.near.zero] at this
      linarith
    · intro h
      exact φ.near.pos φ.pos (by linarith)

end Fl
end Verif
