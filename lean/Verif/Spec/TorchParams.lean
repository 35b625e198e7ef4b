import Mathlib.Order.Basic
import Mathlib.Data.Nat.Basic
import Mathlib.Data.List.Basic

/-! Specification of a list of intervals that tiles a range. -/

namespace Verif

/-- The half-open intervals start at `a`, follow each other without gap or overlap and end at `t`. -/
def Tiles (a t : ℕ) : List (ℕ × ℕ) → Prop
  | [] => a = t
  | (s, e) :: l => s = a ∧ s ≤ e ∧ Tiles e t l

/-- What tiling means for positions: every position of `[a, t)` lies in exactly one interval. -/
theorem Tiles.cover {a t : ℕ} {l : List (ℕ × ℕ)} (h : Tiles a t l) :
    ∀ i, a ≤ i → i < t → ∃! j : ℕ, ∃ q : ℕ × ℕ, l[j]? = some q ∧ q.1 ≤ i ∧ i < q.2 := by
  have low : ∀ (l : List (ℕ × ℕ)) (a : ℕ), Tiles a t l → ∀ (j : ℕ) (q : ℕ × ℕ), l[j]? = some q → a ≤ q.1 := by
    intro l
    induction l with
    | nil => intro a _ j q hq; simp at hq
    | cons p l ih =>
      obtain ⟨s, e⟩ := p
      rintro a ⟨rfl, h2, h3⟩ j q hq
      cases j with
      | zero => simp at hq; subst hq; exact le_refl _
      | succ j => exact le_trans h2 (ih e h3 j q (by simpa using hq))
  induction l generalizing a with
  | nil => intro i h1 h2; exact absurd h (by show a ≠ t; omega)
  | cons p l ih =>
    obtain ⟨s, e⟩ := p
    obtain ⟨rfl, h2, h3⟩ := h
    intro i hi ht
    by_cases hie : i < e
    · refine ⟨0, ⟨(s, e), rfl, hi, hie⟩, ?_⟩
      rintro j ⟨q, q1, q2, q3⟩
      cases j with
      | zero => rfl
      | succ j =>
        have := low l e h3 j q (by simpa using q1)
        omega
    · obtain ⟨j, ⟨q, q1, q2, q3⟩, u⟩ := ih h3 i (by omega) ht
      refine ⟨j + 1, ⟨q, by simpa using q1, q2, q3⟩, ?_⟩
      rintro k ⟨r, r1, r2, r3⟩
      cases k with
      | zero => simp at r1; subst r1; exact absurd r3 hie
      | succ k => rw [u k ⟨r, by simpa using r1, r2, r3⟩]

end Verif
