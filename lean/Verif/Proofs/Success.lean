import Verif.Model.Success
import Verif.Proofs.Np
import Verif.Spec.Example

/-! Helper lemmas for `Props/Success.lean`. -/

namespace Verif

variable {K V : Type} [Field K] [LinearOrder K] [IsStrictOrderedRing K]

theorem rateOf_ok {n M : ℕ} {r : K} (h : rateOf n M = .ok r) : 0 < M ∧ r = (n : K) / (M : K) := by
  unfold rateOf at h
  split at h
  · cases h
  · injection h with h
    exact ⟨by omega, h.symm⟩

theorem rate_bounds {n M : ℕ} (hM : 0 < M) (hn : n ≤ M) : 0 ≤ (n : K) / (M : K) ∧ (n : K) / (M : K) ≤ 1 := by
  have h : (0 : K) < M := by exact_mod_cast hM
  exact ⟨div_nonneg (Nat.cast_nonneg _) h.le, (div_le_one h).2 (by exact_mod_cast hn)⟩

theorem intersect1d_spec (a b : List ℕ) : (intersect1d a b).Pairwise (· < ·) ∧ ∀ m, m ∈ intersect1d a b ↔ m ∈ a ∧ m ∈ b := by
  refine ⟨Finset.sortedLT_sort _ |>.pairwise, fun m => ?_⟩
  unfold intersect1d
  rw [Finset.mem_sort, Finset.mem_inter, List.mem_toFinset, List.mem_toFinset]

theorem sorted_length_le {l : List ℕ} {M : ℕ} (h : l.Pairwise (· < ·)) (hb : ∀ m ∈ l, m < M) : l.length ≤ M := by
  have hn : l.Nodup := h.imp fun hab => Nat.ne_of_lt hab
  have hs : l ⊆ List.range M := fun m hm => List.mem_range.2 (hb m hm)
  have := (List.subperm_of_subset hn hs).length_le
  simpa using this

theorem range_filter_spec (p : ℕ → Bool) (M : ℕ) : ((List.range M).filter p).Pairwise (· < ·) ∧
    ∀ m, m ∈ (List.range M).filter p ↔ m < M ∧ p m = true := by
  refine ⟨List.pairwise_lt_range.filter _, fun m => ?_⟩
  rw [List.mem_filter, List.mem_range]

theorem foldl_max_le (l : List K) (a t : K) : l.foldl max a < t ↔ a < t ∧ ∀ b ∈ l, b < t := by
  induction l generalizing a with
  | nil => simp
  | cons b l ih =>
    rw [List.foldl_cons, ih, max_lt_iff]
    constructor
    · rintro ⟨⟨h1, h2⟩, h3⟩
      exact ⟨h1, fun c hc => by rcases List.mem_cons.1 hc with rfl | hc; exacts [h2, h3 c hc]⟩
    · rintro ⟨h1, h2⟩
      exact ⟨⟨h1, h2 b List.mem_cons_self⟩, fun c hc => h2 c (List.mem_cons_of_mem _ hc)⟩

end Verif
