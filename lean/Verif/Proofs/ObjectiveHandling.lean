import Verif.Model.ObjectiveHandling
import Verif.Spec.ObjectiveHandling
import Mathlib.Tactic.Ring
import Mathlib.Tactic.IntervalCases

/-! Helper lemmas for `Props/ObjectiveHandling.lean`. -/

namespace Verif

variable {α β : Type}

theorem chunk_length {d : ℕ} {l : List α} {i r : ℕ} (hl : l.length = r * d) (hi : i < r) : (Nd.chunk d l i).length = d := by
  have h : i * d + d ≤ r * d := by
    calc i * d + d = (i + 1) * d := by ring
      _ ≤ r * d := Nat.mul_le_mul_right d hi
  simp only [Nd.chunk, List.length_take, List.length_drop, hl]
  omega

theorem chunk_get {d : ℕ} {l : List α} {i k : ℕ} (hk : k < d) : (Nd.chunk d l i)[k]? = l[i * d + k]? := by
  simp only [Nd.chunk, List.getElem?_take, List.getElem?_drop, if_pos hk]

theorem ravel3 (M N d m n k : ℕ) : Nd.ravel [M, N, d] [m, n, k] = (m * N + n) * d + k := by
  simp only [Nd.ravel, List.prod_cons, List.prod_nil]
  ring

theorem ravel2 (M N m n : ℕ) : Nd.ravel [M, N] [m, n] = m * N + n := by
  simp only [Nd.ravel, List.prod_cons, List.prod_nil]
  ring

theorem pos_lt {M N m n : ℕ} (hm : m < M) (hn : n < N) : m * N + n < M * N := by
  calc m * N + n < m * N + N := by omega
    _ = (m + 1) * N := by ring
    _ ≤ M * N := Nat.mul_le_mul_right N hm

theorem reshape2_ok (x : Nd α) {r c : ℕ} (hc : 1 ≤ c) (h : x.data.length = r * c) : x.reshape2 c = .ok ⟨[r, c], x.data⟩ := by
  unfold Nd.reshape2
  rw [if_neg (by omega), if_neg (by rw [h]; simp), h, Nat.mul_div_cancel _ (by omega)]

theorem particle_of_row {x : Nd α} {M N d m n : ℕ} (hs : x.shape = [M, N, d]) (hx : x.WF) (hm : m < M) (hn : n < N)
    {row : List α} (h1 : row.length = d) (h2 : ∀ k < d, row[k]? = x.data[(m * N + n) * d + k]?) :
    IsParticle x d m n row := by
  refine ⟨h1, fun k hk => ?_⟩
  have e : x.at? [m, n, k] = x.data[(m * N + n) * d + k]? := by
    unfold Nd.at?
    rw [hs, ravel3]
  rw [e]
  refine ⟨h2 k hk, ?_⟩
  have hl : x.data.length = M * N * d := by
    unfold Nd.WF at hx
    rw [hx, hs]
    simp only [List.prod_cons, List.prod_nil]
    ring
  have : (m * N + n) * d + k < M * N * d := pos_lt (pos_lt hm hn) hk
  rw [List.getElem?_eq_getElem (by omega)]
  rfl

end Verif
