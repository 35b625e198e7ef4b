import Verif.Np.Arr
import Mathlib.Tactic.Ring

/-! Facts about arrays of any number of axes. Helper lemmas. -/

namespace Verif

theorem InR.len : ∀ {s I : List ℕ}, InR s I → I.length = s.length
  | [], [], _ => rfl
  | _ :: _, _ :: _, h => by simp [InR.len h.2]
  | [], _ :: _, h => h.elim
  | _ :: _, [], h => h.elim

theorem unravel_inR : ∀ {s : List ℕ} {q : ℕ}, q < s.prod → InR s (unravel s q)
  | [], _, _ => trivial
  | d :: s, q, h => by
    rw [List.prod_cons] at h
    have hp : 0 < s.prod := by
      rcases Nat.eq_zero_or_pos s.prod with h0 | h0
      · rw [h0] at h; omega
      · exact h0
    exact ⟨Nat.div_lt_of_lt_mul (by rw [Nat.mul_comm]; exact h), unravel_inR (Nat.mod_lt _ hp)⟩

theorem ravel_lt : ∀ {s I : List ℕ}, InR s I → Nd.ravel s I < s.prod
  | [], [], _ => by simp [Nd.ravel]
  | d :: s, i :: I, h => by
    have h1 := ravel_lt h.2
    have h2 := h.1
    simp only [Nd.ravel, List.prod_cons]
    calc i * s.prod + Nd.ravel s I < i * s.prod + s.prod := by omega
      _ = (i + 1) * s.prod := by ring
      _ ≤ d * s.prod := Nat.mul_le_mul_right _ h2
  | [], _ :: _, h => h.elim
  | _ :: _, [], h => h.elim

theorem unravel_ravel : ∀ {s I : List ℕ}, InR s I → unravel s (Nd.ravel s I) = I
  | [], [], _ => rfl
  | d :: s, i :: I, h => by
    have h1 := ravel_lt h.2
    simp only [Nd.ravel, unravel]
    rw [Nat.mul_comm, Nat.mul_add_div (by omega), Nat.div_eq_of_lt h1, Nat.mul_add_mod, Nat.mod_eq_of_lt h1, unravel_ravel h.2, Nat.add_zero]
  | [], _ :: _, h => h.elim
  | _ :: _, [], h => h.elim

theorem ravel_unravel : ∀ {s : List ℕ} {q : ℕ}, q < s.prod → Nd.ravel s (unravel s q) = q
  | [], q, h => by simp at h; simp [Nd.ravel, h]
  | d :: s, q, h => by
    rw [List.prod_cons] at h
    have hp : 0 < s.prod := by
      rcases Nat.eq_zero_or_pos s.prod with h0 | h0
      · rw [h0] at h; omega
      · exact h0
    simp only [unravel, Nd.ravel]
    rw [ravel_unravel (Nat.mod_lt _ hp), Nat.mul_comm]
    exact Nat.div_add_mod _ _

theorem unravel_len : ∀ (s : List ℕ) (q : ℕ), (unravel s q).length = s.length
  | [], _ => rfl
  | _ :: s, q => by simp [unravel, unravel_len s]

namespace Arr

theorem padTo_of_le {n : ℕ} {s : List ℕ} (h : n ≤ s.length) : padTo n s = s := by
  unfold padTo
  rw [Nat.sub_eq_zero_of_le h]
  rfl

theorem bdims_self : ∀ s : List ℕ, bdims s s = some s
  | [] => rfl
  | a :: s => by simp [bdims, bdims_self s, Mat.bdim]

theorem bshape_eq {s t r : List ℕ} (h : s.length = t.length) : bshape s t = some r ↔ bdims s t = some r := by
  unfold bshape
  rw [padTo_of_le (by omega), padTo_of_le (by omega)]

theorem bshape_self (s : List ℕ) : bshape s s = some s := (bshape_eq rfl).2 (bdims_self s)

theorem bdims_length : ∀ {s t r : List ℕ}, bdims s t = some r → r.length = s.length
  | [], [], r, h => by simp [bdims] at h; simp [← h]
  | a :: s, b :: t, r, h => by
    simp only [bdims] at h
    cases h1 : Mat.bdim a b with
    | none => rw [h1] at h; simp at h
    | some d =>
      cases h2 : bdims s t with
      | none => rw [h1, h2] at h; simp at h
      | some l =>
        rw [h1, h2] at h
        simp only [Option.some.injEq] at h
        rw [← h, List.length_cons, List.length_cons, bdims_length h2]
  | [], _ :: _, _, h => by simp [bdims] at h
  | _ :: _, [], _, h => by simp [bdims] at h

theorem bshape_length {s t r : List ℕ} (h : bshape s t = some r) : r.length = max s.length t.length := by
  rw [bdims_length h]
  simp [padTo]

theorem bdims_ones : ∀ s : List ℕ, bdims s (List.replicate s.length 1) = some s
  | [] => rfl
  | a :: s => by
    simp only [List.length_cons, List.replicate_succ, bdims, bdims_ones s]
    have : Mat.bdim a 1 = some a := by unfold Mat.bdim; split_ifs with h1 h2 <;> simp_all
    rw [this]

theorem zipWith_bpos_self : ∀ {s I : List ℕ}, InR s I → List.zipWith Mat.bpos s I = I
  | [], [], _ => rfl
  | d :: s, i :: I, h => by
    have h1 := h.1
    simp only [List.zipWith_cons_cons, zipWith_bpos_self h.2, Mat.bpos]
    split_ifs with h0
    · rw [show i = 0 by omega]
    · rfl
  | [], _ :: _, h => h.elim
  | _ :: _, [], h => h.elim

theorem bindex_len {s I : List ℕ} (h : I.length = s.length) : bindex s I = List.zipWith Mat.bpos s I := by
  unfold bindex
  rw [h]
  simp

theorem bindex_self {s I : List ℕ} (h : InR s I) : bindex s I = I := by rw [bindex_len h.len, zipWith_bpos_self h]

theorem zipWith_bpos_ones : ∀ (n : ℕ) {I : List ℕ}, I.length = n → List.zipWith Mat.bpos (List.replicate n 1) I = List.replicate n 0
  | 0, [], _ => rfl
  | n + 1, i :: I, h => by
    simp only [List.replicate_succ, List.zipWith_cons_cons, zipWith_bpos_ones n (by simpa using h)]
    simp [Mat.bpos]

theorem prod_replicate_one (n : ℕ) : (List.replicate n 1).prod = 1 := by simp

theorem ravel_ones : ∀ n : ℕ, Nd.ravel (List.replicate n 1) (List.replicate n 0) = 0
  | 0 => rfl
  | n + 1 => by simp [List.replicate_succ, Nd.ravel, ravel_ones n]

theorem fits_self : ∀ s : List ℕ, fits s s = true
  | [] => rfl
  | a :: s => by simp [fits, fits_self s]

theorem assignable_self (s : List ℕ) : assignable s s = true := by
  simp [assignable, padTo, fits_self]

end Arr
end Verif
