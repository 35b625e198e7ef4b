import Verif.Model.ObjArrays
import Verif.Proofs.Arrays
import Verif.Proofs.Objectives

/-! Shapes of objectives on ensembles. Helper lemmas. -/

namespace Verif

open Obj Real

theorem pick3 {M N d k : ℕ} {x : Arr ℝ} (hx : x.shape = [M, N, d]) (hk : k < d) :
    x.pick k = .ok ⟨[M, N], fun I => x.get (I ++ [k])⟩ := by
  unfold Arr.pick
  rw [hx]
  simp only [List.reverse_cons, List.reverse_nil, List.nil_append, List.cons_append]
  rw [if_pos hk]
  rfl

theorem alongLast3 {α β : Type} {M N d : ℕ} {x : Arr α} (hx : x.shape = [M, N, d]) (g : List α → β) :
    x.alongLast g = .ok ⟨[M, N], fun I => g ((List.range d).map fun j => x.get (I ++ [j]))⟩ := by
  unfold Arr.alongLast
  rw [hx]
  rfl

theorem normLast3 {M N d : ℕ} {x : Arr ℝ} (hx : x.shape = [M, N, d]) :
    x.normLast sqrt = .ok ⟨[M, N], fun I => √(((List.range d).map fun j => x.get (I ++ [j]) ^ 2).sum)⟩ := by
  unfold Arr.normLast
  rw [hx]
  rfl

theorem bin2 {α β γ : Type} {M N : ℕ} {a : Arr α} {b : Arr β} (ha : a.shape = [M, N]) (hb : b.shape = [M, N]) (f : α → β → γ) :
    ∃ c, Arr.bin f a b = .ok c ∧ c.shape = [M, N] ∧ ∀ i < M, ∀ j < N, c.get [i, j] = f (a.get [i, j]) (b.get [i, j]) := by
  refine ⟨⟨[M, N], fun I => f (a.get (Arr.bindex a.shape I)) (b.get (Arr.bindex b.shape I))⟩, ?_, rfl, ?_⟩
  · unfold Arr.bin
    rw [ha, hb, Arr.bshape_self]
  · intro i hi j hj
    simp only
    rw [ha, hb, Arr.bindex_self (s := [M, N]) (I := [i, j]) ⟨hi, hj, trivial⟩]

theorem squeeze2 {α : Type} {M N : ℕ} {a : Arr α} (ha : a.shape = [M, N]) (hM : M ≠ 1) (hN : N ≠ 1) :
    a.squeeze.shape = [M, N] ∧ ∀ i j, a.squeeze.get [i, j] = a.get [i, j] := by
  constructor
  · simp [Arr.squeeze, ha, hM, hN]
  · intro i j
    simp [Arr.squeeze, ha, Arr.unsqueeze, hM, hN]

theorem squeeze2_one {α : Type} {M N : ℕ} {a : Arr α} (ha : a.shape = [M, N]) (h : M = 1 ∨ N = 1) : a.squeeze.shape ≠ [M, N] := by
  intro h'
  have : a.squeeze.shape.length ≤ 1 := by
    rcases h with rfl | rfl
    · simp only [Arr.squeeze, ha]
      by_cases hn : N = 1 <;> simp [hn]
    · simp only [Arr.squeeze, ha]
      by_cases hm : M = 1 <;> simp [hm]
  rw [h'] at this
  simp at this

theorem norm2_range {d : ℕ} (g : ℕ → ℝ) : √(((List.range d).map fun j => g j ^ 2).sum) = norm2 fun q : Fin d => g q := by
  unfold norm2
  rw [sum_range_fin fun j => g j ^ 2]

end Verif
