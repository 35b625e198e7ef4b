import Verif.Spec.RegOrder
import Verif.Proofs.Regularizers
import Verif.Proofs.Np

/-! Helper lemmas for `Props/RegOrder.lean`. -/

set_option linter.unusedSectionVars false

namespace Verif

variable {d : ℕ}

theorem regCalls_col {f R : (Fin d → ℝ) → ℝ} {p : ℝ} {l : List ℝ} : ∀ {xs : List (Mat (Fin d → ℝ))} {lam : Lam}, regCalls f R p (.col l) xs = .ok lam → lam = .col l
  | [], lam, h => by
    injection h with h
    exact h.symm
  | x :: xs, lam, h => by
    simp only [regCalls, bind_ok] at h
    obtain ⟨⟨y, l'⟩, h1, h2⟩ := h
    simp only [regCall, bind_ok, pure_ok] at h1
    obtain ⟨r, -, h1⟩ := h1
    injection h1 with e1 e2
    subst e2
    exact regCalls_col h2

theorem regCalls_num {f R : (Fin d → ℝ) → ℝ} {p l : ℝ} {x₀ : Mat (Fin d → ℝ)} {xs : List (Mat (Fin d → ℝ))} {lam : Lam}
    (h : regCalls f R p (.num l) (x₀ :: xs) = .ok lam) : lam = .col (List.replicate x₀.rows l) := by
  simp only [regCalls, bind_ok] at h
  obtain ⟨⟨y, l'⟩, h1, h2⟩ := h
  simp only [regCall, bind_ok, pure_ok] at h1
  obtain ⟨r, -, h1⟩ := h1
  injection h1 with e1 e2
  subst e2
  exact regCalls_col h2

theorem getD_replicate_brow (n m : ℕ) (l : ℝ) (h : n = 1 ∨ m < n) : (List.replicate n l).getD (brow (List.replicate n l).length m) 0 = l := by
  have hlt : brow n m < n := by
    unfold brow
    split_ifs <;> omega
  rw [List.length_replicate, List.getD_eq_getElem?_getD, List.getElem?_eq_getElem (by rw [List.length_replicate]; exact hlt)]
  simp

theorem regCall_col {f R : (Fin d → ℝ) → ℝ} {p : ℝ} {l : List ℝ} {x : Mat (Fin d → ℝ)} {r : ℕ} (h : bcast l.length x.rows = .ok r) :
    regCall f R p (.col l) x = .ok (⟨r, x.cols, fun m n => f (x.get (brow x.rows m) n) + l.getD (brow l.length m) 0 * R (x.get (brow x.rows m) n) ^ p⟩, .col l) := by
  simp only [regCall, Lam.broadcast, h, bind, Except.bind, pure, Except.pure]

end Verif
