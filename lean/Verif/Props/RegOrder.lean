import Verif.Proofs.RegOrder
import Verif.Model.Plot

/-! Property C97: the value of a regularised objective and earlier evaluations of it. -/

set_option linter.unusedSectionVars false

namespace Verif

variable {d : ℕ}

/-- **C97 (partial).** After any evaluations that did not raise, the first of them on an array with `M₀` rows, an array with `M₀` rows, or any array if `M₀ = 1`, gets the values
`f + lamda*R^p` with the `lamda` given to the constructor. Missing: arrays with another number of rows, see `C97_rows`, `C97_plot_false`. -/
theorem C97_partial (f R : (Fin d → ℝ) → ℝ) (p l : ℝ) (x₀ : Mat (Fin d → ℝ)) (xs : List (Mat (Fin d → ℝ))) (lam : Lam)
    (h : regCalls f R p (.num l) (x₀ :: xs) = .ok lam) (x : Mat (Fin d → ℝ)) (hx : x₀.rows = x.rows ∨ x₀.rows = 1) :
    ∃ y lam', regCall f R p lam x = .ok (y, lam') ∧ y.rows = x.rows ∧ y.cols = x.cols ∧
      ∀ m < x.rows, ∀ n, y.get m n = f (x.get m n) + l * R (x.get m n) ^ p := by
  rw [regCalls_num h]
  have hb : bcast (List.replicate x₀.rows l).length x.rows = .ok x.rows := by
    unfold bcast
    rw [List.length_replicate]
    rcases hx with e | e
    · rw [if_pos e, e]
    · split_ifs with h1
      · rw [h1]
      · rfl
  refine ⟨_, _, regCall_col hb, rfl, rfl, fun m hm n => ?_⟩
  · have e1 : brow x.rows m = m := by
      unfold brow
      split_ifs <;> omega
    simp only [e1]
    rw [getD_replicate_brow _ _ _ (by omega)]

/-- **C97, other numbers of rows.** After evaluations that did not raise, the first of them on an array with `M₀` rows, an array with `M` rows, `1 < M ≠ M₀ > 1`, raises; an array with one row gets
`M₀` rows of values instead of one, all of them the value of its row. -/
theorem C97_rows (f R : (Fin d → ℝ) → ℝ) (p l : ℝ) (x₀ : Mat (Fin d → ℝ)) (xs : List (Mat (Fin d → ℝ))) (lam : Lam)
    (h : regCalls f R p (.num l) (x₀ :: xs) = .ok lam) (x : Mat (Fin d → ℝ)) (hx : x₀.rows ≠ x.rows) (h1 : x₀.rows ≠ 1) :
    (x.rows ≠ 1 → regCall f R p lam x = .error .value) ∧
    (x.rows = 1 → ∃ y lam', regCall f R p lam x = .ok (y, lam') ∧ y.rows = x₀.rows ∧ y.rows ≠ x.rows ∧
      ∀ m < x₀.rows, ∀ n, y.get m n = f (x.get 0 n) + l * R (x.get 0 n) ^ p) := by
  rw [regCalls_num h]
  refine ⟨fun h2 => ?_, fun h2 => ?_⟩
  · have hb : bcast (List.replicate x₀.rows l).length x.rows = .error .value := by
      unfold bcast
      rw [List.length_replicate, if_neg hx, if_neg h1, if_neg h2]
    simp only [regCall, Lam.broadcast, hb, bind, Except.bind]
  · have hb : bcast (List.replicate x₀.rows l).length x.rows = .ok x₀.rows := by
      unfold bcast
      rw [List.length_replicate, if_neg hx, if_neg h1, if_pos h2]
    refine ⟨_, _, regCall_col hb, rfl, hx, fun m hm n => ?_⟩
    · have e1 : brow x.rows m = 0 := by
        unfold brow
        rw [if_pos h2]
      simp only [e1]
      rw [getD_replicate_brow _ _ _ (Or.inr hm)]

/-- **C97 is false after a contour plot.** If the objective was plotted with `contour_2D` (`num_pts > 1` grid points per axis) before its first evaluation on the ensemble of a dynamic with `M > 1`
runs, `M ≠ num_pts`, every evaluation on the ensemble raises. -/
theorem C97_plot_false (f R : (Fin d → ℝ) → ℝ) (p l : ℝ) (numPts : ℕ) (hn : 1 < numPts) (dims : ℕ × ℕ) (xMin xMax : ℝ) (yMin yMax : Option ℝ) (g : Grid ℝ)
    (_hg : contour2D numPts d dims xMin xMax yMin yMax = .ok g) (x : Mat (Fin d → ℝ)) (hx : 1 < x.rows) (hne : x.rows ≠ numPts) :
    ∃ y lam, regCall f R p (.num l) ⟨numPts, numPts, fun i j k => g.Z i j k⟩ = .ok (y, lam) ∧ y.rows = numPts ∧ regCall f R p lam x = .error .value ∧
      ∃ y' lam', regCall f R p (.num l) x = .ok (y', lam') := by
  have hf : ∀ z : Mat (Fin d → ℝ), ∃ y lam, regCall f R p (.num l) z = .ok (y, lam) ∧ y.rows = z.rows := by
    intro z
    refine ⟨_, _, regCall_ok (by simp [Lam.broadcast]), rfl⟩
  obtain ⟨y, lam, e, er⟩ := hf ⟨numPts, numPts, fun i j k => g.Z i j k⟩
  obtain ⟨y', lam', e', -⟩ := hf x
  refine ⟨y, lam, e, er, ?_, y', lam', e'⟩
  have hc : regCalls f R p (.num l) [⟨numPts, numPts, fun i j k => g.Z i j k⟩] = .ok lam := by
    simp only [regCalls, e, bind, Except.bind]
  exact (C97_rows f R p l _ [] lam hc x (fun h => hne h.symm) (by show numPts ≠ 1; omega)).1 (by omega)

/-- C97: two earlier evaluations on ensembles with three runs, and one on a contour grid. -/
example : ∃ lam, regCalls (fun v : Fin 2 → ℝ => v 0) (regL1 1) 2 (.num 5) [⟨3, 4, fun _ _ => ![1, 2]⟩, ⟨3, 7, fun _ _ => ![0, 1]⟩] = .ok lam := by
  refine ⟨.col (List.replicate 3 5), ?_⟩
  simp [regCalls, regCall, Lam.broadcast, bcast, bind, Except.bind, pure, Except.pure]

example : ∃ g, contour2D 50 2 (0, 1) (-1 : ℝ) 1 none none = .ok g := ⟨_, rfl⟩

end Verif
