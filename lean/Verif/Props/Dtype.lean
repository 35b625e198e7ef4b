import Verif.Model.Dtype
import Verif.Proofs.Np
import Mathlib.Data.Rat.Floor
import Mathlib.Tactic.Linarith
import Mathlib.Tactic.NormNum

/-! Property C75: integer ensembles and the forms of `alpha`. -/

set_option linter.unusedSectionVars false

namespace Verif

variable {K : Type} [Field K] [LinearOrder K] [FloorRing K] [IsStrictOrderedRing K]

/-- Truncation keeps integers and nothing else. -/
theorem truncZ_eq_iff (v : K) : truncZ v = v ↔ ∃ z : ℤ, (z : K) = v := by
  constructor
  · intro h
    unfold truncZ at h
    split_ifs at h
    · exact ⟨_, h⟩
    · exact ⟨_, h⟩
  · rintro ⟨z, rfl⟩
    unfold truncZ
    split_ifs
    · rw [Int.floor_intCast]
    · rw [Int.ceil_intCast]

theorem truncZ_small {v : K} (h : |v| < 1) : truncZ v = 0 := by
  obtain ⟨h1, h2⟩ := abs_lt.1 h
  unfold truncZ
  split_ifs with h0
  · rw [Int.floor_eq_zero_iff.2 ⟨h0, h2⟩, Int.cast_zero]
  · have : ⌈v⌉ = 0 := Int.ceil_eq_zero_iff.2 ⟨h1, (not_le.1 h0).le⟩
    rw [this, Int.cast_zero]

/-- The stored rows of an `(R, C)` array `alpha` meet an `(A, B)` array of energies. -/
theorem alphaWeights_arr2 (m : Mat K) (active : List ℕ) (hact : ∀ r ∈ active, r < m.rows) (energy : Mat K)
    (he : energy.rows = active.length) (c : ℕ) (hc : Mat.bdim m.cols energy.cols = some c) :
    ∃ w, alphaWeights (.arr2 m) active energy = .ok w ∧ w.rows = active.length ∧ w.cols = c ∧
      ∀ i < active.length, ∀ j < c, w.get i j = -m.get (active.getD i 0) (Mat.bpos m.cols j) * energy.get i (Mat.bpos energy.cols j) := by
  have e1 : alphaRows active (.arr2 m) = .ok ⟨active.length, m.cols, fun i j => m.get (active.getD i 0) j⟩ := if_pos hact
  simp only [alphaWeights, e1, bind, Except.bind]
  have hr : Mat.bdim active.length energy.rows = some active.length := by rw [he]; exact Mat.bdim_self _
  rw [Mat.bin_of_dims (a := ⟨active.length, m.cols, fun i j => m.get (active.getD i 0) j⟩) hr hc]
  refine ⟨_, rfl, rfl, rfl, fun i hi j _ => ?_⟩
  have hb : Mat.bpos active.length i = i := by
    unfold Mat.bpos
    split_ifs with h
    · omega
    · rfl
  simp only [he, hb]

/-- **C75, numbers as `alpha`.** Float ensemble, or an integer value: a Python number (or `np.float64`) is used for all runs: the weights of every
active run are `-alpha * energy`, whatever runs are active. -/
theorem C75_number_partial (dt : DType) (a : K) (hdt : dt = .float ∨ ∃ z : ℤ, (z : K) = a) (M : ℕ) (active : List ℕ) (hact : ∀ r ∈ active, r < M)
    (energy : Mat K) (he : energy.rows = active.length) :
    ∃ w, alphaWeights (initAlpha dt M (.py a)) active energy = .ok w ∧ w.rows = active.length ∧ w.cols = energy.cols ∧
      ∀ i < active.length, ∀ j < energy.cols, w.get i j = -a * energy.get i j := by
  have hc : castTo dt a = a := by
    rcases hdt with rfl | h
    · rfl
    · cases dt
      · exact (truncZ_eq_iff a).2 h
      · rfl
  obtain ⟨w, h1, h2, h3, h4⟩ := alphaWeights_arr2 ⟨M, 1, fun _ _ => castTo dt a⟩ active hact energy he energy.cols (Mat.bdim_one_left _)
  refine ⟨w, h1, h2, h3, fun i hi j hj => ?_⟩
  have hb : Mat.bpos energy.cols j = j := by
    unfold Mat.bpos
    split_ifs with h
    · omega
    · rfl
  rw [h4 i hi j hj, hc, hb]

/-- **C75, arrays as `alpha`.** An array of shape `(M, 1)` gives every run its own value, one of shape `(M, B)`, with `B` the batch size, every particle
of the batch; the stored array is the one that was passed. -/
theorem C75_array_partial (dt : DType) (m : Mat K) (active : List ℕ) (hact : ∀ r ∈ active, r < m.rows)
    (energy : Mat K) (he : energy.rows = active.length) (hcols : m.cols = 1 ∨ m.cols = energy.cols) :
    ∃ w, alphaWeights (initAlpha dt m.rows (.arr2 m)) active energy = .ok w ∧ w.rows = active.length ∧ w.cols = energy.cols ∧
      ∀ i < active.length, ∀ j < energy.cols,
        w.get i j = -m.get (active.getD i 0) (if m.cols = 1 then 0 else j) * energy.get i j := by
  have hd : Mat.bdim m.cols energy.cols = some energy.cols := by
    rcases hcols with h | h
    · rw [h]; exact Mat.bdim_one_left _
    · rw [h]; exact Mat.bdim_self _
  obtain ⟨w, h1, h2, h3, h4⟩ := alphaWeights_arr2 m active hact energy he energy.cols hd
  refine ⟨w, h1, h2, h3, fun i hi j hj => ?_⟩
  have hb : Mat.bpos energy.cols j = j := by
    unfold Mat.bpos
    split_ifs with h
    · omega
    · rfl
  rw [h4 i hi j hj, hb]
  rfl

/-- **C75 fails for other forms of `alpha`.** NumPy scalars (`np.float32(1)`, `np.int64(1)`), lists and arrays of shape `(M,)` are accepted by the
constructor but raise in the first step, for every number of runs and all active runs. -/
theorem C75_form_false (dt : DType) (M : ℕ) (active : List ℕ) (energy : Mat K) :
    (∀ a, alphaWeights (initAlpha dt M (.npScalar a)) active energy = .error .index) ∧
    (∀ l, alphaWeights (initAlpha dt M (.list l)) active energy = .error .type) ∧
    (∀ g, alphaWeights (initAlpha dt M (.arr1 M g)) active energy = .error .index) :=
  ⟨fun _ => rfl, fun _ => rfl, fun _ => rfl⟩

/-- **C75 fails for integer ensembles, `alpha`.** If the initial ensemble has an integer type, `alpha` is truncated: for `|alpha| < 1` all weights are 0
(the consensus point is the plain mean, whatever the energies), and the stored value is right only if `alpha` is an integer. -/
theorem C75_alpha_int_false (a : K) (M : ℕ) (active : List ℕ) (hact : ∀ r ∈ active, r < M) (energy : Mat K) (he : energy.rows = active.length) :
    ∃ w, alphaWeights (initAlpha .int M (.py a)) active energy = .ok w ∧ w.cols = energy.cols ∧
      (|a| < 1 → ∀ i < active.length, ∀ j < energy.cols, w.get i j = 0) ∧
      ((∃ i < active.length, ∃ j < energy.cols, energy.get i j ≠ 0 ∧ w.get i j = -a * energy.get i j) → ∃ z : ℤ, (z : K) = a) := by
  obtain ⟨w, h1, h2, h3, h4⟩ := alphaWeights_arr2 ⟨M, 1, fun _ _ => castTo .int a⟩ active hact energy he energy.cols (Mat.bdim_one_left _)
  have hb : ∀ j < energy.cols, Mat.bpos energy.cols j = j := fun j hj => by
    unfold Mat.bpos
    split_ifs with h
    · omega
    · rfl
  refine ⟨w, h1, h3, fun ha i hi j hj => ?_, ?_⟩
  · rw [h4 i hi j hj]
    show -truncZ a * _ = 0
    rw [truncZ_small ha, neg_zero, zero_mul]
  · rintro ⟨i, hi, j, hj, hne, e⟩
    rw [h4 i hi j hj, hb j hj] at e
    have e2 : truncZ a * energy.get i j = a * energy.get i j := by
      have : -truncZ a * energy.get i j = -a * energy.get i j := e
      rw [neg_mul, neg_mul] at this
      exact neg_injective this
    exact (truncZ_eq_iff a).1 (mul_right_cancel₀ hne e2)

variable {ι : Type}

/-- **C75 fails for integer ensembles, the step.** A dynamic with in-place update (CBO, AdamCBO, CBO with memory, drift-constrained CBO), any update
rule that returns arrays of the shape of the ensemble: from the same positions, a float ensemble makes any number of steps, an integer ensemble
none. -/
theorem C75_step_int_false (upd : Mat (ι → K) → Mat (ι → K)) (hu : ∀ x, (upd x).rows = x.rows ∧ (upd x).cols = x.cols) (t : K) (n : ℕ) :
    ∀ x : Mat (ι → K), (∃ s, typedSteps upd t n (.float, x) = .ok s ∧ s.1 = .float ∧ s.2.rows = x.rows ∧ s.2.cols = x.cols) ∧
      typedSteps upd t (n + 1) (.int, x) = .error .type := by
  intro x
  refine ⟨?_, rfl⟩
  induction n generalizing x with
  | zero => exact ⟨_, rfl, rfl, rfl, rfl⟩
  | succ n ih =>
    have hr : Mat.bdim x.rows (upd x).rows = some x.rows := by rw [(hu x).1]; exact Mat.bdim_self _
    have hc : Mat.bdim x.cols (upd x).cols = some x.cols := by rw [(hu x).2]; exact Mat.bdim_self _
    simp only [typedSteps, inplaceAdd, Mat.bin_of_dims hr hc, bind, Except.bind]
    exact ih _

/-- **C75 fails for integer ensembles, `best_particle`.** In the dynamics whose step replaces `x` (hypersurface CBO, CBO with regularisation, mirror
maps), after any sequence of evaluated candidates the best energy is the one of the float computation but the best particle is its truncation
(unless no candidate was better than the initial value). -/
theorem C75_best_int_false (l : List (Flt K × (ι → K))) (e₀ : Flt K) (v₀ : ι → K) (h₀ : ∀ k, ∃ z : ℤ, (z : K) = v₀ k) :
    (l.foldl (fun b p => bestTyped .int b p.1 p.2) (e₀, v₀)).1 = (l.foldl (fun b p => bestTyped .float b p.1 p.2) (e₀, v₀)).1 ∧
    ∀ k, (l.foldl (fun b p => bestTyped .int b p.1 p.2) (e₀, v₀)).2 k =
      truncZ ((l.foldl (fun b p => bestTyped .float b p.1 p.2) (e₀, v₀)).2 k) := by
  have key : ∀ (l : List (Flt K × (ι → K))) (b c : Flt K × (ι → K)), b.1 = c.1 → (∀ k, b.2 k = truncZ (c.2 k)) →
      (l.foldl (fun b p => bestTyped .int b p.1 p.2) b).1 = (l.foldl (fun b p => bestTyped .float b p.1 p.2) c).1 ∧
      ∀ k, (l.foldl (fun b p => bestTyped .int b p.1 p.2) b).2 k = truncZ ((l.foldl (fun b p => bestTyped .float b p.1 p.2) c).2 k) := by
    intro l
    induction l with
    | nil => exact fun b c h1 h2 => ⟨h1, h2⟩
    | cons p l ih =>
      intro b c h1 h2
      refine ih _ _ ?_ ?_
      · simp only [bestTyped, h1]
        split_ifs
        · rfl
        · exact h1
      · intro k
        simp only [bestTyped, h1]
        split_ifs
        · rfl
        · exact h2 k
  exact key l _ _ rfl fun k => ((truncZ_eq_iff _).2 (h₀ k)).symm

/-- C75: two of three runs active, batches of two particles; `alpha = 1/2` on a float ensemble, on an integer ensemble, and per run. -/
example :
    (match alphaWeights (initAlpha .float 3 (.py (1 / 2 : ℚ))) [0, 2] ⟨2, 2, fun i j => i + 2 * j + 1⟩ with
      | .ok w => decide (w.get 1 1 = -2) | _ => false) = true ∧
    (match alphaWeights (initAlpha .int 3 (.py (1 / 2 : ℚ))) [0, 2] ⟨2, 2, fun i j => i + 2 * j + 1⟩ with
      | .ok w => decide (w.get 1 1 = 0) | _ => false) = true ∧
    (match alphaWeights (initAlpha .float 3 (.arr2 ⟨3, 1, fun i _ => (i + 1 : ℚ)⟩)) [0, 2] ⟨2, 2, fun i j => i + 2 * j + 1⟩ with
      | .ok w => decide (w.get 1 1 = -12) | _ => false) = true := by decide +kernel

/-- C75: the best of two candidates; the integer array keeps the truncated position with the exact energy. -/
example :
    (List.foldl (fun b p => bestTyped .int b p.1 p.2) ((.pinf, fun _ => 3) : Flt ℚ × (Unit → ℚ)) [(.fin 4, fun _ => 1 / 2), (.fin 1, fun _ => -7 / 2)]).2 () = -3 ∧
    (List.foldl (fun b p => bestTyped .float b p.1 p.2) ((.pinf, fun _ => 3) : Flt ℚ × (Unit → ℚ)) [(.fin 4, fun _ => 1 / 2), (.fin 1, fun _ => -7 / 2)]).2 () = -7 / 2 := by
  decide +kernel

end Verif
