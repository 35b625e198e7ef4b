import Verif.Spec.RegShare
import Verif.Proofs.Regularizers

/-! Lemmas for C121. -/

set_option linter.unusedSectionVars false

namespace Verif

variable {d : ℕ} {c : RegCfg} {rule : MeanRule} {f R : (Fin d → ℝ) → ℝ} {p : ℝ}

theorem bcast_same (a : ℕ) : bcast a a = .ok a := by unfold bcast; rw [if_pos rfl]

theorem bcast_cases (a b : ℕ) : (bcast a b = .error .value ∧ a ≠ b ∧ a ≠ 1 ∧ b ≠ 1) ∨ (bcast a b = .ok b ∧ (a = b ∨ a = 1)) ∨ (bcast a b = .ok a ∧ a ≠ b ∧ a ≠ 1 ∧ b = 1) := by
  unfold bcast
  split_ifs with h1 h2 h3
  · exact .inr (.inl ⟨by rw [h1], .inl h1⟩)
  · exact .inr (.inl ⟨rfl, .inr h2⟩)
  · exact .inr (.inr ⟨rfl, h1, h2, h3⟩)
  · exact .inl ⟨rfl, h1, h2, h3⟩

theorem regEval_state (o : RegObj) (x : Mat (Fin d → ℝ)) : (regEval f R p o x).2 = ⟨.col (o.lamda.broadcast x.rows), o.numEval + x.rows * x.cols⟩ := by
  unfold regEval
  dsimp only
  split <;> rfl

/-- The length of the column, if the objective has been called. -/
def RegObj.len (o : RegObj) : Option ℕ := match o.lamda with
  | .num _ => none
  | .col l => some l.length

theorem len_some {o : RegObj} {L : ℕ} (h : o.len = some L) : ∃ l, o.lamda = .col l ∧ l.length = L := by
  cases hl : o.lamda with
  | num a => simp [RegObj.len, hl] at h
  | col l => exact ⟨l, rfl, by simpa [RegObj.len, hl] using h⟩

theorem regEval_len (o : RegObj) (x : Mat (Fin d → ℝ)) : (regEval f R p o x).2.len = some (o.len.getD x.rows) := by
  rw [regEval_state]
  cases hl : o.lamda with
  | num a => simp [RegObj.len, hl, Lam.broadcast]
  | col l => simp [RegObj.len, hl, Lam.broadcast]

theorem regEval_out {o : RegObj} {L : ℕ} (h : o.len = some L) (x : Mat (Fin d → ℝ)) :
    (regEval f R p o x).1 = (bcast L x.rows).map fun r => ⟨r, x.cols, fun m n => f (x.get (brow x.rows m) n) + o.lamda.at (brow L m) * R (x.get (brow x.rows m) n) ^ p⟩ := by
  obtain ⟨l, hl, rfl⟩ := len_some h
  unfold regEval
  simp only [hl, Lam.broadcast]
  split
  · next e he => rw [he]; rfl
  · next r he => rw [he]; rfl

theorem ruleMean_state (alpha : List ℝ) (o : RegObj) (x : Mat (Fin d → ℝ)) :
    (ruleMean rule f R p alpha o x).2 = match rule with
      | .simple => o
      | .weighted => (regEval f R p o x).2 := by
  cases rule with
  | simple => rfl
  | weighted =>
    unfold ruleMean
    dsimp only
    generalize regEval f R p o x = q
    obtain ⟨r, o'⟩ := q
    cases r <;> rfl

theorem ruleMean_count (alpha : List ℝ) (o : RegObj) (x : Mat (Fin d → ℝ)) : (ruleMean rule f R p alpha o x).2.numEval = o.numEval + RegOp.evals rule (.update alpha x) := by
  rw [ruleMean_state]
  cases rule with
  | simple => rfl
  | weighted => rw [regEval_state]; rfl

theorem ruleMean_len (alpha : List ℝ) (o : RegObj) (x : Mat (Fin d → ℝ)) : (ruleMean rule f R p alpha o x).2.len = match rule with
      | .simple => o.len
      | .weighted => some (o.len.getD x.rows) := by
  rw [ruleMean_state]
  cases rule with
  | simple => rfl
  | weighted => exact regEval_len o x

/-- An update leaves the length of the column and the counter as the mean leaves them. -/
theorem schedLamda_keeps (alpha : List ℝ) (x : Mat (Fin d → ℝ)) (theta : Lam) (o : RegObj) :
    (schedLamda c rule f R p alpha x theta o).2.2.len = (ruleMean rule f R p alpha o x).2.len ∧ (schedLamda c rule f R p alpha x theta o).2.2.numEval = (ruleMean rule f R p alpha o x).2.numEval := by
  unfold schedLamda
  dsimp only
  generalize ruleMean rule f R p alpha o x = q
  obtain ⟨r, o'⟩ := q
  cases r with
  | error e => exact ⟨rfl, rfl⟩
  | ok m =>
    dsimp only
    split
    · exact ⟨rfl, rfl⟩
    · split_ifs with h1
      · exact ⟨rfl, rfl⟩
      · cases hl : o'.lamda with
        | num a => exact ⟨rfl, rfl⟩
        | col l =>
          dsimp only
          split_ifs with h2
          · exact ⟨rfl, rfl⟩
          · refine ⟨?_, rfl⟩
            simp only [RegObj.len, hl, List.length_map, List.length_range]
            rw [not_not.1 h2]

/-- An update that raises leaves the objective as the mean leaves it. -/
theorem schedLamda_error {alpha : List ℝ} {x : Mat (Fin d → ℝ)} {theta : Lam} {o : RegObj} {e : Err} (h : (schedLamda c rule f R p alpha x theta o).1 = .error e) :
    (schedLamda c rule f R p alpha x theta o).2.2 = (ruleMean rule f R p alpha o x).2 := by
  revert h
  unfold schedLamda
  dsimp only
  generalize ruleMean rule f R p alpha o x = q
  obtain ⟨r, o'⟩ := q
  cases r with
  | error e => exact fun _ => rfl
  | ok m =>
    dsimp only
    split
    · exact fun _ => rfl
    · split_ifs with h1
      · exact fun _ => rfl
      · cases hl : o'.lamda with
        | num a => exact fun _ => rfl
        | col l =>
          dsimp only
          split_ifs with h2
          · exact fun _ => rfl
          · exact fun h => nomatch h

theorem getD_map_range {g : ℕ → ℝ} {n i : ℕ} (hi : i < n) : ((List.range n).map g).getD i 0 = g i := by
  simp [List.getD, hi]

/-- With arrays that fit the mean is the documented one. -/
theorem ruleMean_fits {alpha : List ℝ} {o : RegObj} {x : Mat (Fin d → ℝ)} (ha : alpha.length = x.rows) (hl : o.lamda.fits x.rows) :
    (ruleMean rule f R p alpha o x).1 = .ok ((List.range x.rows).map (testedMean rule f R p alpha o.lamda.at x)) := by
  cases rule with
  | simple => rfl
  | weighted =>
    have hL := Lam.fits_length hl
    unfold ruleMean regEval
    simp only [hL, bcast_same, ha, bind, Except.bind, pure, Except.pure]
    congr 1
    refine List.map_congr_left fun i hi => ?_
    have hi := List.mem_range.1 hi
    simp only [brow_lt hi, testedMean, Lam.broadcast_at hi]

/-- Length of the column through a sequence of uses. -/
theorem regOps_len {L : ℕ} : ∀ (ops : List (RegOp d)) (s : Lam × RegObj), s.2.len = some L → (regOps c rule f R p s ops).2.len = some L
  | [], _, h => h
  | .call x :: ops, s, h => regOps_len ops (s.1, (regEval f R p s.2 x).2) (by rw [regEval_len, h]; rfl)
  | .update alpha x :: ops, s, h => regOps_len ops (schedLamda c rule f R p alpha x s.1 s.2).2 (by
      rw [(schedLamda_keeps alpha x s.1 s.2).1, ruleMean_len]
      cases rule with
      | simple => exact h
      | weighted => rw [h]; rfl)

theorem regOps_count : ∀ (ops : List (RegOp d)) (s : Lam × RegObj), (regOps c rule f R p s ops).2.numEval = s.2.numEval + (ops.map (RegOp.evals rule)).sum
  | [], _ => rfl
  | op :: ops, s => by
    show (regOps c rule f R p (regOp c rule f R p s op) ops).2.numEval = _
    rw [regOps_count ops]
    have : (regOp c rule f R p s op).2.numEval = s.2.numEval + RegOp.evals rule op := by
      cases op with
      | call x => simp only [regOp, regEval_state]; rfl
      | update alpha x => simp only [regOp]; rw [(schedLamda_keeps alpha x s.1 s.2).2, ruleMean_count]
    rw [this, List.map_cons, List.sum_cons, Nat.add_assoc]

end Verif
