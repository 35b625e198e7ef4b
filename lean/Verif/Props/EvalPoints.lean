import Verif.Proofs.EvalPoints
import Verif.Proofs.Heap
import Verif.Spec.Example

/-! Property C63: the saved evaluation points. -/

set_option linter.unusedSectionVars false

namespace Verif

section
variable {K V : Type} [Zero K] [One K] [Neg K] [Add K] [Sub K] [Mul K] [Inv K] [Div K] [NatCast K] [Pow K ℕ] [LinearOrder K] [Add V] [Sub V] [SMul K V]

/-- **C63.** With `save_consensus_eval_points`, after any operations containing a step, the saved array has one point per particle: the position at which the particle was evaluated last, and
its stored energy is the objective value there. Particles that were never in a batch have infinite energy and the initial position. The dynamic itself runs as without the option. -/
theorem C63_points (env : Env K V) (move : St K V → Except Err (St K V)) (hm : MoveOK move) (hpost : PostOK env) (hp : PermOK env) (a : Args K V) (s₀ : St K V)
    (h0 : init env a = .ok s₀) (ops : List Op) (hs : Op.step ∈ ops) (q : St K V × Option (Mat V)) (h : saveExecAll true env move ops (s₀, none) = .ok q) :
    execAll env (consThen env move) ops s₀ = .ok q.1 ∧ ∃ P, q.2 = some P ∧ P.rows = a.x0.rows ∧ P.cols = a.x0.cols ∧ ∀ m < a.x0.rows, ∀ n < a.x0.cols,
      match lastEval env (consThen env move) m n ops s₀ none with
      | some v => P.get m n = v ∧ q.1.energy.get m n = env.f v
      | none => P.get m n = a.x0.get m n ∧ q.1.energy.get m n = .pinf := by
  have hw := init_wf hp h0
  obtain ⟨i1, i2, i3, i4⟩ : s₀.x = a.x0 ∧ s₀.M = a.x0.rows ∧ s₀.N = a.x0.cols ∧ s₀.energy = ⟨a.x0.rows, a.x0.cols, fun _ _ => .pinf⟩ := by
    unfold init at h0
    split_ifs at h0 <;> (injection h0 with h0; rw [← h0]; exact ⟨rfl, rfl, rfl, rfl⟩)
  have hI : PtsInv env a.x0 s₀ none (fun _ _ => none) := Or.inl ⟨rfl, i1, fun _ _ => rfl, fun _ _ _ _ => by rw [i4]⟩
  obtain ⟨g1, g2⟩ := ptsInv_execAll hm hpost hp (q := (s₀, none)) (r := q) hw hI h
  refine ⟨g1, ?_⟩
  have gM := execAll_induct hm hpost hp (P := fun s => s.M = a.x0.rows ∧ s.N = a.x0.cols)
    (fun o s s' w hP he => by
      by_cases ho : o = .step
      · subst ho
        have S := step_sum hm hpost he
        rw [S.M, S.N]; exact hP
      · obtain ⟨k1, k2, -, -⟩ := exec_keeps ho he
        rw [k1, k2]; exact hP) ops s₀ q.1 hw ⟨i2, i3⟩ g1
  rcases g2 with ⟨hn, -⟩ | ⟨P, hP, hr, hc, hpt⟩
  · exact absurd hn (saved_some (Or.inl hs) h)
  · rw [gM.2.1] at hr hpt
    rw [gM.2.2] at hc hpt
    refine ⟨P, hP, hr, hc, fun m hmm n hn => ?_⟩
    obtain ⟨p1, p2⟩ := hpt m hmm n hn
    simp only at p1 p2
    revert p1 p2
    split
    · rename_i v hv
      rw [hv]
      exact fun p1 _ => p1 v rfl
    · rename_i hv
      rw [hv]
      exact fun _ p2 => p2 rfl

/-- **C63 (best point of the ensemble).** The saved point with index `f_min_idx[m]` attains the current best energy `best_cur_energy[m] = f_min[m]` of the run, unless that is still infinite. -/
theorem C63_best (env : Env K V) (move : St K V → Except Err (St K V)) (hm : MoveOK move) (hpost : PostOK env) (hp : PermOK env) (a : Args K V) (s₀ : St K V)
    (h0 : init env a = .ok s₀) (ops : List Op) (hs : Op.step ∈ ops) (q : St K V × Option (Mat V)) (h : saveExecAll true env move ops (s₀, none) = .ok q) :
    ∃ P, q.2 = some P ∧ ∀ m < a.x0.rows, q.1.bestCurE m = q.1.fMin m ∧ q.1.fMinIdx m < a.x0.cols ∧
      (q.1.bestCurE m = .pinf ∨ env.f (P.get m (q.1.fMinIdx m)) = q.1.bestCurE m) := by
  obtain ⟨g1, P, hP, -, -, hpt⟩ := C63_points env move hm hpost hp a s₀ h0 ops hs q h
  have hw := init_wf hp h0
  have key := execAll_induct hm hpost hp (P := fun s => s.N = a.x0.cols ∧ ∀ m < s.M, s.bestCurE m = s.fMin m ∧ s.fMinIdx m < s.N ∧ s.bestCurE m = s.energy.get m (s.fMinIdx m))
    (fun o s s' w hPs he => by
      by_cases ho : o = .step
      · subst ho
        have S := step_sum hm hpost he
        refine ⟨S.N.trans hPs.1, fun m _ => ⟨?_, ?_, S.bestCurE m⟩⟩
        · rw [S.bestCurE, S.fMin, S.fMinIdx, Flt.rowMin_eq]
        · rw [S.fMinIdx, S.ec, w.ec, S.N]
          exact Flt.rowArgmin_lt w.pos _
      · cases o with
        | step => exact absurd rfl ho
        | select =>
          have e := select_frame (show selectActive env s = .ok s' from he)
          rw [e]; exact hPs
        | sched =>
          have e := sched_frame (show schedUpdate env s = .ok s' from he)
          rw [e]; exact hPs
        | reset =>
          simp only [exec, Except.ok.injEq] at he
          subst he
          exact hPs) ops s₀ q.1 hw
    (by
      have hc : 0 < a.x0.cols := by
        unfold init at h0
        split_ifs at h0 <;> omega
      unfold init at h0
      split_ifs at h0 <;> (injection h0 with h0; rw [← h0]; exact ⟨rfl, fun m _ => ⟨rfl, hc, rfl⟩⟩)) g1
  have eM : q.1.M = a.x0.rows := by
    have := execAll_induct hm hpost hp (P := fun s => s.M = a.x0.rows)
      (fun o s s' w hPs he => by
        by_cases ho : o = .step
        · subst ho
          rw [(step_sum hm hpost he).M]; exact hPs
        · rw [(exec_keeps ho he).1]; exact hPs) ops s₀ q.1 hw
      (by
        unfold init at h0
        split_ifs at h0 <;> (injection h0 with h0; rw [← h0]; rfl)) g1
    exact this.2
  refine ⟨P, hP, fun m hmm => ?_⟩
  obtain ⟨k1, k2, k3⟩ := key.2.2 m (by rw [eM]; exact hmm)
  rw [key.2.1] at k2
  refine ⟨k1, k2, ?_⟩
  have := hpt m hmm _ k2
  revert this
  split
  · rintro ⟨e1, e2⟩
    right
    rw [e1, k3, e2]
  · rintro ⟨-, e2⟩
    left
    rw [k3, e2]

/-- **C63 (total).** Saving the points never raises: whenever the dynamic runs without the option, it runs with it. -/
theorem C63_total (env : Env K V) (move : St K V → Except Err (St K V)) (hm : MoveOK move) (hpost : PostOK env) (hp : PermOK env) (a : Args K V) (s₀ s : St K V)
    (h0 : init env a = .ok s₀) (ops : List Op) (h : execAll env (consThen env move) ops s₀ = .ok s) : ∃ p, saveExecAll true env move ops (s₀, none) = .ok (s, p) :=
  saved_total hm hpost hp (init_wf hp h0) (fun P hP => by simp at hP) h

/-- **C63 (off).** Without the option the attribute never appears. -/
theorem C63_off (env : Env K V) (move : St K V → Except Err (St K V)) (ops : List Op) (s₀ : St K V) (q : St K V × Option (Mat V))
    (h : saveExecAll false env move ops (s₀, none) = .ok q) : q.2 = none ∧ execAll env (consThen env move) ops s₀ = .ok q.1 := by
  have gen : ∀ (ops : List Op) (w q : St K V × Option (Mat V)), w.2 = none → saveExecAll false env move ops w = .ok q →
      q.2 = none ∧ execAll env (consThen env move) ops w.1 = .ok q.1 := by
    intro ops
    induction ops with
    | nil =>
      intro w q hw h
      simp only [saveExecAll, Except.ok.injEq] at h
      subst h
      exact ⟨hw, rfl⟩
    | cons o l ih =>
      intro w q hw h
      simp only [saveExecAll, bind_ok] at h
      obtain ⟨v, hv, h⟩ := h
      obtain ⟨h1, h2⟩ := saveExec_split.1 hv
      have : v.2 = none := by
        split_ifs at h2
        · simp only [savePoints, Bool.false_eq_true, if_false, Except.ok.injEq] at h2
          rw [← h2, hw]
        · rw [h2, hw]
      obtain ⟨g1, g2⟩ := ih v q this h
      refine ⟨g1, ?_⟩
      simp only [execAll, bind_ok]
      exact ⟨_, h1, g2⟩
  exact gen ops (s₀, none) q rfl h

end

/-- The arguments of the example with batches that all particles follow (`batch_partial=False`). -/
def Example.argsAll : Args ℚ ℚ := { Example.args [.maxIt (some 5)] (some 2) with batchPartial := false }

/-- C63: two runs of three particles with batches of two, three steps: the execution succeeds, the saved points of run 0 differ from the current and from the previous positions. -/
example : MoveOK (cboMove Example.env) ∧ PostOK Example.env ∧ PermOK Example.env ∧ (match init Example.env Example.argsAll with
    | .ok s₀ => (match saveExecAll true Example.env (cboMove Example.env) [.step, .step, .select, .step] (s₀, none) with
      | .ok (s, some P) => decide (P.get 0 0 ≠ s.x.get 0 0 ∧ (∃ n ∈ List.range 3, (s.xOld.getD s.x).get 0 n ≠ P.get 0 n) ∧ s.energy.get 0 0 = Example.env.f (P.get 0 0))
      | _ => false)
    | .error _ => false) = true := by
  refine ⟨cboMove_ok _, ?_, ?_, by decide +kernel⟩
  · intro s x' h
    simp only [Example.env, Except.ok.injEq] at h
    subst h
    exact ⟨rfl, rfl⟩
  · intro N c m j hj
    simp only [Example.env, if_pos hj]
    exact Nat.mod_lt _ (by omega)

/-- C63, why the points are needed: with `batch_partial=False` the attribute `best_cur_particle` is in general *not* a point with energy `best_cur_energy` (the energies of particles outside
the batch are old, the particles are not). -/
theorem C63_best_cur_false : ∃ s₀ s, init Example.env Example.argsAll = .ok s₀ ∧
    execAll Example.env (cboInner Example.env) [.step, .step, .step, .step] s₀ = .ok s ∧ ∃ m, m < 2 ∧ Example.env.f (s.bestCurP m) ≠ s.bestCurE m ∧ s.bestCurE m ≠ .pinf := by
  refine ⟨_, _, rfl, rfl, 0, by norm_num, by decide +kernel, by decide +kernel⟩

end Verif
