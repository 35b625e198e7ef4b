import Verif.Model.EvalPoints
import Verif.Spec.EvalPoints
import Verif.Proofs.Run

/-! Lemmas on `save_consensus_eval_points`. -/

set_option linter.unusedSectionVars false

namespace Verif

section
variable {K V : Type} [Zero K] [One K] [Neg K] [Add K] [Sub K] [Mul K] [Inv K] [Div K] [NatCast K] [Pow K ℕ] [LinearOrder K] [Add V] [Sub V] [SMul K V]

theorem plainInner_eq (env : Env K V) (move : St K V → Except Err (St K V)) : plainInner env move = consThen env move := rfl

theorem saveStep_split {on : Bool} {env : Env K V} {move : St K V → Except Err (St K V)} {q r : St K V × Option (Mat V)} :
    saveStep on env move q = .ok r ↔ step env (consThen env move) q.1 = .ok r.1 ∧ savePoints on (preStep env q.1) q.2 = .ok r.2 := by
  simp only [saveStep, saveInner, step, consThen, bind_ok, pure_ok]
  constructor
  · rintro ⟨w, ⟨p, hp, c, hc, v, hv, rfl⟩, s, hs, rfl⟩
    exact ⟨⟨v, ⟨c, hc, hv⟩, hs⟩, hp⟩
  · rintro ⟨⟨v, ⟨c, hc, hv⟩, hs⟩, hp⟩
    exact ⟨(v, r.2), ⟨_, hp, c, hc, v, hv, rfl⟩, _, hs, rfl⟩

theorem saveExec_split {on : Bool} {env : Env K V} {move : St K V → Except Err (St K V)} {o : Op} {q r : St K V × Option (Mat V)} :
    saveExec on env move o q = .ok r ↔ exec env (consThen env move) o q.1 = .ok r.1 ∧
      (if o = .step then savePoints on (preStep env q.1) q.2 = .ok r.2 else r.2 = q.2) := by
  cases o with
  | step =>
    simp only [saveExec, exec, if_true]
    exact saveStep_split
  | select =>
    simp only [saveExec, exec, bind_ok, pure_ok, reduceCtorEq, if_false]
    constructor
    · rintro ⟨s, hs, rfl⟩; exact ⟨hs, rfl⟩
    · rintro ⟨hs, h⟩; exact ⟨_, hs, by rw [← h]⟩
  | sched =>
    simp only [saveExec, exec, bind_ok, pure_ok, reduceCtorEq, if_false]
    constructor
    · rintro ⟨s, hs, rfl⟩; exact ⟨hs, rfl⟩
    · rintro ⟨hs, h⟩; exact ⟨_, hs, by rw [← h]⟩
  | reset =>
    simp only [saveExec, exec, bind_ok, pure_ok, reduceCtorEq, if_false]
    constructor
    · rintro ⟨s, hs, rfl⟩; exact ⟨hs, rfl⟩
    · rintro ⟨hs, h⟩; exact ⟨_, hs, by rw [← h]⟩

/-- Relation between the state, the saved points and the remembered positions. -/
def PtsInv (env : Env K V) (x0 : Mat V) (s : St K V) (p : Option (Mat V)) (acc : ℕ → ℕ → Option V) : Prop :=
  (p = none ∧ s.x = x0 ∧ (∀ m n, acc m n = none) ∧ ∀ m < s.M, ∀ n < s.N, s.energy.get m n = .pinf) ∨
  ∃ P, p = some P ∧ P.rows = s.M ∧ P.cols = s.N ∧ ∀ m < s.M, ∀ n < s.N,
    (∀ v, acc m n = some v → P.get m n = v ∧ s.energy.get m n = env.f v) ∧
    (acc m n = none → P.get m n = x0.get m n ∧ s.energy.get m n = .pinf)

/-- The remembered positions after one operation. -/
noncomputable def nextAcc (o : Op) (s s' : St K V) (acc : ℕ → ℕ → Option V) : ℕ → ℕ → Option V := by
  classical
  exact fun m n => if o = .step ∧ s'.cIdx.Sel m n then some (s.x.get m n) else acc m n

theorem exec_keeps {env : Env K V} {inner : St K V → Except Err (St K V)} {o : Op} (ho : o ≠ .step) {s s' : St K V} (h : exec env inner o s = .ok s') :
    s'.M = s.M ∧ s'.N = s.N ∧ s'.x = s.x ∧ s'.energy = s.energy := by
  cases o with
  | step => exact absurd rfl ho
  | select =>
    have e := select_frame (show selectActive env s = .ok s' from h)
    rw [e]
    exact ⟨rfl, rfl, rfl, rfl⟩
  | sched =>
    have e := sched_frame (show schedUpdate env s = .ok s' from h)
    rw [e]
    exact ⟨rfl, rfl, rfl, rfl⟩
  | reset =>
    simp only [exec, Except.ok.injEq] at h
    subst h
    exact ⟨rfl, rfl, rfl, rfl⟩

theorem ptsInv_exec {env : Env K V} {move : St K V → Except Err (St K V)} (hm : MoveOK move) (hpost : PostOK env) {x0 : Mat V} {o : Op}
    {q r : St K V × Option (Mat V)} {acc : ℕ → ℕ → Option V} (hw : WF q.1) (hI : PtsInv env x0 q.1 q.2 acc)
    (h : saveExec true env move o q = .ok r) : PtsInv env x0 r.1 r.2 (nextAcc o q.1 r.1 acc) := by
  obtain ⟨h1, h2⟩ := saveExec_split.1 h
  by_cases ho : o = .step
  · subst ho
    rw [if_pos rfl] at h2
    have S := step_sum hm hpost h1
    have px : (preStep env q.1).x = q.1.x := by rw [preStep_frame env q.1]
    have pc : (preStep env q.1).cIdx = r.1.cIdx := S.cIdx.symm
    right
    rcases hI with ⟨hp, hx, ha, he⟩ | ⟨P, hp, hr, hc, hP⟩
    · rw [hp] at h2
      simp only [savePoints, if_true, Except.ok.injEq] at h2
      refine ⟨_, h2.symm, by rw [px, S.M, hw.xr], by rw [px, S.N, hw.xc], fun m hmm n hn => ?_⟩
      rw [px]
      rw [S.M] at hmm
      rw [S.N] at hn
      by_cases hs : r.1.cIdx.Sel m n
      · have e : nextAcc Op.step q.1 r.1 acc m n = some (q.1.x.get m n) := by simp [nextAcc, hs]
        rw [e]
        refine ⟨fun v hv => ?_, fun hv => by simp at hv⟩
        injection hv with hv
        exact ⟨hv, by rw [S.fresh m n hs, hv]⟩
      · have e : nextAcc Op.step q.1 r.1 acc m n = none := by simp [nextAcc, hs, ha]
        rw [e]
        exact ⟨fun v hv => by simp at hv, fun _ => ⟨by rw [hx], by rw [S.stale m n hs, he m hmm n hn]⟩⟩
    · rw [hp] at h2
      simp only [savePoints, if_true, bind_ok, pure_ok] at h2
      obtain ⟨g, hg, Q, hQ, h2⟩ := h2
      obtain ⟨-, e1, e2, e3, e4, -, -⟩ := Mat.scatter_ok hQ
      obtain ⟨-, g1, g2, g3⟩ := Mat.gather_ok hg
      refine ⟨Q, h2.symm, by rw [e1, hr, S.M], by rw [e2, hc, S.N], fun m hmm n hn => ?_⟩
      rw [S.M] at hmm
      rw [S.N] at hn
      rw [pc] at e3 e4 g1 g2 g3
      by_cases hs : r.1.cIdx.Sel m n
      · have e : nextAcc Op.step q.1 r.1 acc m n = some (q.1.x.get m n) := by simp [nextAcc, hs]
        rw [e]
        refine ⟨fun v hv => ?_, fun hv => by simp at hv⟩
        injection hv with hv
        obtain ⟨i, hi, j, hj, r1, r2, r3⟩ := e4 m n hs
        refine ⟨?_, by rw [S.fresh m n hs, hv]⟩
        rw [r3, Mat.bpos_lt (by omega), Mat.bpos_lt (by omega), g3, r1, r2, px, hv]
      · have e : nextAcc Op.step q.1 r.1 acc m n = acc m n := by simp [nextAcc, hs]
        rw [e, e3 m n hs, S.stale m n hs]
        exact hP m hmm n hn
  · rw [if_neg ho] at h2
    obtain ⟨k1, k2, k3, k4⟩ := exec_keeps ho h1
    have e : nextAcc o q.1 r.1 acc = acc := by funext m n; simp [nextAcc, ho]
    rw [e, h2]
    unfold PtsInv
    rw [k1, k2, k3, k4]
    exact hI

theorem ptsInv_execAll {env : Env K V} {move : St K V → Except Err (St K V)} (hm : MoveOK move) (hpost : PostOK env) (hp : PermOK env) {x0 : Mat V} :
    ∀ {ops : List Op} {q r : St K V × Option (Mat V)} {acc : ℕ → ℕ → Option V}, WF q.1 → PtsInv env x0 q.1 q.2 acc →
    saveExecAll true env move ops q = .ok r →
    execAll env (consThen env move) ops q.1 = .ok r.1 ∧ PtsInv env x0 r.1 r.2 (fun m n => lastEval env (consThen env move) m n ops q.1 (acc m n))
  | [], q, r, acc, hw, hI, h => by
    simp only [saveExecAll, Except.ok.injEq] at h
    subst h
    exact ⟨rfl, hI⟩
  | o :: l, q, r, acc, hw, hI, h => by
    simp only [saveExecAll, bind_ok] at h
    obtain ⟨w, hq, h⟩ := h
    have h1 := (saveExec_split.1 hq).1
    obtain ⟨g1, g2⟩ := ptsInv_execAll hm hpost hp (exec_wf hm hpost hp hw h1) (ptsInv_exec hm hpost hw hI hq) h
    refine ⟨?_, ?_⟩
    · simp only [execAll, bind_ok]
      exact ⟨_, h1, g1⟩
    · have e : (fun m n => lastEval env (consThen env move) m n (o :: l) q.1 (acc m n)) =
          fun m n => lastEval env (consThen env move) m n l w.1 (nextAcc o q.1 w.1 acc m n) := by
        funext m n
        simp only [lastEval, h1, nextAcc]
      rw [e]
      exact g2

/-- Steps always leave saved points behind. -/
theorem saved_some {env : Env K V} {move : St K V → Except Err (St K V)} : ∀ {ops : List Op} {q r : St K V × Option (Mat V)},
    (Op.step ∈ ops ∨ q.2 ≠ none) → saveExecAll true env move ops q = .ok r → r.2 ≠ none
  | [], q, r, hs, h => by
    simp only [saveExecAll, Except.ok.injEq] at h
    subst h
    simpa using hs
  | o :: l, q, r, hs, h => by
    simp only [saveExecAll, bind_ok] at h
    obtain ⟨w, hq, h⟩ := h
    refine saved_some ?_ h
    obtain ⟨-, h2⟩ := saveExec_split.1 hq
    by_cases ho : o = .step
    · right
      rw [if_pos ho] at h2
      cases hp : q.2 with
      | none =>
        rw [hp] at h2
        simp only [savePoints, if_true, Except.ok.injEq] at h2
        rw [← h2]; simp
      | some P =>
        rw [hp] at h2
        simp only [savePoints, if_true, bind_ok, pure_ok] at h2
        obtain ⟨_, _, _, _, h2⟩ := h2
        rw [← h2]; simp
    · rw [if_neg ho] at h2
      rcases hs with hs | hs
      · left
        rcases List.mem_cons.1 hs with h3 | h3
        · exact absurd h3.symm ho
        · exact h3
      · right; rw [h2]; exact hs

/-- Saving never raises. -/
theorem saved_total {env : Env K V} {move : St K V → Except Err (St K V)} (hm : MoveOK move) (hpost : PostOK env) (hp : PermOK env) :
    ∀ {ops : List Op} {s s' : St K V} {p : Option (Mat V)}, WF s → (∀ P, p = some P → P.rows = s.M ∧ P.cols = s.N) →
    execAll env (consThen env move) ops s = .ok s' → ∃ p', saveExecAll true env move ops (s, p) = .ok (s', p')
  | [], s, s', p, hw, hP, h => by
    simp only [execAll, Except.ok.injEq] at h
    exact ⟨p, by simp [saveExecAll, h]⟩
  | o :: l, s, s', p, hw, hP, h => by
    simp only [execAll, bind_ok] at h
    obtain ⟨w, hq, h⟩ := h
    have key : ∃ p', saveExec true env move o (s, p) = .ok (w, p') ∧ ∀ P, p' = some P → P.rows = w.M ∧ P.cols = w.N := by
      by_cases ho : o = .step
      · have S := step_sum hm hpost (by subst ho; exact hq)
        have px : (preStep env s).x = s.x := by rw [preStep_frame env s]
        cases hpp : p with
        | none =>
          refine ⟨some s.x, saveExec_split.2 ⟨hq, ?_⟩, fun P h => ?_⟩
          · rw [if_pos ho]
            simp only [savePoints, if_true, px]
          · injection h with h
            rw [← h, S.M, S.N]
            exact ⟨hw.xr, hw.xc⟩
        | some P =>
          obtain ⟨hr, hc⟩ := hP P hpp
          have ib := (preStep_idx env hp hw).cIn
          have ib1 : (preStep env s).cIdx.InBounds (preStep env s).x.rows (preStep env s).x.cols := by rw [px, hw.xr, hw.xc]; exact ib
          have ib2 : (preStep env s).cIdx.InBounds P.rows P.cols := by rw [hr, hc]; exact ib
          have hg := Mat.gather_of_inBounds ib1
          obtain ⟨Q, hQ⟩ := Mat.scatter_of_shape ib2 (v := ⟨(preStep env s).cIdx.rows, (preStep env s).cIdx.cols,
            fun i j => (preStep env s).x.get ((preStep env s).cIdx.run i) ((preStep env s).cIdx.par i j)⟩) rfl rfl
          refine ⟨some Q, saveExec_split.2 ⟨hq, ?_⟩, fun Q' hQ' => ?_⟩
          · rw [if_pos ho]
            simp only [savePoints, if_true, hg, bind, Except.bind, hQ, pure, Except.pure]
          · injection hQ' with hQ'
            obtain ⟨-, e1, e2, -⟩ := Mat.scatter_ok hQ
            rw [← hQ', e1, e2, S.M, S.N]
            exact ⟨hr, hc⟩
      · obtain ⟨k1, k2, -, -⟩ := exec_keeps ho hq
        refine ⟨p, saveExec_split.2 ⟨hq, by rw [if_neg ho]⟩, fun P h => ?_⟩
        rw [k1, k2]
        exact hP P h
    obtain ⟨p', h1, h2⟩ := key
    obtain ⟨p'', h3⟩ := saved_total hm hpost hp (exec_wf hm hpost hp hw hq) h2 h
    refine ⟨p'', ?_⟩
    simp only [saveExecAll, bind_ok]
    exact ⟨_, h1, h3⟩

end
end Verif
