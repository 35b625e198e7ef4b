import Verif.Proofs.Constrained

/-! # C18, C37: the dynamics with constraints -/

set_option linter.unusedSectionVars false

namespace Verif

section general

variable {K V : Type} [Zero K] [One K] [Neg K] [Add K] [Sub K] [Mul K] [Inv K] [Div K] [NatCast K] [Pow K ℕ] [LinearOrder K] [Add V] [Sub V] [SMul K V]

/-- **C18 fails (1).** In `DriftConstrainedCBO`, `RegCombinationCBO` and `HyperSurfaceCBO` every step in which more than one but not all
runs are active raises `ValueError`: `self.x - self.consensus` has shapes `(M, N, d)` and `(k, 1, d)`. -/
theorem C18_raises_false (env : Env K V) (G : ConOps K V) (S : SurfOps K V) (eps : K) (r : List (K × Flt K × V) → V)
    (hr : env.cons = .mean r) (hp : PermOK env) (s : St K V) (hw : WF s) (h1 : 1 < s.active.length) (h2 : s.active.length < s.M) :
    step env (consThen env (dcMove env G eps)) s = .error .value ∧
    step env (consThen env (regMove env G eps)) s = .error .value ∧
    step env (consThen env (hyperMove env S)) s = .error .value :=
  ⟨fullStep_raises (dcMove_full env G eps) hr hp hw h1 h2, fullStep_raises (regMove_full env G eps) hr hp hw h1 h2,
    fullStep_raises (hyperMove_full env S) hr hp hw h1 h2⟩

/-- Such a state is reached by an ordinary run: three runs, one of which stops; the next step raises. -/
theorem C18_reached_false : ∃ s₀ s : St ℚ ℚ, init Example.env Example.args3 = .ok s₀ ∧
    execAll Example.env (consThen Example.env (dcMove Example.env Example.lineOps 1)) [.select, .step, .select] s₀ = .ok s ∧
    s.active = [0, 2] ∧
    ∃ e, exec Example.env (consThen Example.env (dcMove Example.env Example.lineOps 1)) .step s = .error e := by
  have h : (match (do
      let s₀ ← init Example.env Example.args3
      let s ← execAll Example.env (consThen Example.env (dcMove Example.env Example.lineOps 1)) [.select, .step, .select] s₀
      pure (s₀, s) : Except Err (St ℚ ℚ × St ℚ ℚ)) with
    | .ok (_, s) => decide (s.active = [0, 2] ∧
        (exec Example.env (consThen Example.env (dcMove Example.env Example.lineOps 1)) .step s).isOk = false)
    | .error _ => false) = true := by decide +kernel
  split at h
  · next s₀ s hs =>
    simp only [bind_ok, pure_ok] at hs
    obtain ⟨a, ha, b, hb, e⟩ := hs
    cases e
    have h := of_decide_eq_true h
    refine ⟨_, _, ha, hb, h.1, ?_⟩
    cases he : exec Example.env (consThen Example.env (dcMove Example.env Example.lineOps 1)) .step s with
    | error e => exact ⟨e, rfl⟩
    | ok q => rw [he] at h; simp [Except.isOk, Except.toBool] at h
  · simp at h

/-- **C18 fails (2).** With two runs of which one has stopped, `DriftConstrainedCBO` and `HyperSurfaceCBO` do not raise, but move the
particles of the stopped run (towards the consensus of the other run). -/
theorem C18_stopped_moves_false :
    (∃ s₀ s s' : St ℚ ℚ, init Example.env (Example.args [.energyTol (.fin 2)] none) = .ok s₀ ∧
      execAll Example.env (consThen Example.env (dcMove Example.env Example.lineOps 1)) [.select, .step, .select] s₀ = .ok s ∧
      s.active = [1] ∧ step Example.env (consThen Example.env (dcMove Example.env Example.lineOps 1)) s = .ok s' ∧
      s'.x.get 0 0 ≠ s.x.get 0 0) ∧
    (∃ s₀ s s' : St ℚ (ℚ × ℚ), init Example.env2 (Example.argsLine [.energyTol (.fin 5)]) = .ok s₀ ∧
      execAll Example.env2 (consThen Example.env2 (hyperMove Example.env2 Example.lineSurf)) [.select, .step, .select] s₀ = .ok s ∧
      s.active = [1] ∧ step Example.env2 (consThen Example.env2 (hyperMove Example.env2 Example.lineSurf)) s = .ok s' ∧
      s'.x.get 0 0 ≠ s.x.get 0 0) := by
  have h1 : (match (do
      let s₀ ← init Example.env (Example.args [.energyTol (.fin 2)] none)
      let s ← execAll Example.env (consThen Example.env (dcMove Example.env Example.lineOps 1)) [.select, .step, .select] s₀
      let s' ← step Example.env (consThen Example.env (dcMove Example.env Example.lineOps 1)) s
      pure (s₀, s, s') : Except Err (St ℚ ℚ × St ℚ ℚ × St ℚ ℚ)) with
    | .ok (_, s, s') => decide (s.active = [1] ∧ s'.x.get 0 0 ≠ s.x.get 0 0)
    | .error _ => false) = true := by decide +kernel
  have h2 : (match (do
      let s₀ ← init Example.env2 (Example.argsLine [.energyTol (.fin 5)])
      let s ← execAll Example.env2 (consThen Example.env2 (hyperMove Example.env2 Example.lineSurf)) [.select, .step, .select] s₀
      let s' ← step Example.env2 (consThen Example.env2 (hyperMove Example.env2 Example.lineSurf)) s
      pure (s₀, s, s') : Except Err (St ℚ (ℚ × ℚ) × St ℚ (ℚ × ℚ) × St ℚ (ℚ × ℚ))) with
    | .ok (_, s, s') => decide (s.active = [1] ∧ s'.x.get 0 0 ≠ s.x.get 0 0)
    | .error _ => false) = true := by decide +kernel
  constructor
  · split at h1
    · next s₀ s s' hs =>
      simp only [bind_ok, pure_ok] at hs
      obtain ⟨a, ha, b, hb, c, hc, e⟩ := hs
      cases e
      have h := of_decide_eq_true h1
      exact ⟨_, _, _, ha, hb, h.1, hc, h.2⟩
    · simp at h1
  · split at h2
    · next s₀ s s' hs =>
      simp only [bind_ok, pure_ok] at hs
      obtain ⟨a, ha, b, hb, c, hc, e⟩ := hs
      cases e
      have h := of_decide_eq_true h2
      exact ⟨_, _, _, ha, hb, h.1, hc, h.2⟩
    · simp at h2

/-- **C18 (partial).** As long as all runs are active (and the dynamic is not batched), the new positions of run `i` depend only on the data of
run `i`: the same for all other dynamics, of any number of runs, that hold the same data in run `i`. This is the part of the claim that holds; with
stopped runs it fails (`C18_raises_false`, `C18_stopped_moves_false`). -/
theorem C18_all_active_partial (env : Env K V) (G : ConOps K V) (S : SurfOps K V) (eps : K) (r : List (K × Flt K × V) → V)
    (ν : ℕ → K → ℕ → ℕ → V → V) (p : V → V) (hr : env.cons = .mean r) (hn : NoiseRows env ν) (hpm : PostMap env p) (hp : PermOK env)
    (move : St K V → Except Err (St K V))
    (hmove : move = dcMove env G eps ∨ move = regMove env G eps ∨ move = hyperMove env S)
    (s t s' t' : St K V) (hs : WF s) (ht : WF t) (bs : s.batched = false) (bt : t.batched = false)
    (as : s.active.length = s.M) (at' : t.active.length = t.M) (i : ℕ) (hi : i < s.M) (hi' : i < t.M) (hd : SameData i s t)
    (h : step env (consThen env move) s = .ok s') (h' : step env (consThen env move) t = .ok t') :
    ∀ j < s.N, t'.x.get i j = s'.x.get i j := by
  have main : ∀ F, FullMove env F move → ∀ j < s.N, t'.x.get i j = s'.x.get i j := by
    intro F hF j hj
    obtain ⟨d, n, ⟨d1, d2, -, -⟩, ⟨q, q1, q2, q3, q4⟩, e⟩ := fullStep_facts hF hr hn.ok hp hpm hs as h
    obtain ⟨d', n', ⟨d1', d2', -, -⟩, ⟨q', q1', q2', q3', q4'⟩, e'⟩ := fullStep_facts hF hr hn.ok hp hpm ht at' h'
    have f := step_frame (consThen_frame hF.ok) h
    have f' := step_frame (consThen_frame hF.ok) h'
    have es := sample_congr (env := env) hs ht hp bs bt as at' hi hi' hd
    obtain ⟨a1, y, a2, a3⟩ := e i hi j hj
    obtain ⟨b1, y', b2, b3⟩ := e' i hi' j (by rw [hd.N]; exact hj)
    rw [f.cIdx] at a1 a2
    rw [f'.cIdx, es, hd.x j hj] at b1 b2
    have hnn : n'.get i j = n.get i j := by
      obtain ⟨m, m1, -, -, m2⟩ := hn q d q2
      obtain ⟨m', m1', -, -, m2'⟩ := hn q' d' q2'
      rw [q1] at m1
      rw [q1'] at m1'
      injection m1 with m1
      injection m1' with m1'
      rw [m1, m1', m2, m2', q3, q3', q4, q4', hd.draws, hd.par.2.1, a1, b1]
    rw [hnn, hd.par.1, hd.par.2.1, hd.par.2.2, a2] at b2
    injection b2 with b2
    rw [a3, b3, b2]
  rcases hmove with rfl | rfl | rfl
  · exact main _ (dcMove_full env G eps)
  · exact main _ (regMove_full env G eps)
  · exact main _ (hyperMove_full env S)

/-- With all runs active a step does not raise, provided the constraint solves do not and batches are not empty. -/
theorem C18_all_active_total_partial (env : Env K V) (G : ConOps K V) (S : SurfOps K V) (eps : K) (r : List (K × Flt K × V) → V)
    (hr : env.cons = .mean r) (hn : NoiseOK env) (hp : PermOK env)
    (hpost : ∀ s, ∃ x', env.post s = .ok x' ∧ x'.rows = s.x.rows ∧ x'.cols = s.x.cols)
    (heps : eps ≠ 0) (h1 : ∀ q x t, ∃ z, G.solveHess q x t = .ok z) (h2 : ∀ q x t, ∃ z, G.solvePlus q x t = .ok z)
    (s : St K V) (hw : WF s) (hM : 0 < s.M) (hall : s.active.length = s.M) (hsi : s.saveInt ≠ 0)
    (hb : env.emptyRaises = true → s.batchSize ≠ 0) :
    (∃ s', step env (consThen env (dcMove env G eps)) s = .ok s') ∧
    (∃ s', step env (consThen env (regMove env G eps)) s = .ok s') ∧
    (∃ s', step env (consThen env (hyperMove env S)) s = .ok s') := by
  have hne : NonEmpty env s := fun h => ⟨fun h0 => by rw [h0] at hall; simp at hall; omega, hb h⟩
  refine ⟨fullStep_total (dcMove_full env G eps) hr hn hp hpost hw hM hall hsi hne fun x c n => ?_,
    fullStep_total (regMove_full env G eps) hr hn hp hpost hw hM hall hsi hne fun x c n => ?_,
    fullStep_total (hyperMove_full env S) hr hn hp hpost hw hM hall hsi hne fun x c n => ⟨_, rfl⟩⟩
  · obtain ⟨z, hz⟩ := h1 (s.dt / eps) x ((s.lamda * s.dt) • (x - c) + (s.dt / eps) • G.gradSq x + s.sigma • n)
    refine ⟨x - z, ?_⟩
    simp only [dcUpdate, divEps, if_neg heps, bind, Except.bind, hz, pure, Except.pure]
  · obtain ⟨z, hz⟩ := h2 (s.dt / eps) x (x - (s.lamda * s.dt) • (x - c) + s.sigma • n)
    simp only [regUpdate, divEps, if_neg heps, bind, Except.bind, hz, pure, Except.pure]
    split_ifs
    · exact ⟨z, rfl⟩
    · exact ⟨_, rfl⟩

/-- The hypotheses are met by the start state of the examples. -/
example : (match init Example.env (Example.args [] none), init Example.env2 (Example.argsLine []) with
    | .ok s, .ok t =>
      match step Example.env (consThen Example.env (dcMove Example.env Example.lineOps 1)) s,
          step Example.env (consThen Example.env (regMove Example.env Example.lineOps 1)) s,
          step Example.env2 (consThen Example.env2 (hyperMove Example.env2 Example.lineSurf)) t with
      | .ok _, .ok _, .ok _ => decide (s.active.length = s.M ∧ t.active.length = t.M ∧ s.M = 2)
      | _, _, _ => false
    | _, _ => false) = true := by decide +kernel

end general

section empty

variable {K V : Type} [Field K] [LinearOrder K] [AddCommGroup V] [Module K V]

/-- **C37 (partial), `RegCombinationCBO`.** With an empty constraint list, an unbatched `RegCombinationCBO` without stopped runs does exactly what
`CBO` does, over every sequence of steps, scheduler updates and resets: same result or same exception. Missing: `DriftConstrainedCBO`
(`C37_drift_false`), and dynamics with stopped runs, which raise (`C18_raises_false`). -/
theorem C37_regcombination_partial (env : Env K V) (hcorr : env.corr = .none) (hmean : ∃ r, env.cons = .mean r) (hn : NoiseOK env)
    (hp : PermOK env) (hpost : PostOK env) (eps : K) (heps : eps ≠ 0) (ops : List Op) (hops : Op.select ∉ ops) (s : St K V) (hw : WF s)
    (hb : s.batched = false) (hall : s.active.length = s.M) :
    execAll env (consThen env (regMove env noCon eps)) ops s = execAll env (cboInner env) ops s := by
  induction ops generalizing s with
  | nil => rfl
  | cons o l ih =>
    have e : exec env (consThen env (regMove env noCon eps)) o s = exec env (cboInner env) o s := by
      cases o with
      | step => exact regStep_noCon hcorr hmean hn hp heps hw hb hall
      | select => rfl
      | sched => rfl
      | reset => rfl
    simp only [execAll, e]
    cases hx : exec env (cboInner env) o s with
    | error e => rfl
    | ok s' =>
      simp only [bind, Except.bind]
      have hx' : exec env (consThen env (cboMove env)) o s = .ok s' := by rw [← cboInner_eq]; exact hx
      have hw' := exec_wf (cboMove_ok env) hpost hp hw hx'
      have q := exec_quiet (consThen_frame (cboMove_ok env)) hx'
      have ho : o ≠ .select := fun h => hops (h ▸ List.mem_cons_self)
      refine ih (fun h => hops (List.mem_cons_of_mem _ h)) s' hw' (by rw [q.1]; exact hb) (by rw [q.2.2 ho, q.2.1]; exact hall)

/-- **C37 (partial), `RegCombinationCBO`, whole runs.** With one run and an empty constraint list, `optimize` of an unbatched `RegCombinationCBO`
has exactly the outcome of `optimize` of `CBO`, whatever the termination criteria and schedulers. -/
theorem C37_regcombination_optimize_partial (env : Env K V) (hcorr : env.corr = .none) (hmean : ∃ r, env.cons = .mean r) (hn : NoiseOK env)
    (hp : PermOK env) (hpost : PostOK env) (eps : K) (heps : eps ≠ 0) (fuel : ℕ) (s : St K V) (hw : WF s)
    (hb : s.batched = false) (hM : s.M = 1) :
    optimize env (consThen env (regMove env noCon eps)) fuel s = optimize env (cboInner env) fuel s := by
  induction fuel generalizing s with
  | zero => rfl
  | succ k ih =>
    unfold optimize
    cases h1 : selectActive env s with
    | error e => rfl
    | ok a =>
      have f := select_frame h1
      have wa := select_wf hw h1
      have aM : a.M = 1 := by rw [f]; exact hM
      simp only
      by_cases h0 : a.active.length = 0
      · simp [h0]
      · have hall : a.active.length = a.M := by
          have := wa.act.length_le
          rw [List.length_range] at this
          omega
        simp only [if_neg h0]
        rw [regStep_noCon hcorr hmean hn hp heps wa (by rw [f]; exact hb) hall]
        cases h2 : step env (cboInner env) a with
        | error e => rfl
        | ok b =>
          simp only
          cases h3 : schedUpdate env b with
          | error e => rfl
          | ok c =>
            simp only
            have h2' : step env (consThen env (cboMove env)) a = .ok b := by rw [← cboInner_eq]; exact h2
            have sf := step_frame (consThen_frame (cboMove_ok env)) h2'
            have cf := sched_frame h3
            refine ih c (sched_wf (step_wf (cboMove_ok env) hpost hp wa h2') h3) ?_ ?_
            · rw [cf]; show b.batched = false; rw [sf.batched, f]; exact hb
            · rw [cf]; show b.M = 1; rw [sf.M, aM]

/-- Hypotheses of the two theorems for a concrete dynamic with two runs, in which `CBO` does move. -/
example : ops_nil (ι := Fin 2) = rfl ∧ (match init Example.env (Example.args [] none) with
    | .ok s => match step Example.env (cboInner Example.env) s with
      | .ok s' => decide (s.batched = false ∧ s.active.length = s.M ∧ s.M = 2 ∧ s'.x.get 0 0 ≠ s.x.get 0 0)
      | .error _ => false
    | .error _ => false) = true := ⟨rfl, by decide +kernel⟩

/-- **C37 fails for `DriftConstrainedCBO`.** With an empty constraint list and a post-processing that does not move particles, the particles never
move at all: `MultiConstraint.solve_Id_hessian_squared_sum` returns zero, so nothing is added to the positions, over every sequence of
operations. -/
theorem C37_drift_false (env : Env K V) (hpost : ∀ s, env.post s = .ok s.x) (eps : K) (ops : List Op) (s s' : St K V)
    (h : execAll env (consThen env (dcMove env noCon eps)) ops s = .ok s') :
    ∀ i < s.x.rows, ∀ j < s.x.cols, s'.x.get i j = s.x.get i j := by
  suffices H : s'.x.rows = s.x.rows ∧ s'.x.cols = s.x.cols ∧ ∀ i < s.x.rows, ∀ j < s.x.cols, s'.x.get i j = s.x.get i j from H.2.2
  induction ops generalizing s with
  | nil =>
    simp only [execAll] at h
    injection h with h
    subst h
    exact ⟨rfl, rfl, fun _ _ _ _ => rfl⟩
  | cons o l ih =>
    simp only [execAll, bind_ok] at h
    obtain ⟨q, hq, hl⟩ := h
    have e : q.x.rows = s.x.rows ∧ q.x.cols = s.x.cols ∧ ∀ i < s.x.rows, ∀ j < s.x.cols, q.x.get i j = s.x.get i j := by
      cases o with
      | step =>
        obtain ⟨v, hv, hpv⟩ := step_split.1 hq
        obtain ⟨c, hc, hm⟩ := consThen_split.1 hv
        have px := (postStep_facts hpv).post
        rw [hpost] at px
        injection px with px
        have cx : c.x = s.x := by rw [computeConsensus_frame hc]; show (preStep env s).x = s.x; rw [preStep_frame]
        rw [← px, ← cx]
        exact dcMove_noCon hm
      | select => have f := select_frame hq; rw [f]; exact ⟨rfl, rfl, fun _ _ _ _ => rfl⟩
      | sched => have f := sched_frame hq; rw [f]; exact ⟨rfl, rfl, fun _ _ _ _ => rfl⟩
      | reset =>
        simp only [exec] at hq
        injection hq with hq
        subst hq
        exact ⟨rfl, rfl, fun _ _ _ _ => rfl⟩
    obtain ⟨a1, a2, a3⟩ := e
    obtain ⟨b1, b2, b3⟩ := ih q hl
    refine ⟨by omega, by omega, fun i hi j hj => ?_⟩
    rw [b3 i (by omega) j (by omega), a3 i hi j hj]

/-- With the same (empty) constraint list, start and noise, a step of `CBO` does move the particles. -/
theorem C37_drift_witness_false : ∃ s s' t' : St ℚ ℚ, init Example.env (Example.args [] none) = .ok s ∧
    step Example.env (consThen Example.env (dcMove Example.env noCon 1)) s = .ok s' ∧
    step Example.env (cboInner Example.env) s = .ok t' ∧ s'.x.get 0 0 = s.x.get 0 0 ∧ t'.x.get 0 0 ≠ s.x.get 0 0 := by
  have h : (match (do
      let s ← init Example.env (Example.args [] none)
      let s' ← step Example.env (consThen Example.env (dcMove Example.env noCon 1)) s
      let t' ← step Example.env (cboInner Example.env) s
      pure (s, s', t') : Except Err (St ℚ ℚ × St ℚ ℚ × St ℚ ℚ)) with
    | .ok (s, s', t') => decide (s'.x.get 0 0 = s.x.get 0 0 ∧ t'.x.get 0 0 ≠ s.x.get 0 0)
    | .error _ => false) = true := by decide +kernel
  split at h
  · next s s' t' hs =>
    simp only [bind_ok, pure_ok] at hs
    obtain ⟨a, ha, b, hb, c, hc, e⟩ := hs
    cases e
    have h := of_decide_eq_true h
    exact ⟨_, _, _, ha, hb, hc, h.1, h.2⟩
  · simp at h

end empty

end Verif
