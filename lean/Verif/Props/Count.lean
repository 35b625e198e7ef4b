import Verif.Proofs.Count
import Verif.Spec.Example
import Verif.Props.Termination

/-! Properties C13 (evaluation counting is exact) and C04 (the evaluation budget is never exceeded). -/

set_option linter.unusedSectionVars false

namespace Verif

variable {K V : Type} [Zero K] [One K] [Neg K] [Add K] [Sub K] [Mul K] [Inv K] [Div K] [NatCast K] [Pow K ℕ] [LinearOrder K] [Add V] [Sub V] [SMul K V]

/-- **C13, general form** for every consensus dynamic whose move charges what it evaluates: after construction and any
sequence of operations, each run's `num_f_eval` is the number of points of that run on which the objective was really
called, and the sum over the runs is the total number of evaluations. -/
theorem C13_count_general (env : Env K V) (move : St K V → Except Err (St K V)) (hm : MoveOK move)
    (a : Args K V) (hc : MoveCounted env a.x0.rows move)
    (hpost : PostOK env) (hp : PermOK env) (s₀ s : St K V) (ops : List Op)
    (h0 : init env a = .ok s₀) (h : execAll env (consThen env move) ops s₀ = .ok s) :
    (∀ m < s.M, s.nEval m = evalCount s m) ∧ ∑ m ∈ Finset.range s.M, s.nEval m = totalEval s := by
  have hM : s₀.M = a.x0.rows := by
    unfold init at h0
    split_ifs at h0 <;> (injection h0 with h0; subst h0; rfl)
  have := (execAll_induct hm hpost hp (P := fun s => CountInv s ∧ s.M = a.x0.rows)
    (fun o s s' hw hP h => ⟨countInv_exec hm hc hp hw hP.2 hP.1 h, by
      rw [← hP.2]
      cases o with
      | step => exact (step_frame (consThen_frame hm) h).M
      | select => rw [select_frame h]
      | sched => rw [sched_frame h]
      | reset =>
        simp only [exec] at h
        injection h with h
        subst h
        rfl⟩) ops s₀ s (init_wf hp h0) ⟨countInv_init h0, hM⟩ h).2.1
  exact ⟨this.eq, countInv_total this⟩

/-- **C13 (partial).** `CBO`, any batching, any set of stopped runs, any termination criteria (including the ones that
evaluate the objective themselves), any sequence of operations: counting is exact if no Heaviside correction is used, and
also with a Heaviside correction if there is a single run and the default consensus.
Missing from the full statement: Heaviside corrections with several runs, for which it is false
(`C13_heaviside_overcounts`). -/
theorem C13_cbo_partial (env : Env K V) (a : Args K V)
    (hc : (∀ g, env.corr ≠ .heavi g) ∨ (a.x0.rows = 1 ∧ ∃ r, env.cons = .mean r))
    (hpost : PostOK env) (hp : PermOK env) (s₀ s : St K V) (ops : List Op)
    (h0 : init env a = .ok s₀) (h : execAll env (cboInner env) ops s₀ = .ok s) :
    (∀ m < s.M, s.nEval m = evalCount s m) ∧ ∑ m ∈ Finset.range s.M, s.nEval m = totalEval s := by
  refine C13_count_general env (cboMove env) (cboMove_ok env) a ?_ hpost hp s₀ s ops h0 h
  by_cases hg : ∃ g, env.corr = .heavi g
  · rcases hc with hc | ⟨h1, r, hr⟩
    · exact absurd hg.choose_spec (hc _)
    · rw [h1]; exact cboMove_heavi_counted hr hg.choose_spec
  · exact (cboMove_quiet fun g h => hg ⟨g, h⟩).counted (cboMove_ok env) _

/-- **C13 fails for the Heaviside corrections with several runs.** In every CBO step with `k` active runs, a Heaviside
correction and the default consensus, an active run is charged `k - 1` evaluations too many and a stopped run is
charged `k` although it is not evaluated at all. -/
theorem C13_heaviside_overcounts (env : Env K V) (g : Flt K → V → V) (hg : env.corr = .heavi g)
    (r : List (K × Flt K × V) → V) (hr : env.cons = .mean r) (hp : PermOK env) (s s' : St K V)
    (hw : WF s) (h : step env (cboInner env) s = .ok s') :
    ∀ m < s.M, s'.nEval m + evalCount s m + (if m ∈ s.active then 1 else 0) =
      s.nEval m + evalCount s' m + s.active.length := by
  intro m hm
  obtain ⟨v, hv, hs⟩ := step_split.1 h
  obtain ⟨c, hcc, hmv⟩ := consThen_split.1 hv
  have p1 := preStep_frame env s
  have hix := preStep_idx env hp hw
  have pact : (preStep env s).active = s.active := by rw [p1]
  have cf := computeConsensus_frame hcc
  have cact : c.active = s.active := by rw [cf]; exact pact
  have hc := computeConsensus_facts hcc
  obtain ⟨k, hk, hk', hk''⟩ := computeConsensus_cons hcc (by rw [pact]; exact hix.cRows)
  obtain ⟨e1, e2⟩ := cboMove_heavi hg hk hmv
  have pf := (postStep_facts hs).frame
  have n1 : s'.nEval = v.nEval := by rw [pf]
  have l1 : s'.log = v.log := by rw [pf]
  have n0 : (preStep env s).nEval = s.nEval := by rw [p1]
  have l0 : (preStep env s).log = s.log := by rw [p1]
  have cc := step_log_count (m := m) (get := fun i j => (preStep env s).x.get ((preStep env s).cIdx.run i)
    ((preStep env s).cIdx.par i j)) (site := Site.energy) hw.nodup hix.cRows hix.cRun
  unfold evalCount
  rw [n1, e1, l1, e2, hc.log, List.countP_append, List.countP_append, cc, count_sites, count_entries, hk',
    cact, pact, count_getD hw.nodup, hk'' r hr, hc.nEval, pact, n0, l0]
  simp only
  split_ifs <;> omega

/-- The rational example environment with the Heaviside correction. -/
def Example.envH : Env ℚ ℚ :=
  { Example.env with corr := .heavi fun z v => if Flt.gt z (.fin 0) then v else 0 }

/-- C13: counterexample run. Two runs of three particles, one step after the constructor's check: every run is
charged 8 evaluations but the objective was called on 7 points of each. -/
example : ∃ s, step Example.envH (cboInner Example.envH) (Example.start [.maxIt (some 3)] none) = .ok s ∧
    s.nEval 0 = 8 ∧ evalCount s 0 = 7 ∧ totalEval s = 14 :=
  ⟨_, rfl, by decide +kernel, by decide +kernel, by decide +kernel⟩

/-- C13: the positive theorem covers a batched run with two criteria; both runs were charged
`3 + 2·2` evaluations, and `14` evaluations took place. -/
example : (∀ g, Example.env.corr ≠ .heavi g) ∧
    (Example.final [.maxIt (some 2)] (some 2) 4).nEval 1 = 7 ∧
    evalCount (Example.final [.maxIt (some 2)] (some 2) 4) 1 = 7 ∧
    totalEval (Example.final [.maxIt (some 2)] (some 2) 4) = 14 :=
  ⟨fun g h => by simp [Example.env] at h, by decide +kernel, by decide +kernel, by decide +kernel⟩

/-! ### C04 -/

/-- Criteria without the energy stagnation criterion: the check charges nothing. -/
theorem select_nEval {env : Env K V} {s s' : St K V} (hs : ∀ tm ∈ s.terms, Stateless tm)
    (h : selectActive env s = .ok s') : s'.nEval = s.nEval ∧ s'.terms = s.terms := by
  obtain ⟨a, h1, h2, -⟩ := select_stateless (env := env) hs
  rw [h1] at h
  injection h with h
  subst h
  exact ⟨by rw [h2], by rw [h2]⟩

/-- **C04 (partial).** Dynamics whose moves do not evaluate the objective (CBO without Heaviside correction, and the
other built-in consensus dynamics), any batch size, any number of runs, `max_eval = n` among the criteria, all other
criteria stateless: at every loop iteration of `optimize`, i.e. after any number `k` of rounds (check, step, scheduler),
no run's counter exceeds the larger of `n` and the value it had before.
Missing: the energy stagnation criterion and the Heaviside correction, for which it is false
(`C04_heaviside_false`, `C04_stagnation_false`). -/
theorem C04_max_eval_partial (env : Env K V) (move : St K V → Except Err (St K V)) (hm : MoveOK move)
    (hq : MoveQuiet move) (hpost : PostOK env) (hp : PermOK env) (n : ℕ) :
    ∀ (k : ℕ) (s s' : St K V), WF s → (∀ tm ∈ s.terms, Stateless tm) → Term.maxEval n ∈ s.terms →
      execAll env (consThen env move) (rounds k) s = .ok s' →
      ∀ m, s'.nEval m ≤ max n (s.nEval m) := by
  intro k
  induction k with
  | zero =>
    intro s s' _ _ _ h m
    simp only [rounds, List.replicate_zero, List.flatten_nil, execAll] at h
    injection h with h
    subst h
    exact le_max_right _ _
  | succ k ih =>
    intro s s' hw hs hn h m
    rw [rounds_succ] at h
    simp only [List.cons_append, List.nil_append, execAll, exec, bind_ok] at h
    obtain ⟨a, h1, b, h2, c, h3, h4⟩ := h
    obtain ⟨e1, e2⟩ := select_nEval hs h1
    have hwa := select_wf hw h1
    have ab := step_frame (consThen_frame hm) h2
    have hwb := step_wf hm hpost hp hwa h2
    have ec := sched_frame h3
    have hwc := sched_wf hwb h3
    have ct : c.terms = s.terms := by rw [ec]; simp only; rw [ab.terms, e2]
    have cn : c.nEval = b.nEval := by rw [ec]
    have := ih c s' hwc (by rw [ct]; exact hs) (by rw [ct]; exact hn) h4 m
    rw [cn, step_nEval hm hq hp hwa h2 m, e1] at this
    split_ifs at this with hma
    · obtain ⟨a', h1', ea', hact, -⟩ := select_stateless (env := env) hs
      rw [h1'] at h1
      injection h1 with h1
      subst h1
      have hnf := ((hact m).1 hma).2 _ hn
      simp only [Fires, not_not] at hnf
      have hbs : a'.batchSize = s.batchSize := by rw [ea']
      rw [hbs] at this
      omega
    · exact this

/-- **C04 (whole call).** The same bound for the state in which `optimize` returns; and if `max_eval` is the only
criterion, the budget is used up: not even one more batch would fit. -/
theorem C04_optimize_partial (env : Env K V) (move : St K V → Except Err (St K V)) (hm : MoveOK move)
    (hq : MoveQuiet move) (hpost : PostOK env) (hp : PermOK env) (n fuel : ℕ) (s s' : St K V)
    (hw : WF s) (hs : ∀ tm ∈ s.terms, Stateless tm) (hn : Term.maxEval n ∈ s.terms)
    (h : optimize env (consThen env move) fuel s = .done s') :
    (∀ m, s'.nEval m ≤ max n (s.nEval m)) ∧
    (s.terms = [.maxEval n] → ∀ m < s'.M, n < s'.nEval m + s'.batchSize) := by
  obtain ⟨ha, q, hq', k, hk⟩ := optimize_done h
  have ht : ∀ (k : ℕ) (s q : St K V), (∀ tm ∈ s.terms, Stateless tm) →
      execAll env (consThen env move) (rounds k) s = .ok q → q.terms = s.terms := by
    intro k
    induction k with
    | zero =>
      intro s q _ h
      simp only [rounds, List.replicate_zero, List.flatten_nil, execAll] at h
      injection h with h
      subst h
      rfl
    | succ k ih =>
      intro s q hs h
      rw [rounds_succ] at h
      simp only [List.cons_append, List.nil_append, execAll, exec, bind_ok] at h
      obtain ⟨a, h1, b, h2, c, h3, h4⟩ := h
      obtain ⟨e1, e2⟩ := select_nEval hs h1
      have ab := step_frame (consThen_frame hm) h2
      have ct : c.terms = s.terms := by rw [sched_frame h3]; simp only; rw [ab.terms, e2]
      rw [ih c q (by rw [ct]; exact hs) h4, ct]
  have hqt := ht k s q hs hk
  have hqs : ∀ tm ∈ q.terms, Stateless tm := by rw [hqt]; exact hs
  refine ⟨?_, ?_⟩
  · intro m
    rw [(select_nEval hqs hq').1]
    exact C04_max_eval_partial env move hm hq hpost hp n k s q hw hs hn hk m
  · intro hone m hmM
    obtain ⟨a', h1', ea', hact, -⟩ := select_stateless (env := env) hqs
    rw [h1'] at hq'
    injection hq' with hq'
    subst hq'
    have hM : a'.M = q.M := by rw [ea']
    have hne : a'.nEval = q.nEval := by rw [ea']
    have hb : a'.batchSize = q.batchSize := by rw [ea']
    by_contra hc
    have : m ∈ a'.active := by
      rw [hact]
      refine ⟨by omega, ?_⟩
      rw [hqt, hone]
      intro tm htm
      rw [List.mem_singleton] at htm
      subst htm
      simp only [Fires, not_not]
      rw [hne, hb] at hc
      omega
    rw [List.length_eq_zero_iff.1 ha] at this
    simp at this

/-- C04: two runs, batches of 2, budget 10: the constructor's check uses 3, three steps use 6, and a fourth would
not fit; both runs end with 9. -/
example : (∀ tm ∈ (Example.start [.maxEval 10] (some 2)).terms, Stateless tm) ∧
    WF (Example.start [.maxEval 10] (some 2)) ∧ MoveQuiet (cboMove Example.env) ∧
    Example.isDone (optimize Example.env (cboInner Example.env) 9
      (Example.start [.maxEval 10] (some 2))) = true ∧
    (Example.final [.maxEval 10] (some 2) 9).nEval 0 = 9 := by
  refine ⟨?_, ?_, cboMove_quiet fun g h => by simp [Example.env] at h, by decide +kernel, by decide +kernel⟩
  · intro tm htm
    simp [Example.start, Example.args, init, initBatch, initHistory, checkFDims, callF, baseSt] at htm
    subst htm
    trivial
  · refine init_wf (env := Example.env) (a := Example.args [.maxEval 10] (some 2)) ?_ rfl
    intro N c m j hj
    simp only [Example.env, if_pos hj]
    exact Nat.mod_lt _ (by omega)

/-- **C04 fails with the Heaviside correction**: two runs, `max_eval = 11`; both runs end with a counter of 13. -/
theorem C04_heaviside_false : ∃ s', optimize Example.envH (cboInner Example.envH) 9
      (Example.start [.maxEval 11] none) = .done s' ∧ s'.nEval 0 = 13 := by
  have h : (match optimize Example.envH (cboInner Example.envH) 9 (Example.start [.maxEval 11] none) with
      | .done s => decide (s.nEval 0 = 13)
      | _ => false) = true := by decide +kernel
  revert h
  split
  · rename_i s hs; intro h; exact ⟨s, hs, by simpa using h⟩
  · simp

/-- **C04 fails with the energy stagnation criterion** (which evaluates the objective during the check): a single run,
`max_eval = 9`; the run ends with more than 9 evaluations. -/
theorem C04_stagnation_false : ∃ s', optimize Example.env (cboInner Example.env) 9
      (Example.start1 [.maxEval 9, .energyStag 5 (.fin 0) none]) = .done s' ∧ 9 < s'.nEval 0 := by
  have h : (match optimize Example.env (cboInner Example.env) 9
        (Example.start1 [.maxEval 9, .energyStag 5 (.fin 0) none]) with
      | .done s => decide (9 < s.nEval 0)
      | _ => false) = true := by decide +kernel
  revert h
  split
  · rename_i s hs; intro h; exact ⟨s, hs, by simpa using h⟩
  · simp

end Verif
