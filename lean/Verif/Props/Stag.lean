import Verif.Proofs.Stag
import Verif.Proofs.Total
import Verif.Spec.Example
import Verif.Props.Termination

/-! Properties C06, C07 (energy stagnation) and C08 (`reset`). -/

set_option linter.unusedSectionVars false

namespace Verif

variable {K V : Type} [Field K] [LinearOrder K] [Add V] [Sub V] [SMul K V]

/-- **C06.** In every trajectory of `optimize` in which no check raises, the stagnation criterion (number `i` of the list, any other
criteria around it) stops run 0 at the check after `k` steps exactly when at least `patience` consensus energies have been
recorded and the standard deviation of the last `patience` of them is below the threshold. -/
theorem C06_stagnation (env : Env K V) (move : St K V → Except Err (St K V)) (hm : MoveOK move)
    (hpost : PostOK env) (hp : PermOK env) (a : Args K V) (tr : ℕ → St K V) (h0 : init env a = .ok (tr 0))
    (i p : ℕ) (th : Flt K) (hp1 : 1 ≤ p) (hi : a.terms[i]? = some (.energyStag p th none)) (k : ℕ)
    (ht : Trajectory env (consThen env move) k tr) (q : St K V) (hq : selectActive env (tr k) = .ok q)
    (hM : 0 < a.x0.rows) :
    StoppedBy q 0 i ↔ p ≤ k ∧ Flt.lt (Flt.std env.sqrtK
      ((List.range p).map fun j => consEnergy env (tr (k - j)))) th = true := by
  have hI := stagInv hm hpost hp h0 hp1 hi k ht
  obtain ⟨L, hL, hL'⟩ := hI.term
  obtain ⟨w, v, hw, hv, -, hm'⟩ := select_get hq hL
  obtain ⟨e1, -, e5, -⟩ := stag_eval hp1 hI hw hL' hv
  have hM' : 0 < (tr k).M := by
    by_cases hk : k = 0
    · subst hk
      have h := h0
      unfold init at h
      split_ifs at h <;> (injection h with h; rw [← h]; exact hM)
    · exact hI.wf.act_lt (by rw [e1 (by omega)]; simp)
  rw [← e5]
  constructor
  · intro hs
    rcases (hm' 0 hM').2.2 hs with hh | hh
    · exact hh
    · refine absurd hh (hI.reason 0 ?_)
      by_cases hk : k = 0
      · exact .inr (.inr hk)
      · exact .inl ⟨rfl, by rw [e1 (by omega)]; simp⟩
  · exact (hm' 0 hM').2.1

/-- **C06, first part for every run:** the criterion never stops a run before `patience` steps were made. -/
theorem C06_not_early (env : Env K V) (move : St K V → Except Err (St K V)) (hm : MoveOK move)
    (hpost : PostOK env) (hp : PermOK env) (a : Args K V) (tr : ℕ → St K V) (h0 : init env a = .ok (tr 0))
    (i p : ℕ) (th : Flt K) (hp1 : 1 ≤ p) (hi : a.terms[i]? = some (.energyStag p th none)) (k : ℕ)
    (ht : Trajectory env (consThen env move) k tr) (q : St K V) (hq : selectActive env (tr k) = .ok q)
    (m : ℕ) (hM : m < a.x0.rows) (hs : StoppedBy q m i) : m = 0 ∧ p ≤ k := by
  have hI := stagInv hm hpost hp h0 hp1 hi k ht
  obtain ⟨L, hL, hL'⟩ := hI.term
  obtain ⟨w, v, hw, hv, -, hm'⟩ := select_get hq hL
  obtain ⟨-, -, -, e6⟩ := stag_eval hp1 hI hw hL' hv
  have hm0 : m = 0 := by
    by_contra hne
    by_cases hmM : m < (tr k).M
    · rcases (hm' m hmM).2.2 hs with hh | hh
      · rw [e6 m hne] at hh; cases hh
      · exact hI.reason m (.inr (.inl hne)) hh
    · obtain ⟨l, hl, hil⟩ := hs
      rw [select_reason_ge hq hmM] at hl
      exact hI.reason m (.inr (.inl hne)) ⟨l, hl, hil⟩
  subst hm0
  exact ⟨rfl, ((C06_stagnation env move hm hpost hp a tr h0 i p th hp1 hi k ht q hq hM).1 hs).1⟩

/-- C06: in the example (one run, `patience = 2`, threshold 5) the run is stopped by the stagnation criterion after two
steps, not earlier. -/
example : (match optimize Example.env (cboInner Example.env) 5 (Example.start1 [.energyStag 2 (.fin 5) none]) with
    | .done s => decide (s.it = 2 ∧ s.reason 0 = some [0])
    | _ => false) = true := by decide +kernel

/-- The environment of the example satisfies the hypotheses of C06, and its criterion list has the criterion. -/
example : MoveOK (cboMove Example.env) ∧ PostOK Example.env ∧ PermOK Example.env ∧
    (∃ s, init Example.env (Example.args1 [.energyStag 2 (.fin 5) none]) = .ok s) ∧
    (Example.args1 [.energyStag 2 (.fin 5) none]).terms[0]? = some (.energyStag 2 (.fin 5) none) := by
  refine ⟨cboMove_ok _, ?_, ?_, ⟨_, rfl⟩, rfl⟩
  · intro s x' h
    simp only [Example.env] at h
    injection h with h
    subst h
    exact ⟨rfl, rfl⟩
  · intro N c m j hj
    simp only [Example.env, if_pos hj]
    exact Nat.mod_lt _ (by omega)

/-- **C07 is false:** with two or more active runs and a computed consensus, a check with the stagnation criterion
raises — for every state, objective and threshold: `ValueError` if the consensus has enough rows, else `IndexError`. Criteria
before it in the list do not matter as long as they do not raise themselves. -/
theorem C07_false (env : Env K V) (s : St K V) (p : ℕ) (th : Flt K) (L : Option (ℕ → ℕ → Flt K)) (i : ℕ)
    (hi : s.terms[i]? = some (.energyStag p th L)) (c : Mat V) (hc : s.cons = some c) (h2 : 2 ≤ s.active.length) :
    ∃ e, selectActive env s = .error e := by
  cases h : selectActive env s with
  | error e => exact ⟨e, rfl⟩
  | ok q =>
    exfalso
    obtain ⟨w, v, hw, hv, -, -⟩ := select_get h hi
    have wc : w.cons = some c := by rw [hw]; exact hc
    have wa : w.active = s.active := by rw [hw]
    simp only [evalTerm, evalStag, wc, wa] at hv
    split_ifs at hv with h1 h2 h3
    omega

/-- **C07 is false, whole run:** every CBO dynamic with `M ≥ 2` runs whose only criterion is the stagnation criterion raises in the second
check of `optimize()`, whatever the objective, ensemble, `patience` and threshold. -/
theorem C07_optimize_false (env : Env K V) (he : EnvOK env) (hp : PermOK env) (a : Args K V) (s₀ : St K V)
    (h0 : init env a = .ok s₀) (hsi : 1 ≤ a.saveInt) (hM : 2 ≤ a.x0.rows) (p : ℕ) (th : Flt K)
    (ht : a.terms = [.energyStag p th none]) (fuel : ℕ) :
    ∃ e, optimize env (cboInner env) (fuel + 2) s₀ = .raised e := by
  have e1 : s₀.cons = none ∧ s₀.terms = a.terms ∧ s₀.M = a.x0.rows ∧ s₀.saveInt = a.saveInt := by
    have h := h0
    unfold init at h
    split_ifs at h <;> (injection h with h; rw [← h]; exact ⟨rfl, rfl, rfl, rfl⟩)
  have w0 := init_wf hp h0
  -- the first check
  have hsel : ∃ q, selectActive env s₀ = .ok q ∧ q.active = List.range s₀.M ∧
      ∃ L, q.terms = [.energyStag p th L] := by
    refine ⟨_, by
      simp only [selectActive, e1.2.1, ht, evalTerms, evalTerm, evalStag, e1.1, bind, Except.bind, pure, Except.pure]
      rfl, ?_, _, rfl⟩
    simp
  obtain ⟨q, hq, hqa, L, hqt⟩ := hsel
  have wq := select_wf w0 hq
  have hqs : q.saveInt ≠ 0 := by rw [select_frame hq]; simp only; rw [e1.2.2.2]; omega
  have hlen : q.active.length = a.x0.rows := by rw [hqa, List.length_range, e1.2.2.1]
  have hne : ¬ q.active.length = 0 := by omega
  by_cases hnon : NonEmpty env q
  swap
  · unfold NonEmpty at hnon
    push Not at hnon
    have := step_empty (move := cboMove env) hp wq hnon.1 (.inr (hnon.2 (by intro h; rw [h] at hne; simp at hne)))
    rw [← cboInner_eq] at this
    simp only [optimize, hq, if_neg hne, this]
    exact ⟨_, rfl⟩
  obtain ⟨u, hu⟩ := cboStep_total he hp wq hqs hnon
  obtain ⟨pp, hpp⟩ := he.sched u
  have fu := step_frame (consThen_frame (cboMove_ok env)) hu
  obtain ⟨c, hc, -⟩ := step_cons (cboMove_ok env) hp wq hu
  simp only [optimize, hq, if_neg hne, hu]
  have hs : schedUpdate env u = .ok {u with alpha := pp.alpha, lamda := pp.lamda, sigma := pp.sigma, dt := pp.dt} := by
    simp only [schedUpdate, hpp]; rfl
  rw [hs]
  simp only
  obtain ⟨e, he'⟩ := C07_false env {u with alpha := pp.alpha, lamda := pp.lamda, sigma := pp.sigma, dt := pp.dt}
    p th L 0 (by simp only; rw [fu.terms, hqt]; rfl) c hc (by simp only; rw [fu.active]; omega)
  rw [he']
  exact ⟨e, rfl⟩

/-- C07: the two-run example raises. -/
example : (match optimize Example.env (cboInner Example.env) 5 (Example.start [.energyStag 2 (.fin 5) none] none) with
    | .raised e => decide (e = Err.value)
    | _ => false) = true := by decide +kernel

/-- **C07 (partial):** with a single run that is active, one consensus point per run and `patience ≥ 1`, the criterion
never raises. Missing: several runs, where the property is false (`C07_false`). -/
theorem C07_single_partial (env : Env K V) (s : St K V) (p : ℕ) (hp1 : 1 ≤ p) (th : Flt K)
    (L : Option (ℕ → ℕ → Flt K)) (ha : s.active = [0])
    (hc : ∀ c, s.cons = some c → c.rows = 1 ∧ c.cols = 1) :
    ∃ v, evalTerm env (.energyStag p th L) s = .ok v := by
  simp only [evalTerm, evalStag]
  cases h : s.cons with
  | none => exact ⟨_, rfl⟩
  | some c =>
    obtain ⟨h1, h2⟩ := hc c h
    simp only [ha]
    rw [if_pos (by simp [h1]), if_neg (by omega), if_pos (by simp [h2])]
    exact ⟨_, rfl⟩

/-- C07_single_partial: the example state satisfies the requirements after one step. -/
example : (match execAll Example.env (cboInner Example.env) [.select, .step] (Example.start1 [.energyStag 2 (.fin 5) none]) with
    | .ok s => decide (s.active = [0]) && (match s.cons with | some c => decide (c.rows = 1 ∧ c.cols = 1) | none => false)
    | _ => false) = true := by decide +kernel

/-- **C08 (partial):** `reset()` restarts the counter and the clock, keeps the ensemble, and clears the history to
the start; afterwards `max_it` (`n ≥ 1`) and `max_time` (`T > 0`) do not fire. Missing: the other criteria, see `C08_false`. -/
theorem C08_reset_partial (env : Env K V) (s : St K V) :
    (reset s).it = 0 ∧ (reset s).t = 0 ∧ (reset s).x = s.x ∧ (reset s).energy = s.energy ∧
    (reset s).hist .energy = [] ∧
    (∀ m n, 1 ≤ n → ¬ Fires env (reset s) m (.maxIt (some n))) ∧
    (∀ m T, 0 < T → ¬ Fires env (reset s) m (.maxTime T)) := by
  refine ⟨rfl, rfl, rfl, rfl, rfl, ?_, ?_⟩
  · intro m n hn
    simp only [Fires]
    rintro ⟨k, hk, hle⟩
    injection hk with hk
    have : (reset s).it = 0 := rfl
    omega
  · intro m T hT
    simp only [Fires, not_not]
    exact hT

/-- **C08 (partial), whole run:** with `max_it = n` as the only criterion, `reset()` followed by `optimize()` performs exactly `n`
steps again, whatever happened before (any state, also one in which `it ≥ n`). -/
theorem C08_rerun_partial (env : Env K V) (inner : St K V → Except Err (St K V)) (hi : InnerFrame inner) (n fuel : ℕ)
    (s s' : St K V) (ht : s.terms = [.maxIt (some n)]) (hM : 0 < s.M)
    (h : optimize env inner fuel (reset s) = .done s') :
    s'.it = n ∧ ∃ q, execAll env inner (rounds n) (reset s) = .ok q ∧ selectActive env q = .ok s' := by
  obtain ⟨q, h1, h2, h3⟩ := C01_max_it_exact env inner hi n fuel (reset s) s' ht hM h
  have e0 : (reset s).it = 0 := rfl
  rw [e0] at h1 h3
  exact ⟨by omega, q, h1, h2⟩

/-- C08_rerun_partial: the example runs 3 steps, is reset and runs 3 steps again. -/
example : (match optimize Example.env (cboInner Example.env) 5 (Example.start [.maxIt (some 3)] none) with
    | .done s => decide (s.it = 3 ∧ 0 < s.M) && (match optimize Example.env (cboInner Example.env) 5 (reset s) with
      | .done s' => decide (s'.it = 3)
      | _ => false)
    | _ => false) = true := by decide +kernel

/-- **C08 is false:** if every run was stopped by `energy_tol`, `diff_tol` or `max_eval`, then `reset()` followed by
`optimize()` performs no step at all: it returns in the first check with `it = 0` and unchanged positions. -/
theorem C08_false (env : Env K V) (inner : St K V → Except Err (St K V)) (s : St K V)
    (hst : ∀ tm ∈ s.terms, Stateless tm)
    (hf : ∀ m < s.M, ∃ tm ∈ s.terms, Fires env s m tm ∧
      ((∃ t, tm = .energyTol t) ∨ (∃ t, tm = .diffTol t) ∨ ∃ n, tm = .maxEval n)) (fuel : ℕ) :
    ∃ s', optimize env inner (fuel + 1) (reset s) = .done s' ∧ s'.it = 0 ∧ s'.x = s.x := by
  obtain ⟨s', h1, es, hact, -⟩ := select_stateless (env := env) (s := reset s) hst
  have hnil : s'.active = [] := by
    rw [List.eq_nil_iff_forall_not_mem]
    intro m hm
    obtain ⟨hM, hno⟩ := (hact m).1 hm
    obtain ⟨tm, htm, hfire, hk⟩ := hf m hM
    apply hno tm htm
    rcases hk with ⟨t, rfl⟩ | ⟨t, rfl⟩ | ⟨n, rfl⟩ <;> exact hfire
  refine ⟨s', ?_, by rw [es]; rfl, by rw [es]; rfl⟩
  simp only [optimize, h1, hnil]
  rfl

/-- C08_false: in the example both runs reach the energy tolerance after a few steps; after `reset()`, `optimize()` does
nothing. The hypothesis of `C08_false` holds for the final state. -/
example : (match optimize Example.env (cboInner Example.env) 20 (Example.start [.energyTol (.fin 20)] none) with
    | .done s => decide (1 ≤ s.it ∧ s.M = 2 ∧ Flt.lt (s.fMin 0) (.fin 20) = true ∧ Flt.lt (s.fMin 1) (.fin 20) = true) &&
      (match optimize Example.env (cboInner Example.env) 20 (reset s) with
        | .done s' => decide (s'.it = 0)
        | _ => false)
    | _ => false) = true := by decide +kernel

end Verif
