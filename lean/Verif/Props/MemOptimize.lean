import Verif.Proofs.MemTotal
import Verif.Proofs.MemCount
import Verif.Props.Memory
import Verif.Props.MemCount
import Verif.Props.Resume

/-! Properties C01, C02, C04, C05, C11, C12, C13, C19, C77 for whole calls of `optimize` of `CBOMemory` and `PSO`. -/

set_option linter.unusedSectionVars false

namespace Verif

section
variable {K V : Type} [Zero K] [One K] [Neg K] [Add K] [Sub K] [Mul K] [Inv K] [Div K] [NatCast K] [Pow K ℕ] [LinearOrder K] [Add V] [Sub V] [SMul K V]

/-- **C01 (CBOMemory, PSO).** With `max_it = n` among the criteria, `optimize` returns or raises within `n - it + 1` checks; if it returns, it has made some number
`k ≤ n - it` of steps and `it = it₀ + k`; if `max_it = n` is the only criterion, it has made exactly `n - it` steps. -/
theorem C01_memory (env : Env K V) (lm sm : K) (p : PsoPar K) (stp : St K V → Except Err (St K V)) (hstp : stp ∈ memSteps env lm sm p)
    (n fuel : ℕ) (s : St K V) (hn : Term.maxIt (some n) ∈ s.terms) (hf : n - s.it < fuel) :
    ((∃ e, optimizeBy env stp fuel s = .raised e) ∨
      ∃ s', optimizeBy env stp fuel s = .done s' ∧ ∃ k ≤ n - s.it, ∃ q, execAllBy env stp (rounds k) s = .ok q ∧ selectActive env q = .ok s' ∧
        s'.it = s.it + k ∧ s'.active = []) ∧
    (s.terms = [.maxIt (some n)] → 0 < s.M → ∀ s', optimizeBy env stp fuel s = .done s' → s'.it = max n s.it) := by
  refine ⟨maxIt_by env stp (memSteps_frame stp hstp) n fuel s hn hf, fun ht hM s' h => ?_⟩
  obtain ⟨q, -, -, h3⟩ := maxIt_exact_by env stp (memSteps_frame stp hstp) n fuel s s' ht hM h
  exact h3

/-- **C02 (CBOMemory, PSO).** When `optimize` returns, every run satisfies one of the criteria, and its `term_reason` names one it satisfies. -/
theorem C02_memory (env : Env K V) (lm sm : K) (p : PsoPar K) (stp : St K V → Except Err (St K V)) (hstp : stp ∈ memSteps env lm sm p)
    (hcu : ∀ i q q' m, q' = ({ q with active := q'.active, reason := q'.reason } : St K V) → env.custom i q m = env.custom i q' m)
    (fuel : ℕ) (s s' : St K V) (hs : ∀ tm ∈ s.terms, Stateless tm) (h : optimizeBy env stp fuel s = .done s') :
    ∀ m < s'.M, ∃ l i tm, s'.reason m = some l ∧ i ∈ l ∧ s'.terms[i]? = some tm ∧ Fires env s' m tm :=
  done_by env stp (memSteps_frame stp hstp) fuel s s' hs hcu h

/-- **C05 (CBOMemory, PSO).** With `max_time = T` as the only criterion and a scheduler that leaves `dt > 0` alone, the clock has reached `T` when `optimize` returns, and has
passed it by less than one step if it started before `T`. -/
theorem C05_memory {K V : Type} [Field K] [LinearOrder K] [IsStrictOrderedRing K] [Add V] [Sub V] [SMul K V] (env : Env K V) (lm sm : K) (p : PsoPar K) (stp : St K V → Except Err (St K V)) (hstp : stp ∈ memSteps env lm sm p)
    (T : K) (hsched : ∀ s p, env.sched s = .ok p → p.dt = s.dt) (fuel : ℕ) (s s' : St K V) (ht : s.terms = [.maxTime T]) (hM : 0 < s.M) (hdt : 0 < s.dt)
    (h : optimizeBy env stp fuel s = .done s') :
    T ≤ s'.t ∧ (s.t < T → s'.t < T + s.dt) ∧ (T ≤ s.t → s'.t = s.t) ∧ ∃ k : ℕ, s'.t = s.t + k * s.dt ∧ s'.it = s.it + k := by
  obtain ⟨h1, -, h2, h3, h4⟩ := maxTime_by env stp (memSteps_frame stp hstp) T hsched fuel s s' ht hM hdt h
  exact ⟨h1, h2, h3, h4⟩

/-- **C77 (partial, CBOMemory).** As for the other dynamics: stopping with `max_it` or `max_time` and calling `optimize()` again with a larger bound gives the same final state or
exception as one call; every finished call can be split in this way; if the call with the smaller bound raises, so does the single call. Missing: `energy_stagnation`. -/
theorem C77_memory_partial (env : Env K V) (he : env.Plain) (lm sm : K) (T T' : List (Term K)) (hT : ∀ tm ∈ T, Stateless tm) (hT' : ∀ tm ∈ T', Stateless tm)
    (a b : Term K) (hab : Later a b) (s : St K V) :
    (∀ s1 fuel1 fuel2 o, o ≠ Outcome.outOfFuel → optimizeBy env (memStep env lm sm) fuel1 (s.withTerms (T ++ a :: T')) = .done s1 →
      optimizeBy env (memStep env lm sm) fuel2 (s1.withTerms (T ++ b :: T')) = o →
      ∀ fuel ≥ fuel1 + fuel2, optimizeBy env (memStep env lm sm) fuel (s.withTerms (T ++ b :: T')) = o) ∧
    (∀ s2 fuel, optimizeBy env (memStep env lm sm) fuel (s.withTerms (T ++ b :: T')) = .done s2 →
      ∃ s1, optimizeBy env (memStep env lm sm) fuel (s.withTerms (T ++ a :: T')) = .done s1 ∧
        ∃ fuel2, optimizeBy env (memStep env lm sm) fuel2 (s1.withTerms (T ++ b :: T')) = .done s2) ∧
    (∀ fuel e, optimizeBy env (memStep env lm sm) fuel (s.withTerms (T ++ a :: T')) = .raised e →
      optimizeBy env (memStep env lm sm) fuel (s.withTerms (T ++ b :: T')) = .raised e) := by
  have key := fun fuel => optimize_resume_by he (fun _ _ h => memStep_frame (env := env) (lm := lm) (sm := sm) h) (memStep_tweak he lm sm) hT hT' hab fuel s s.reason s.reason
    s.active s.active (fun _ _ => rfl)
  refine ⟨fun s1 fuel1 fuel2 o ho h1 h2 fuel hf => ?_, fun s2 fuel h => ?_, fun fuel e h => (key fuel).2.1 e h⟩
  · obtain ⟨k, hk, hk'⟩ := (key fuel1).1 s1 h1 fuel2
    rw [h2] at hk'
    have hne : optimizeBy env (memStep env lm sm) (fuel2 + k) (s.set3 (T ++ b :: T') s.reason s.active) ≠ .outOfFuel := by rw [hk']; exact ho
    have := optimize_more_by (fuel2 + k) (fuel - (fuel2 + k)) _ hne
    rw [show fuel2 + k + (fuel - (fuel2 + k)) = fuel by omega, hk'] at this
    exact this
  · obtain ⟨r1, r2, r3⟩ := key fuel
    have h' : optimizeBy env (memStep env lm sm) fuel (s.set3 (T ++ b :: T') s.reason s.active) = .done s2 := h
    cases h1 : optimizeBy env (memStep env lm sm) fuel (s.withTerms (T ++ a :: T')) with
    | outOfFuel => rw [r3 h1] at h'; exact nomatch h'
    | raised e => rw [r2 e h1] at h'; exact nomatch h'
    | done s1 =>
      obtain ⟨k, -, hk⟩ := r1 s1 h1 fuel
      refine ⟨s1, rfl, fuel, ?_⟩
      rw [← hk, optimize_more_by fuel k _ (by rw [h']; exact fun h => (nomatch h)), h']

end

section
variable {K V : Type} [Zero K] [One K] [Neg K] [Add K] [Sub K] [Mul K] [Inv K] [Div K] [NatCast K] [Pow K ℕ] [LinearOrder K] [Add V] [Sub V] [SMul K V]

/-- **C12 (whole call of `optimize`).** If `optimize` of `CBOMemory` or `PSO` returns, the memory is right, with one ensemble evaluated per step and one at the start; every step
was made with an active run. -/
theorem C12_optimize [MaskExact K V] (env : Env K V) (hpost : PostOK env) (lm sm : K) (p : PsoPar K) (a : Args K V) (ha : a.aux1 = id)
    (hperm : PermOK env) (hb : a.batchSize ≠ some 0) (s₀ s : St K V) (fuel : ℕ) (h0 : memInit env a = .ok s₀)
    (h : optimizeBy env (memStep env lm sm) fuel s₀ = .done s ∨ optimizeBy env (psoStep env p) fuel s₀ = .done s) (hn : NoNaN env.f s) :
    ∃ traj, HistBest env.f a.x0 s.it s traj := by
  rcases h with h | h
  · obtain ⟨ops, h1, h2, -, h3⟩ := optimizeBy_ops (fun _ _ h => memStep_frame h) h
    rw [(memInit_facts h0).2.2.2.1, Nat.zero_add] at h3
    rw [h3]
    exact C12_memory env hpost lm sm a ha hperm hb s₀ s ops h0 h2 h1 hn
  · obtain ⟨ops, h1, h2, -, h3⟩ := optimizeBy_ops (fun _ _ h => psoStep_frame h) h
    rw [(memInit_facts h0).2.2.2.1, Nat.zero_add] at h3
    rw [h3]
    exact C12_pso env hpost p a ha hperm hb s₀ s ops h0 h2 h1 hn

/-- **C11 (partial, whole call of `optimize`).** After `optimize` has returned and made at least one step, `best_energy[m]` is the minimum of all evaluations of run `m` and is
attained by the historical best position `y[m, f_min_idx[m]]`. Missing: that `best_particle[m]` attains it, which is false (`C11_memory_false`, `C11_pso_false`). -/
theorem C11_optimize_partial [MaskExact K V] (env : Env K V) (hpost : PostOK env) (lm sm : K) (p : PsoPar K) (a : Args K V) (ha : a.aux1 = id)
    (hperm : PermOK env) (hb : a.batchSize ≠ some 0) (s₀ s : St K V) (fuel : ℕ) (h0 : memInit env a = .ok s₀)
    (h : optimizeBy env (memStep env lm sm) fuel s₀ = .done s ∨ optimizeBy env (psoStep env p) fuel s₀ = .done s) (hn : NoNaN env.f s)
    (hk : s.it ≠ 0) (m : ℕ) (hm : m < s.M) :
    IsBest env.f s m (s.bestE m) ∧ s.fMinIdx m < s.N ∧ env.f (s.aux1.get m (s.fMinIdx m)) = s.bestE m := by
  rcases h with h | h
  · obtain ⟨ops, h1, h2, -, h3⟩ := optimizeBy_ops (fun _ _ h => memStep_frame h) h
    rw [(memInit_facts h0).2.2.2.1, Nat.zero_add] at h3
    exact C11_partial env hpost lm sm p a ha hperm hb s₀ s ops h0 (.inl ⟨h2, h1⟩) hn (List.count_pos_iff.1 (by omega)) m hm
  · obtain ⟨ops, h1, h2, -, h3⟩ := optimizeBy_ops (fun _ _ h => psoStep_frame h) h
    rw [(memInit_facts h0).2.2.2.1, Nat.zero_add] at h3
    exact C11_partial env hpost lm sm p a ha hperm hb s₀ s ops h0 (.inr ⟨h2, h1⟩) hn (List.count_pos_iff.1 (by omega)) m hm

/-- **C13 (memory dynamics, whole call).** After `optimize` has returned, every run has been charged `N` evaluations for the constructor, `N` more if the constructor checks the
objective, and `N` for each of the `it` steps; this is the number of points of that run on which the objective was really called. -/
theorem C13_memory_optimize [MaskExact K V] (env : Env K V) (hc : ∀ g, env.corr ≠ .heavi g) (hpost : PostOK env) (lm sm : K) (p : PsoPar K) (a : Args K V) (ha : a.aux1 = id)
    (hperm : PermOK env) (hb : a.batchSize ≠ some 0) (ht : ∀ tm ∈ a.terms, Stateless tm) (s₀ s : St K V) (fuel : ℕ) (h0 : memInit env a = .ok s₀)
    (h : optimizeBy env (memStep env lm sm) fuel s₀ = .done s ∨ optimizeBy env (psoStep env p) fuel s₀ = .done s) :
    (∀ m < a.x0.rows, s.nEval m = ((if a.checkF then 2 else 1) + s.it) * a.x0.cols) ∧ ∀ m < s.M, s.nEval m = evalCount s m := by
  rcases h with h | h
  · obtain ⟨ops, h1, h2, -, h3⟩ := optimizeBy_ops (fun _ _ h => memStep_frame h) h
    rw [(memInit_facts h0).2.2.2.1, Nat.zero_add] at h3
    rw [h3]
    exact ⟨C13_memory_closed env hc hpost lm sm p a ha hperm hb ht s₀ s ops h0 (.inl ⟨h2, h1⟩),
      (C13_memory_partial env hc hpost lm sm p a ha hperm hb s₀ s ops h0 (.inl ⟨h2, h1⟩)).1⟩
  · obtain ⟨ops, h1, h2, -, h3⟩ := optimizeBy_ops (fun _ _ h => psoStep_frame h) h
    rw [(memInit_facts h0).2.2.2.1, Nat.zero_add] at h3
    rw [h3]
    exact ⟨C13_memory_closed env hc hpost lm sm p a ha hperm hb ht s₀ s ops h0 (.inr ⟨h2, h1⟩),
      (C13_memory_partial env hc hpost lm sm p a ha hperm hb s₀ s ops h0 (.inr ⟨h2, h1⟩)).1⟩

/-- **C19 (partial, CBOMemory).** No batching, no correction, built-in noise other than covariance noise, one consensus point per run. If there is only one run, or all criteria
read only the iteration counter or the clock, so that all runs stop together, then `optimize` never raises. Missing: criteria that stop the runs at different times
(`C19_memory_stopped_false`) and batching. -/
theorem C19_memory_partial (env : Env K V) (he : EnvOK env) (lm sm : K) (a : Args K V) (hb : batchSizeOf a.batchSize a.x0.cols = a.x0.cols)
    (hsi : a.saveInt ≠ 0) (hst : ∀ tm ∈ a.terms, Stateless tm) (hu : a.x0.rows = 1 ∨ ∀ tm ∈ a.terms, RunBlind tm)
    (s₀ : St K V) (h0 : memInit env a = .ok s₀) (fuel : ℕ) (e : Err) : optimizeBy env (memStep env lm sm) fuel s₀ ≠ .raised e := by
  obtain ⟨i1, -, i3, -⟩ := memInit_nEval h0
  obtain ⟨j1, j2, -⟩ := memInit_facts h0
  exact optimizeBy_not_raised (fun _ _ w a h => mem_histStep_plain he.postOK w a h) he.sched hst hu (Q := fun _ => True) (Q₀ := fun _ => True) (fun _ _ _ h => h) (fun _ _ _ h => h)
    (fun s w full hsi _ => by
      obtain ⟨s', hs'⟩ := memStep_total he lm sm w full hsi
      exact ⟨s', hs', trivial⟩) fuel s₀ (memInit_plain hb h0) i1 i3 (by rw [j2]; exact hsi) trivial e

/-- **C19 (partial, PSO).** The same for `PSO`, if `m + gamma*dt` is not zero for the initial `dt` and every `dt` set by the scheduler (else the velocities are divided by zero).
Missing: as in `C19_memory_partial`. -/
theorem C19_pso_partial (env : Env K V) (he : EnvOK env) (p : PsoPar K) (a : Args K V) (hb : batchSizeOf a.batchSize a.x0.cols = a.x0.cols)
    (hsi : a.saveInt ≠ 0) (hst : ∀ tm ∈ a.terms, Stateless tm) (hu : a.x0.rows = 1 ∨ ∀ tm ∈ a.terms, RunBlind tm)
    (hz : p.m + p.gamma * a.dt ≠ 0) (hz' : ∀ s q, env.sched s = .ok q → p.m + p.gamma * q.dt ≠ 0)
    (s₀ : St K V) (h0 : memInit env a = .ok s₀) (fuel : ℕ) (e : Err) : optimizeBy env (psoStep env p) fuel s₀ ≠ .raised e := by
  obtain ⟨i1, -, i3, -⟩ := memInit_nEval h0
  obtain ⟨j1, j2, j3, -⟩ := memInit_facts h0
  refine optimizeBy_not_raised (fun _ _ w a h => pso_histStep_plain he.postOK w a h) he.sched hst hu (Q := fun s => VShape s ∧ p.m + p.gamma * s.dt ≠ 0) (Q₀ := VShape)
    (fun s s' h hq => by rw [select_frame h]; exact hq) (fun s s' h hq => ?_)
    (fun s w full hsi hq => psoStep_total he p w hq.1 full hsi hq.2) fuel s₀ (memInit_plain hb h0) i1 i3 (by rw [j2]; exact hsi) ⟨j1, by rw [j3]; exact hz⟩ e
  simp only [schedUpdate, bind_ok, pure_ok] at h
  obtain ⟨q, hq', rfl⟩ := h
  exact ⟨hq, hz' _ _ hq'⟩

/-- **C19 is false for `CBOMemory` and `PSO` with several runs:** as soon as a check finds a run that satisfies a criterion and another one that satisfies none, `optimize` raises. -/
theorem C19_memory_stopped_false (env : Env K V) (hpost : PostOK env) (hperm : PermOK env) (lm sm : K) (p : PsoPar K) (fuel : ℕ) (s : St K V) (w : MemShape s)
    (hs : ∀ tm ∈ s.terms, Stateless tm) (m m' : ℕ) (hm : m < s.M) (hm' : m' < s.M) (h1 : ∃ tm ∈ s.terms, Fires env s m tm)
    (h2 : ∀ tm ∈ s.terms, ¬ Fires env s m' tm) :
    (∃ e, optimizeBy env (memStep env lm sm) (fuel + 1) s = .raised e) ∧ ∃ e, optimizeBy env (psoStep env p) (fuel + 1) s = .raised e :=
  ⟨optimizeBy_stopped (fun _ _ w a h => mem_histStep hpost hperm w a h) fuel w hs hm hm' h1 h2,
    optimizeBy_stopped (fun _ _ w a h => pso_histStep hpost hperm w a h) fuel w hs hm hm' h1 h2⟩

/-- **C04 (partial, CBOMemory and PSO).** Without a Heaviside correction and with criteria that do not evaluate the objective: when `optimize` returns, no run has been charged more
than `n + (N - B)` evaluations for `max_eval = n` and batch size `B` (or the number it started with), and if `max_eval` is the only criterion, `B` more evaluations would not fit into
the budget. Without batches `B = N`, so the budget is kept. Missing: as in `C04_optimize_partial`, and the budget itself with batches, see `C04_memory_batch_false`. -/
theorem C04_memory_partial (env : Env K V) (hc : ∀ g, env.corr ≠ .heavi g) (hpost : PostOK env) (lm sm : K) (p : PsoPar K) (a : Args K V) (ha : a.aux1 = id)
    (hperm : PermOK env) (hb : a.batchSize ≠ some 0) (ht : ∀ tm ∈ a.terms, Stateless tm) (n : ℕ) (hn : Term.maxEval n ∈ a.terms) (s₀ s : St K V) (fuel : ℕ)
    (h0 : memInit env a = .ok s₀)
    (h : optimizeBy env (memStep env lm sm) fuel s₀ = .done s ∨ optimizeBy env (psoStep env p) fuel s₀ = .done s) :
    (∀ m < a.x0.rows, s.nEval m ≤ max (n + (a.x0.cols - batchSizeOf a.batchSize a.x0.cols)) ((if a.checkF then 2 else 1) * a.x0.cols)) ∧
      (a.terms = [.maxEval n] → ∀ m < a.x0.rows, n < s.nEval m + batchSizeOf a.batchSize a.x0.cols) := by
  obtain ⟨i1, i2, i3, i4⟩ := memInit_nEval h0
  have w := (memInv_init hperm ha hb h0).shape
  have hbs : s₀.batchSize = batchSizeOf a.batchSize a.x0.cols := (memInit_facts h0).2.2.2.2
  have key : (∀ m < s₀.M, s.nEval m ≤ max (n + (s₀.N - s₀.batchSize)) (s₀.nEval m)) ∧
      (s₀.terms = [.maxEval n] → ∀ m < s₀.M, n < s.nEval m + s₀.batchSize) := by
    rcases h with h | h
    · exact maxEval_by (fun _ _ w a h => ⟨mem_histStep hpost hperm w a h, mem_charge hperm hc w a h⟩) n fuel s₀ s w (by rw [i3]; exact ht) (by rw [i3]; exact hn) h
    · exact maxEval_by (fun _ _ w a h => ⟨pso_histStep hpost hperm w a h, pso_charge hperm hc w a h⟩) n fuel s₀ s w (by rw [i3]; exact ht) (by rw [i3]; exact hn) h
  rw [i1, i2, i3, hbs] at key
  exact ⟨fun m hm => by rw [← i4 m]; exact key.1 m hm, key.2⟩

/-- **C04 is false for `CBOMemory` and `PSO` with batches.** The check of `max_eval` adds `batch_size = B` to the evaluations made, but a step of either dynamic evaluates all `N` particles.
If `B` more evaluations than the constructor made fit into the budget `n` and `N` more do not, and `max_eval` is the only criterion, then whenever `optimize` returns, every run has been
charged more than `n` evaluations, although the first step alone would not have fitted. -/
theorem C04_memory_batch_false [MaskExact K V] (env : Env K V) (hc : ∀ g, env.corr ≠ .heavi g) (hpost : PostOK env) (lm sm : K) (p : PsoPar K) (a : Args K V) (ha : a.aux1 = id)
    (hperm : PermOK env) (hb : a.batchSize ≠ some 0) (n : ℕ) (ht : a.terms = [.maxEval n])
    (h1 : (if a.checkF then 2 else 1) * a.x0.cols + batchSizeOf a.batchSize a.x0.cols ≤ n) (h2 : n < (if a.checkF then 2 else 1) * a.x0.cols + a.x0.cols)
    (s₀ s : St K V) (fuel : ℕ) (h0 : memInit env a = .ok s₀)
    (h : optimizeBy env (memStep env lm sm) fuel s₀ = .done s ∨ optimizeBy env (psoStep env p) fuel s₀ = .done s) (m : ℕ) (hm : m < a.x0.rows) :
    n < s.nEval m := by
  have hst : ∀ tm ∈ a.terms, Stateless tm := by rw [ht]; simp [Stateless]
  have e1 := (C04_memory_partial env hc hpost lm sm p a ha hperm hb hst n (by rw [ht]; simp) s₀ s fuel h0 h).2 ht m hm
  have e2 := (C13_memory_optimize env hc hpost lm sm p a ha hperm hb hst s₀ s fuel h0 h).1 m hm
  cases hi : s.it with
  | zero => rw [hi, Nat.add_zero] at e2; omega
  | succ k =>
    rw [hi, Nat.add_mul, Nat.succ_mul] at e2
    omega

end

/-- Two runs of three particles. -/
def Example.memDone (stp : St ℚ ℚ → Except Err (St ℚ ℚ)) (ts : List (Term ℚ)) (chk : St ℚ ℚ → Bool) : Bool :=
  match memInit Example.memEnv (Example.memArgs ts) with
  | .ok s => match optimizeBy Example.memEnv stp 9 s with
    | .done s => chk s
    | _ => false
  | .error _ => false

/-- C01, C02, C05, C11, C12, C13, C04: all hypotheses hold for two runs of three particles; both dynamics return after three steps with `max_it = 3`, after three steps of
`dt = 1/2` with `max_time = 11/10`, and after one step with `max_eval = 10` (the constructor uses six evaluations per run). -/
example : PostOK Example.memEnv ∧ (∀ s, NoNaN Example.memEnv.f s) ∧ (∀ g, Example.memEnv.corr ≠ .heavi g) ∧
    (∀ ts, (Example.memArgs ts).aux1 = id ∧ (Example.memArgs ts).terms = ts ∧
      batchSizeOf (Example.memArgs ts).batchSize (Example.memArgs ts).x0.cols = (Example.memArgs ts).x0.cols) ∧
    (∀ stp ∈ memSteps Example.memEnv (2/5) (1/10) Example.psoPar,
      Example.memDone stp [.maxIt (some 3)] (fun s => decide (s.it = 3 ∧ s.M = 2 ∧ s.nEval 1 = 15 ∧ s.reason 1 = some [0])) = true ∧
      Example.memDone stp [.maxTime (11/10)] (fun s => decide (s.it = 3 ∧ s.t = 3/2)) = true ∧
      Example.memDone stp [.maxEval 10] (fun s => decide (s.it = 1 ∧ s.nEval 0 = 9)) = true) := by
  refine ⟨memEnv_ok.1, memEnv_ok.2.2.1, fun g h => by simp [Example.memEnv, Example.env] at h, fun _ => ⟨rfl, rfl, rfl⟩, ?_⟩
  intro stp h
  simp only [memSteps, List.mem_cons, List.not_mem_nil, or_false] at h
  rcases h with rfl | rfl
  · exact ⟨by decide +kernel, by decide +kernel, by decide +kernel⟩
  · exact ⟨by decide +kernel, by decide +kernel, by decide +kernel⟩

/-- C19: the example fulfils the requirements of both positive theorems, with criteria that stop all runs together. -/
example : EnvOK Example.memEnv ∧ (∀ tm ∈ [Term.maxIt (some 3), .maxTime (7 : ℚ)], RunBlind tm ∧ Stateless tm) ∧
    (Example.memArgs [.maxIt (some 3), .maxTime 7]).saveInt ≠ 0 ∧ Example.psoPar.m + Example.psoPar.gamma * (Example.memArgs []).dt ≠ 0 := by
  refine ⟨⟨rfl, ⟨_, rfl⟩, memEnv_ok.2.1, fun s => ⟨_, rfl, rfl, rfl⟩, fun s => ⟨_, rfl⟩⟩, ?_, by decide, by decide +kernel⟩
  simp [RunBlind, Stateless]

/-- C19_memory_stopped_false: after one step of `CBOMemory`, run 0 of the example is below the energy tolerance, run 1 is not; the next step raises. -/
example : (match memInit Example.memEnv (Example.memArgs [.energyTol (.fin (1/10)), .maxIt (some 4)]) with
    | .ok s => (match memStep Example.memEnv (2/5) (1/10) s with
      | .ok s => decide (Flt.lt (s.fMin 0) (.fin (1/10)) = true ∧ Flt.lt (s.fMin 1) (.fin (1/10)) = false ∧ s.it = 1 ∧ s.M = 2) &&
        (match optimizeBy Example.memEnv (memStep Example.memEnv (2/5) (1/10)) 9 s with | .raised _ => true | _ => false)
      | .error _ => false)
    | .error _ => false) = true := by decide +kernel

/-- The callables of the example do not read criteria or reasons. -/
theorem Example.memEnv_plain : Example.memEnv.Plain where
  ignores T R := ⟨fun _ => rfl, fun _ => rfl, fun _ h => (nomatch h)⟩
  sched _ _ _ := rfl
  custom _ _ _ _ := rfl
  customTR _ _ _ _ _ := rfl

/-- C77: two steps of `CBOMemory`, then two more. -/
example : Example.memEnv.Plain ∧ Later (K := ℚ) (.maxIt (some 2)) (.maxIt (some 4)) ∧
    Example.memDone (memStep Example.memEnv (2/5) (1/10)) [.maxIt (some 2)] (fun s => decide (s.it = 2) &&
      (match optimizeBy Example.memEnv (memStep Example.memEnv (2/5) (1/10)) 9 (s.withTerms ([] ++ .maxIt (some 4) :: [])) with
      | .done s => decide (s.it = 4)
      | _ => false)) = true := ⟨Example.memEnv_plain, .maxIt (by decide), by decide +kernel⟩

end Verif
