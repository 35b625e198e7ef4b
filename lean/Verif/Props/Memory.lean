import Verif.Proofs.Memory
import Mathlib.Tactic.Positivity
import Mathlib.Tactic.Abel

/-! Properties C11, C12: historical best positions and best particle of `CBOMemory` and `PSO`. -/

set_option linter.unusedSectionVars false

namespace Verif

section
variable {K V : Type} [Zero K] [One K] [Neg K] [Add K] [Sub K] [Mul K] [Inv K] [Div K] [NatCast K] [Pow K ℕ] [LinearOrder K] [Add V] [Sub V] [SMul K V]

/-- **C12 (CBOMemory).** With `y = copy(x)`, with or without batches, after construction and any sequence of operations in which `step` is only called while a
run is active, the evaluated ensembles are a list `traj` starting with the initial one and growing by one per step; for each particle `energy[m,n]` is the
minimum of the objective over `traj`, `y[m,n]` is a position on `traj`, and `f(y[m,n]) = energy[m,n]`. -/
theorem C12_memory [MaskExact K V] (env : Env K V) (hpost : PostOK env) (lm sm : K) (a : Args K V) (ha : a.aux1 = id)
    (hperm : PermOK env) (hb : a.batchSize ≠ some 0) (s₀ s : St K V) (ops : List Op) (h0 : memInit env a = .ok s₀)
    (hl : Live env (memStep env lm sm) ops s₀) (h : execAllBy env (memStep env lm sm) ops s₀ = .ok s) (hn : NoNaN env.f s) :
    ∃ traj, HistBest env.f a.x0 (ops.count .step) s traj := by
  have := memInv_execAll (fun _ _ w a h => mem_histStep hpost hperm w a h) hl (memInv_init hperm ha hb h0) h
  obtain ⟨traj, h1, -⟩ := this.hist hn
  exact ⟨traj, by simpa using h1⟩

/-- **C12 (PSO).** The same for particle swarm optimisation. -/
theorem C12_pso [MaskExact K V] (env : Env K V) (hpost : PostOK env) (p : PsoPar K) (a : Args K V) (ha : a.aux1 = id)
    (hperm : PermOK env) (hb : a.batchSize ≠ some 0) (s₀ s : St K V) (ops : List Op) (h0 : memInit env a = .ok s₀)
    (hl : Live env (psoStep env p) ops s₀) (h : execAllBy env (psoStep env p) ops s₀ = .ok s) (hn : NoNaN env.f s) :
    ∃ traj, HistBest env.f a.x0 (ops.count .step) s traj := by
  have := memInv_execAll (fun _ _ w a h => pso_histStep hpost hperm w a h) hl (memInv_init hperm ha hb h0) h
  obtain ⟨traj, h1, -⟩ := this.hist hn
  exact ⟨traj, by simpa using h1⟩

/-- **C12 (several runs).** With at least two runs no assumption on the operations is needed. -/
theorem C12_many [MaskExact K V] (env : Env K V) (hpost : PostOK env) (lm sm : K) (p : PsoPar K) (a : Args K V) (ha : a.aux1 = id)
    (hperm : PermOK env) (hb : a.batchSize ≠ some 0) (hM : 2 ≤ a.x0.rows) (s₀ s : St K V) (ops : List Op) (h0 : memInit env a = .ok s₀)
    (h : execAllBy env (memStep env lm sm) ops s₀ = .ok s ∨ execAllBy env (psoStep env p) ops s₀ = .ok s) (hn : NoNaN env.f s) :
    ∃ traj, HistBest env.f a.x0 (ops.count .step) s traj := by
  have hM' : 2 ≤ s₀.M := by rw [memInit_M h0]; exact hM
  rcases h with h | h
  · exact C12_memory env hpost lm sm a ha hperm hb s₀ s ops h0
      (live_of_two (fun _ _ w a h => mem_histStep hpost hperm w a h) (fun _ _ w a h => mem_active hperm w a h) hM' (memInv_init hperm ha hb h0) h) h hn
  · exact C12_pso env hpost p a ha hperm hb s₀ s ops h0
      (live_of_two (fun _ _ w a h => pso_histStep hpost hperm w a h) (fun _ _ w a h => pso_active hperm w a h) hM' (memInv_init hperm ha hb h0) h) h hn

/-- **C12 (stopped runs).** With at least two runs, neither dynamic can make a step once a run was stopped: the step raises. -/
theorem C12_stopped_raises (env : Env K V) (hpost : PostOK env) (hperm : PermOK env) (lm sm : K) (p : PsoPar K) (s : St K V) (w : MemShape s) (hM : 2 ≤ s.M)
    (hk : s.active.length ≠ s.M) : (∃ e, memStep env lm sm s = .error e) ∧ ∃ e, psoStep env p s = .error e := by
  constructor
  · cases h : memStep env lm sm s with
    | error e => exact ⟨e, rfl⟩
    | ok s' =>
      obtain ⟨X, q⟩ := mem_histStep hpost hperm w (mem_active hperm w hM h) h
      exact absurd q.full hk
  · cases h : psoStep env p s with
    | error e => exact ⟨e, rfl⟩
    | ok s' =>
      obtain ⟨X, q⟩ := pso_histStep hpost hperm w (pso_active hperm w hM h) h
      exact absurd q.full hk

/-- **C11 (partial).** Full claim: `f(best_particle[m]) = best_energy[m]` after every step; it fails, see below. What holds after at least one step of either
dynamic: `best_energy[m]` is the minimum of all evaluations of run `m`, and it is attained by the historical best position `y[m, f_min_idx[m]]`. -/
theorem C11_partial [MaskExact K V] (env : Env K V) (hpost : PostOK env) (lm sm : K) (p : PsoPar K) (a : Args K V) (ha : a.aux1 = id)
    (hperm : PermOK env) (hb : a.batchSize ≠ some 0) (s₀ s : St K V) (ops : List Op) (h0 : memInit env a = .ok s₀)
    (h : (Live env (memStep env lm sm) ops s₀ ∧ execAllBy env (memStep env lm sm) ops s₀ = .ok s) ∨
      (Live env (psoStep env p) ops s₀ ∧ execAllBy env (psoStep env p) ops s₀ = .ok s))
    (hn : NoNaN env.f s) (hk : Op.step ∈ ops) (m : ℕ) (hm : m < s.M) :
    IsBest env.f s m (s.bestE m) ∧ s.fMinIdx m < s.N ∧ env.f (s.aux1.get m (s.fMinIdx m)) = s.bestE m := by
  have hk' : 0 + ops.count .step ≠ 0 := by
    have := List.count_pos_iff.2 hk
    omega
  have key : MemInv env a.x0 (0 + ops.count .step) s := by
    rcases h with ⟨hl, h⟩ | ⟨hl, h⟩
    · exact memInv_execAll (fun _ _ w a h => mem_histStep hpost hperm w a h) hl (memInv_init hperm ha hb h0) h
    · exact memInv_execAll (fun _ _ w a h => pso_histStep hpost hperm w a h) hl (memInv_init hperm ha hb h0) h
  obtain ⟨traj, h1, h2⟩ := key.hist hn
  exact isBest_of hk' key.shape hn h1 h2 m hm

/-- **C11 (partial, CBOMemory).** If post processing does not change the objective value of a particle (e.g. no particle is clipped), then `best_particle[m]`
of `CBOMemory` attains `best_energy[m]` as soon as `best_energy[m]` differs from all energies of the initial particles of that run. -/
theorem C11_memory_partial [MaskExact K V] (env : Env K V) (hpost : PostOK env) (lm sm : K) (a : Args K V) (ha : a.aux1 = id)
    (hid : ∀ q x', env.post q = .ok x' → ∀ m n, env.f (x'.get m n) = env.f (q.x.get m n))
    (hperm : PermOK env) (hb : a.batchSize ≠ some 0) (s₀ s : St K V) (ops : List Op) (h0 : memInit env a = .ok s₀)
    (hl : Live env (memStep env lm sm) ops s₀) (h : execAllBy env (memStep env lm sm) ops s₀ = .ok s)
    (hn : NoNaN env.f s) (hk : Op.step ∈ ops) (m : ℕ) (hm : m < s.M) (hd : ∀ n < s.N, s.bestE m ≠ env.f (a.x0.get m n)) :
    env.f (s.bestP m) = s.bestE m := by
  have hk' : 0 + ops.count .step ≠ 0 := by
    have := List.count_pos_iff.2 hk
    omega
  have key := memInv'_execAll hpost hperm hid hl ⟨memInv_init hperm ha hb h0, fun _ h => absurd rfl h⟩ h
  rcases key.best hn hk' m hm with ⟨n, hn', e⟩ | h
  · exact absurd e (hd n hn')
  · exact h

end

section
variable {K V : Type} [Field K] [LinearOrder K] [AddCommGroup V] [Module K V]

/-- **C61 (what the code computes).** A `PSO` step without noise and without correction (`sigma = sigma_memory = 0`, all runs active, unbatched) moves every particle,
before post processing, by `dt/(m + gamma*dt) * (m*dt*v + lamda*dt*(x - c) + lamda_memory*dt*(x - y))`: away from the consensus point `c` and from the
historical best position `y`. -/
theorem C61_pso_step (env : Env K V) (hcorr : env.corr = .none) (hno : NoiseOK env) (r : List (K × Flt K × V) → V) (hr : env.cons = .mean r)
    (p : PsoPar K) (s s' : St K V) (w : MemPlain s) (vr : s.aux2.rows = s.M) (vc : s.aux2.cols = s.N) (full : s.active.length = s.M)
    (h0 : s.sigma = 0) (h1 : p.sm = 0) (h : psoStep env p s = .ok s') :
    ∃ c v, s'.cons = some c ∧ env.post v = .ok s'.x ∧ ∀ m < s.M, ∀ n < s.N,
      v.x.get m n = s.x.get m n + (s.dt / (p.m + p.gamma * s.dt)) • ((p.m * s.dt) • s.aux2.get m n +
        (s.lamda * s.dt) • (s.x.get m n - c.get m 0) + (p.lm * s.dt) • (s.x.get m n - s.aux1.get m n)) := by
  obtain ⟨v, hv, hb⟩ := (psoStep_shape h).split
  have pf := preStep_frame env s
  obtain ⟨hp, hc⟩ := preStep_full (env := env) w.nob full
  have eM : (preStep env s).M = s.M := by rw [pf]
  have eN : (preStep env s).N = s.N := by rw [pf]
  have ex : (preStep env s).x = s.x := by rw [pf]
  have ey : (preStep env s).aux1 = s.aux1 := by rw [pf]
  have ev : (preStep env s).aux2 = s.aux2 := by rw [pf]
  have ee : (preStep env s).energy = s.energy := by rw [pf]
  have ea : (preStep env s).active = s.active := by rw [pf]
  have eb : (preStep env s).batched = s.batched := by rw [pf]
  have ed : (preStep env s).dt = s.dt := by rw [pf]
  have el : (preStep env s).lamda = s.lamda := by rw [pf]
  have es : (preStep env s).sigma = s.sigma := by rw [pf]
  have w' : MemShape (preStep env s) := by
    refine ⟨?_, ?_, ?_, ?_, ?_, ?_, ?_, ?_, ?_⟩ <;> rw [pf]
    exacts [w.xr, w.xc, w.er, w.ec, w.yr, w.yc, w.act, ⟨fun h => w.pool.1 h, fun h => absurd (w.nob.symm.trans h) (by decide)⟩, w.pos]
  obtain ⟨-, c, h2, h3⟩ := psoInner_position hcorr hno hr w' (by rw [ev, eM, vr]) (by rw [ev, eN, vc]) (by rw [ea, eM, full])
    (by rw [hp, eM, eN]) (by rw [hc, eM, eN]) (by rw [es, h0]) h1 hv
  refine ⟨c, v, by rw [hb.frame]; exact h2, hb.post, fun m hm n hn => ?_⟩
  rw [h3 m (by rw [eM]; exact hm) n (by rw [eN]; exact hn), ed, el, ex, ey, ev, div_eq_mul_inv]

end

/-- **C61 (the distance to the consensus grows).** In the first noise-free step of `PSO` (velocities zero, `y = x`) with positive parameters, every particle
different from the consensus point ends (before post processing) farther away from it than it was, by the factor `1 + lamda*dt^2/(m + gamma*dt)`. -/
theorem C61_repelled {K V : Type} [Field K] [LinearOrder K] [IsStrictOrderedRing K] [AddCommGroup V] [Module K V] (env : Env K V) (hcorr : env.corr = .none) (hno : NoiseOK env)
    (r : List (K × Flt K × V) → V) (hr : env.cons = .mean r) (p : PsoPar K) (s s' : St K V) (w : MemPlain s) (vr : s.aux2.rows = s.M)
    (vc : s.aux2.cols = s.N) (full : s.active.length = s.M) (h0 : s.sigma = 0) (h1 : p.sm = 0) (hm : 0 < p.m) (hg : 0 ≤ p.gamma) (hdt : 0 < s.dt)
    (hlam : 0 < s.lamda) (hv : ∀ m n, s.aux2.get m n = 0) (hy : ∀ m n, s.aux1.get m n = s.x.get m n) (h : psoStep env p s = .ok s') :
    ∃ (k : K) (c : Mat V) (v : St K V), 1 < k ∧ k = 1 + s.lamda * s.dt ^ 2 / (p.m + p.gamma * s.dt) ∧ s'.cons = some c ∧ env.post v = .ok s'.x ∧
      ∀ m < s.M, ∀ n < s.N, v.x.get m n - c.get m 0 = k • (s.x.get m n - c.get m 0) := by
  obtain ⟨c, v, h2, h3, h4⟩ := C61_pso_step env hcorr hno r hr p s s' w vr vc full h0 h1 h
  have hpos : 0 < p.m + p.gamma * s.dt := by have := mul_nonneg hg hdt.le; linarith
  refine ⟨_, c, v, ?_, rfl, h2, h3, fun m hm n hn => ?_⟩
  · have : 0 < s.lamda * s.dt ^ 2 / (p.m + p.gamma * s.dt) := by positivity
    linarith
  · rw [h4 m hm n hn, hv, hy, sub_self, smul_zero, smul_zero, zero_add, add_zero, smul_smul]
    have e : s.dt / (p.m + p.gamma * s.dt) * (s.lamda * s.dt) = s.lamda * s.dt ^ 2 / (p.m + p.gamma * s.dt) := by ring
    rw [e, add_smul, one_smul]
    abel

/-- **C61 (false).** In the example run without noise the first `PSO` step moves the particles `1, 2, 3` of run 0 away from their consensus point `2`, to
`2/3, 2, 10/3`. -/
theorem C61_attraction_false : ∃ s₀ s, memInit Example.memEnv { Example.memArgs [] with sigma := 0 } = .ok s₀ ∧
    execAllBy Example.memEnv (psoStep Example.memEnv { Example.psoPar with sm := 0 }) [.step] s₀ = .ok s ∧
    (∃ c, s.cons = some c ∧ c.get 0 0 = 2) ∧ (List.range 3).map (s₀.x.get 0) = [1, 2, 3] ∧ (List.range 3).map (s.x.get 0) = [2/3, 2, 10/3] := by
  have h : (match (do let s₀ ← memInit Example.memEnv { Example.memArgs [] with sigma := 0 }
                      let s ← execAllBy Example.memEnv (psoStep Example.memEnv { Example.psoPar with sm := 0 }) [.step] s₀
                      pure (s₀, s) : Except Err (St ℚ ℚ × St ℚ ℚ)) with
    | .ok (s₀, s) => decide ((s.cons.map fun c => c.get 0 0) = some 2 ∧ (List.range 3).map (s₀.x.get 0) = [1, 2, 3] ∧
        (List.range 3).map (s.x.get 0) = [2/3, 2, 10/3])
    | .error _ => false) = true := by decide +kernel
  split at h
  next s₀ s hs =>
    simp only [bind_ok, pure_ok] at hs
    obtain ⟨a, ha, b, hb, e⟩ := hs
    cases e
    have h := of_decide_eq_true h
    refine ⟨_, _, ha, hb, ?_, h.2⟩
    obtain ⟨c, hc, hc'⟩ := Option.map_eq_some_iff.1 h.1
    exact ⟨c, hc, hc'⟩
  next => cases h

/-- **C11 (false for CBOMemory).** Started with a particle at the minimum, after one step `best_energy = 0`, but the objective at `best_particle` is positive. -/
theorem C11_memory_false : ∃ s₀ s, memInit Example.env Example.memArgs' = .ok s₀ ∧
    execAllBy Example.env (memStep Example.env (2/5) (1/10)) [.step] s₀ = .ok s ∧
    s.bestE 0 = .fin 0 ∧ Flt.lt (.fin 0) (Example.env.f (s.bestP 0)) = true := by
  have h : (match (do let s₀ ← memInit Example.env Example.memArgs'
                      let s ← execAllBy Example.env (memStep Example.env (2/5) (1/10)) [.step] s₀
                      pure (s₀, s) : Except Err (St ℚ ℚ × St ℚ ℚ)) with
    | .ok (_, s) => decide (s.bestE 0 = .fin 0 ∧ Flt.lt (.fin 0) (Example.env.f (s.bestP 0)) = true)
    | .error _ => false) = true := by decide +kernel
  split at h
  next s₀ s hs =>
    simp only [bind_ok, pure_ok] at hs
    obtain ⟨a, ha, b, hb, e⟩ := hs
    cases e
    exact ⟨_, _, ha, hb, of_decide_eq_true h⟩
  next => cases h

/-- **C11 (false for PSO).** After one step of the example run `best_energy[0] = 1/25`, while the objective at `best_particle[0]` is `1/16`. -/
theorem C11_pso_false : ∃ s₀ s, memInit Example.env (Example.memArgs []) = .ok s₀ ∧
    execAllBy Example.env (psoStep Example.env Example.psoPar) [.step] s₀ = .ok s ∧
    s.bestE 0 = .fin (1/25) ∧ Example.env.f (s.bestP 0) = .fin (1/16) := by
  have h : (match (do let s₀ ← memInit Example.env (Example.memArgs [])
                      let s ← execAllBy Example.env (psoStep Example.env Example.psoPar) [.step] s₀
                      pure (s₀, s) : Except Err (St ℚ ℚ × St ℚ ℚ)) with
    | .ok (_, s) => decide (s.bestE 0 = .fin (1/25) ∧ Example.env.f (s.bestP 0) = .fin (1/16))
    | .error _ => false) = true := by decide +kernel
  split at h
  next s₀ s hs =>
    simp only [bind_ok, pure_ok] at hs
    obtain ⟨a, ha, b, hb, e⟩ := hs
    cases e
    exact ⟨_, _, ha, hb, of_decide_eq_true h⟩
  next => cases h

/-! ### The hypotheses are met by concrete runs -/

/-- C11, C12: a run of `CBOMemory` with four steps; afterwards particle 1 of run 0 sits at a position worse than the one it remembers, the remembered position is
not its initial one, and the best energy is below all initial energies. -/
example : ∃ s₀ s, memInit Example.memEnv (Example.memArgs []) = .ok s₀ ∧
    execAllBy Example.memEnv (memStep Example.memEnv (2/5) (1/10)) [.select, .step, .sched, .step, .reset, .step, .step] s₀ = .ok s ∧
    Live Example.memEnv (memStep Example.memEnv (2/5) (1/10)) [.select, .step, .sched, .step, .reset, .step, .step] s₀ ∧
    NoNaN Example.memEnv.f s ∧ batchSizeOf (Example.memArgs []).batchSize (Example.memArgs []).x0.cols = (Example.memArgs []).x0.cols ∧
    s.M = 2 ∧ s.aux1.get 0 1 ≠ s.x.get 0 1 ∧ s.aux1.get 0 1 ≠ s₀.x.get 0 1 ∧ s.bestE 0 ∉ (List.range 3).map fun n => Example.memEnv.f (s₀.x.get 0 n) := by
  have h : (match (do let s₀ ← memInit Example.memEnv (Example.memArgs [])
                      let s ← execAllBy Example.memEnv (memStep Example.memEnv (2/5) (1/10))
                        [.select, .step, .sched, .step, .reset, .step, .step] s₀
                      pure (s₀, s) : Except Err (St ℚ ℚ × St ℚ ℚ)) with
    | .ok (s₀, s) => decide (s.M = 2 ∧ s.aux1.get 0 1 ≠ s.x.get 0 1 ∧ s.aux1.get 0 1 ≠ s₀.x.get 0 1 ∧
        s.bestE 0 ∉ (List.range 3).map fun n => Example.memEnv.f (s₀.x.get 0 n))
    | .error _ => false) = true := by decide +kernel
  split at h
  next s₀ s hs =>
    simp only [bind_ok, pure_ok] at hs
    obtain ⟨a, ha, b, hb, e⟩ := hs
    cases e
    refine ⟨_, _, ha, hb, ?_, memEnv_ok.2.2.1 _, rfl, of_decide_eq_true h⟩
    exact live_of_two (fun _ _ w a h => mem_histStep memEnv_ok.1 memEnv_perm w a h) (fun _ _ w a h => mem_active memEnv_perm w a h)
      (by rw [memInit_M ha]; exact le_refl 2) (memInv_init memEnv_perm rfl (by decide) ha) hb
  next => cases h

/-- C11, C12, C61: a run of `PSO`; the particles, velocities and energies change in every step. The state after construction meets the hypotheses of the C61
theorems. -/
example : ∃ s₀ s, memInit Example.memEnv { Example.memArgs [] with sigma := 0 } = .ok s₀ ∧
    execAllBy Example.memEnv (psoStep Example.memEnv { Example.psoPar with sm := 0 }) [.step, .sched, .step, .step] s₀ = .ok s ∧
    Live Example.memEnv (psoStep Example.memEnv { Example.psoPar with sm := 0 }) [.step, .sched, .step, .step] s₀ ∧
    NoNaN Example.memEnv.f s ∧ MemPlain s₀ ∧ (s₀.aux2.rows = s₀.M ∧ s₀.aux2.cols = s₀.N ∧ s₀.active.length = s₀.M ∧ s₀.sigma = 0 ∧ 0 < s₀.dt ∧
      0 < s₀.lamda ∧ s.aux1.get 1 2 ≠ s.x.get 1 2 ∧ s.energy.get 1 0 ≠ s₀.energy.get 1 0) ∧ (∀ m n, s₀.aux2.get m n = 0) ∧
      (∀ m n, s₀.aux1.get m n = s₀.x.get m n) := by
  have h : (match (do let s₀ ← memInit Example.memEnv { Example.memArgs [] with sigma := 0 }
                      let s ← execAllBy Example.memEnv (psoStep Example.memEnv { Example.psoPar with sm := 0 }) [.step, .sched, .step, .step] s₀
                      pure (s₀, s) : Except Err (St ℚ ℚ × St ℚ ℚ)) with
    | .ok (s₀, s) => decide (s₀.aux2.rows = s₀.M ∧ s₀.aux2.cols = s₀.N ∧ s₀.active.length = s₀.M ∧ s₀.sigma = 0 ∧ 0 < s₀.dt ∧
      0 < s₀.lamda ∧ s.aux1.get 1 2 ≠ s.x.get 1 2 ∧ s.energy.get 1 0 ≠ s₀.energy.get 1 0)
    | .error _ => false) = true := by decide +kernel
  split at h
  next s₀ s hs =>
    simp only [bind_ok, pure_ok] at hs
    obtain ⟨a, ha, b, hb, e⟩ := hs
    cases e
    have inv := memInv_init (a := { Example.memArgs [] with sigma := 0 }) memEnv_perm rfl (by decide) ha
    refine ⟨_, _, ha, hb, ?_, memEnv_ok.2.2.1 _, ⟨inv.shape, ?nob⟩, of_decide_eq_true h, ?_, ?_⟩
    · exact live_of_two (fun _ _ w a h => pso_histStep memEnv_ok.1 memEnv_perm w a h) (fun _ _ w a h => pso_active memEnv_perm w a h)
        (by rw [memInit_M ha]; exact le_refl 2) inv hb
    case nob =>
      simp only [memInit, init, Example.memArgs, Example.args] at ha
      injection ha with ha
      rw [← ha]
      rfl
    · intro m n
      simp only [memInit, init, Example.memArgs, Example.args] at ha
      injection ha with ha
      rw [← ha]
      rfl
    · intro m n
      simp only [memInit, init, Example.memArgs, Example.args] at ha
      injection ha with ha
      rw [← ha]
      rfl
  next => cases h

/-- C12 (stopped runs): such a state is reached by a run in which run 0 meets an energy tolerance. -/
example : ∃ s₀ s, memInit Example.memEnv (Example.memArgs [.energyTol (.fin (1/2))]) = .ok s₀ ∧
    execAllBy Example.memEnv (memStep Example.memEnv (2/5) (1/10)) [.step, .select] s₀ = .ok s ∧ MemShape s ∧ s.M = 2 ∧ s.active = [1] := by
  have h : (match (do let s₀ ← memInit Example.memEnv (Example.memArgs [.energyTol (.fin (1/2))])
                      let s ← execAllBy Example.memEnv (memStep Example.memEnv (2/5) (1/10)) [.step, .select] s₀
                      pure (s₀, s) : Except Err (St ℚ ℚ × St ℚ ℚ)) with
    | .ok (_, s) => decide (s.M = 2 ∧ s.active = [1])
    | .error _ => false) = true := by decide +kernel
  split at h
  next s₀ s hs =>
    simp only [bind_ok, pure_ok] at hs
    obtain ⟨a, ha, b, hb, e⟩ := hs
    cases e
    have inv := memInv_init (a := Example.memArgs [.energyTol (.fin (1/2))]) memEnv_perm rfl (by decide) ha
    have hl := live_of_two (fun _ _ w a h => mem_histStep memEnv_ok.1 memEnv_perm w a h) (fun _ _ w a h => mem_active memEnv_perm w a h)
        (by rw [memInit_M ha]; exact le_refl 2) inv hb
    exact ⟨_, _, ha, hb, (memInv_execAll (fun _ _ w a h => mem_histStep memEnv_ok.1 memEnv_perm w a h) hl inv hb).shape, of_decide_eq_true h⟩
  next => cases h

end Verif
