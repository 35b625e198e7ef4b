import Verif.Proofs.MemCount
import Verif.Spec.Example

/-! Property C13 (evaluation counting is exact) for `CBOMemory` and `PSO`. -/

set_option linter.unusedSectionVars false

namespace Verif

section
variable {K V : Type} [Zero K] [One K] [Neg K] [Add K] [Sub K] [Mul K] [Inv K] [Div K] [NatCast K] [Pow K ℕ] [LinearOrder K] [Add V] [Sub V] [SMul K V]

/-- **C13 (memory dynamics, partial).** `CBOMemory` and `PSO`, with or without batches, without a Heaviside correction, `step` only called while a run is active: after any sequence of operations,
each run's `num_f_eval` is the number of points of that run on which the objective was really called, and the sum over the runs is the total number of evaluations. `PSO` charges all
`M` runs in every step; this is exact because a step with a stopped run raises (`C12_stopped_raises`). Missing: the Heaviside correction. -/
theorem C13_memory_partial [MaskExact K V] (env : Env K V) (hc : ∀ g, env.corr ≠ .heavi g) (hpost : PostOK env) (lm sm : K) (p : PsoPar K) (a : Args K V) (ha : a.aux1 = id)
    (hperm : PermOK env) (hb : a.batchSize ≠ some 0) (s₀ s : St K V) (ops : List Op) (h0 : memInit env a = .ok s₀)
    (h : (Live env (memStep env lm sm) ops s₀ ∧ execAllBy env (memStep env lm sm) ops s₀ = .ok s) ∨
      (Live env (psoStep env p) ops s₀ ∧ execAllBy env (psoStep env p) ops s₀ = .ok s)) :
    (∀ m < s.M, s.nEval m = evalCount s m) ∧ ∑ m ∈ Finset.range s.M, s.nEval m = totalEval s := by
  have key : CountInv s := by
    rcases h with ⟨hl, h⟩ | ⟨hl, h⟩
    · exact countInv_execAllBy (fun _ _ w a h => ⟨mem_histStep hpost hperm w a h, mem_charge hperm hc w a h⟩) hl (memInv_init hperm ha hb h0) (countInv_memInit h0) h
    · exact countInv_execAllBy (fun _ _ w a h => ⟨pso_histStep hpost hperm w a h, pso_charge hperm hc w a h⟩) hl (memInv_init hperm ha hb h0) (countInv_memInit h0) h
  exact ⟨key.eq, countInv_total key⟩

/-- **C13 (memory dynamics, closed form).** With criteria that do not evaluate the objective, every run has been charged `N` evaluations for the constructor, `N` more if the
constructor checks the objective, and `N` per step. -/
theorem C13_memory_closed [MaskExact K V] (env : Env K V) (hc : ∀ g, env.corr ≠ .heavi g) (hpost : PostOK env) (lm sm : K) (p : PsoPar K) (a : Args K V) (ha : a.aux1 = id)
    (hperm : PermOK env) (hb : a.batchSize ≠ some 0) (ht : ∀ tm ∈ a.terms, Stateless tm) (s₀ s : St K V) (ops : List Op) (h0 : memInit env a = .ok s₀)
    (h : (Live env (memStep env lm sm) ops s₀ ∧ execAllBy env (memStep env lm sm) ops s₀ = .ok s) ∨
      (Live env (psoStep env p) ops s₀ ∧ execAllBy env (psoStep env p) ops s₀ = .ok s)) :
    ∀ m < a.x0.rows, s.nEval m = ((if a.checkF then 2 else 1) + ops.count .step) * a.x0.cols := by
  obtain ⟨i1, i2, i3, i4⟩ := memInit_nEval h0
  have key : s.M = s₀.M ∧ s.N = s₀.N ∧ ∀ m < s₀.M, s.nEval m = s₀.nEval m + ops.count .step * s₀.N := by
    rcases h with ⟨hl, h⟩ | ⟨hl, h⟩
    · exact nEval_execAllBy (fun _ _ w a h => ⟨mem_histStep hpost hperm w a h, mem_charge hperm hc w a h⟩) (by rw [i3]; exact ht) hl (memInv_init hperm ha hb h0) h
    · exact nEval_execAllBy (fun _ _ w a h => ⟨pso_histStep hpost hperm w a h, pso_charge hperm hc w a h⟩) (by rw [i3]; exact ht) hl (memInv_init hperm ha hb h0) h
  intro m hm
  rw [key.2.2 m (by rw [i1]; exact hm), i4, i2]
  ring

end

/-- Both theorems cover a `PSO` with two runs of three particles and two steps: each run is charged `3` evaluations for the check, `3` for the start and `3` per step. -/
example : ∃ s₀ s, memInit Example.memEnv (Example.memArgs [.maxIt (some 5)]) = .ok s₀ ∧
    execAllBy Example.memEnv (psoStep Example.memEnv Example.psoPar) [.select, .step, .sched, .step] s₀ = .ok s ∧
    Live Example.memEnv (psoStep Example.memEnv Example.psoPar) [.select, .step, .sched, .step] s₀ ∧
    (s.M = 2 ∧ s.nEval 0 = 12 ∧ s.nEval 1 = 12 ∧ evalCount s 1 = 12 ∧ totalEval s = 24) ∧ (∀ g, Example.memEnv.corr ≠ .heavi g) ∧ PostOK Example.memEnv := by
  have h : (match (do let s₀ ← memInit Example.memEnv (Example.memArgs [.maxIt (some 5)])
                      let s ← execAllBy Example.memEnv (psoStep Example.memEnv Example.psoPar) [.select, .step, .sched, .step] s₀
                      pure (s₀, s) : Except Err (St ℚ ℚ × St ℚ ℚ)) with
    | .ok (_, s) => decide (s.M = 2 ∧ s.nEval 0 = 12 ∧ s.nEval 1 = 12 ∧ evalCount s 1 = 12 ∧ totalEval s = 24)
    | .error _ => false) = true := by decide +kernel
  split at h
  next s₀ s hs =>
    simp only [bind_ok, pure_ok] at hs
    obtain ⟨a, ha, b, hb, e⟩ := hs
    cases e
    have inv := memInv_init (a := Example.memArgs [.maxIt (some 5)]) memEnv_perm rfl (by decide) ha
    have hl := live_of_two (fun _ _ w a h => pso_histStep memEnv_ok.1 memEnv_perm w a h) (fun _ _ w a h => pso_active memEnv_perm w a h)
        (by rw [memInit_M ha]; exact le_refl 2) inv hb
    exact ⟨_, _, ha, hb, hl, of_decide_eq_true h, fun g h => by simp [Example.memEnv, Example.env] at h, memEnv_ok.1⟩
  next => cases h

end Verif
