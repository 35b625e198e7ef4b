import Verif.Proofs.MemRun
import Verif.Props.Runs

/-! Property C81: what a step of `CBOMemory` and of `PSO` computes, run by run, and the independence of the runs. -/

set_option linter.unusedSectionVars false

namespace Verif

section
variable {K V : Type} [Zero K] [One K] [Neg K] [Add K] [Sub K] [Mul K] [Inv K] [Div K] [NatCast K] [Pow K ℕ] [LinearOrder K] [Add V] [Sub V] [SMul K V]

/-- **C81 (CBOMemory, one step).** No batching, no correction, noise that acts particle by particle, one consensus point per run, post processing that acts particle by particle.
If a step with at least one active run does not raise, then in every run: the particle first makes the `CBO` step for the consensus point of the historical best positions (weights from
their energies), then from there the same kind of step for its own historical best position with `lamda_memory`, `sigma_memory` and a second noise; then position and energy of the historical best
are replaced if the new position is better. All of this uses data of the run alone. Velocities are untouched, two draws are made, and each run is charged `N` evaluations. -/
theorem C81_memory_step (env : Env K V) (hcorr : env.corr = .none) (g : List (K × Flt K × V) → V) (hg : env.cons = .mean g) (ν : ℕ → K → ℕ → ℕ → V → V)
    (hν : NoiseRows env ν) (p : V → V) (hpm : PostMap env p) (lm sm : K) (s s' : St K V) (w : MemPlain s) (ha : s.active ≠ [])
    (h : memStep env lm sm s = .ok s') :
    (∀ m < s.M, RunIs p s' m ((s.runPar env g ν m).memNext lm sm (s.memRun m))) ∧ s'.draws = s.draws + 2 ∧ ∀ m < s.M, s'.nEval m = s.nEval m + s.N := by
  have q := memStep_runs hcorr hg hν hpm w ha h
  exact ⟨q.runs, q.draws, q.nEval⟩

/-- **C81 (PSO, one step).** The same for `PSO`: `v ← (m dt v + lamda dt (x - c) + lamda_memory dt (x - y) + sigma n₁ + sigma_memory n₂) / (m + gamma dt)`, then
`x ← x + dt v` with the new velocity, then the memory. -/
theorem C81_pso_step (env : Env K V) (hcorr : env.corr = .none) (g : List (K × Flt K × V) → V) (hg : env.cons = .mean g) (ν : ℕ → K → ℕ → ℕ → V → V)
    (hν : NoiseRows env ν) (p : V → V) (hpm : PostMap env p) (pp : PsoPar K) (s s' : St K V) (w : MemPlain s) (hv : s.aux2.rows = s.M ∧ s.aux2.cols = s.N)
    (ha : s.active ≠ []) (h : psoStep env pp s = .ok s') :
    (∀ m < s.M, RunIs p s' m ((s.runPar env g ν m).psoNext pp (s.memRun m))) ∧ s'.draws = s.draws + 2 ∧ (∀ m < s.M, s'.nEval m = s.nEval m + s.N) ∧
      pp.m + pp.gamma * s.dt ≠ 0 := by
  obtain ⟨hz, q⟩ := psoStep_runs hcorr hg hν hpm w hv ha h
  exact ⟨q.runs, q.draws, q.nEval, hz⟩

/-- **C81 (independence of the runs, CBOMemory).** Under the same conditions, with the built-in criteria without internal state and a scheduler that treats the runs separately:
suppose `optimize` finishes for all `M` runs together. Then run `r` started alone, with row `r` of the random numbers, finishes after the same number of steps, with the same positions,
historical best positions, energies, best energy, best particle and evaluation count. -/
theorem C81_memory_independent (env : Env K V) (r : ℕ) (hcorr : env.corr = .none) (g : List (K × Flt K × V) → V) (hg : env.cons = .mean g) (ν : ℕ → K → ℕ → ℕ → V → V)
    (hν : NoiseRows env ν) (p : V → V) (hpm : PostMap env p) (ga gl gs gd : K → K) (hsched : SchedLocal env ga gl gs gd) (lm sm : K)
    (a : Args K V) (hb : batchSizeOf a.batchSize a.x0.cols = a.x0.cols) (hr : r < a.x0.rows) (hsi : a.saveInt ≠ 0)
    (hterms : ∀ tm ∈ a.terms, BuiltIn tm) (s₀ s' : St K V) (fuel : ℕ) (h0 : memInit env a = .ok s₀) (h : optimizeBy env (memStep env lm sm) fuel s₀ = .done s') :
    ∃ s₁ s₁', memInit (env.alone r (fun _ => r) ν) (a.single r) = .ok s₁ ∧
      optimizeBy (env.alone r (fun _ => r) ν) (memStep (env.alone r (fun _ => r) ν) lm sm) fuel s₁ = .done s₁' ∧ SameResult r s' s₁' ∧ s₁'.it = s'.it ∧
      ∀ n < s'.N, s₁'.aux1.get 0 n = s'.aux1.get r n := by
  obtain ⟨s₁, h1, hs⟩ := memSim_init (env := env) (env1 := env.alone r (fun _ => r) ν) (r := r) rfl (fun _ _ _ => rfl) h0
  obtain ⟨i1, -, i3, -⟩ := memInit_nEval h0
  obtain ⟨j1, j2, -⟩ := memInit_facts h0
  obtain ⟨s₁', h2, h3⟩ := optimizeBy_sim (memStep_sim hcorr hg hν hpm (fun s => ⟨_, hsched s⟩) lm sm r)
    (fun s s' w ha h => (mem_histStep_plain hpm.ok w ha h).elim fun _ q => q.full) (ga := ga) (gl := gl) (gs := gs) (gd := gd) hsched (fun s => hsched s) fuel s₀ s' s₁
    (memInit_plain hb h0) j1 (by rw [i3]; exact hterms) (by rw [i1]; exact hr) (by rw [j2]; exact hsi) hs
    (memInit_plain (a := a.single r) hb h1) (memInit_facts h1).1 h
  exact ⟨s₁, s₁', h1, h2, h3.result, h3.it, h3.y⟩

/-- **C81 (independence of the runs, PSO).** The same for `PSO`, including the velocities. -/
theorem C81_pso_independent (env : Env K V) (r : ℕ) (hcorr : env.corr = .none) (g : List (K × Flt K × V) → V) (hg : env.cons = .mean g) (ν : ℕ → K → ℕ → ℕ → V → V)
    (hν : NoiseRows env ν) (p : V → V) (hpm : PostMap env p) (ga gl gs gd : K → K) (hsched : SchedLocal env ga gl gs gd) (pp : PsoPar K)
    (a : Args K V) (hb : batchSizeOf a.batchSize a.x0.cols = a.x0.cols) (hr : r < a.x0.rows) (hsi : a.saveInt ≠ 0)
    (hterms : ∀ tm ∈ a.terms, BuiltIn tm) (s₀ s' : St K V) (fuel : ℕ) (h0 : memInit env a = .ok s₀) (h : optimizeBy env (psoStep env pp) fuel s₀ = .done s') :
    ∃ s₁ s₁', memInit (env.alone r (fun _ => r) ν) (a.single r) = .ok s₁ ∧
      optimizeBy (env.alone r (fun _ => r) ν) (psoStep (env.alone r (fun _ => r) ν) pp) fuel s₁ = .done s₁' ∧ SameResult r s' s₁' ∧ s₁'.it = s'.it ∧
      ∀ n < s'.N, s₁'.aux1.get 0 n = s'.aux1.get r n ∧ s₁'.aux2.get 0 n = s'.aux2.get r n := by
  obtain ⟨s₁, h1, hs⟩ := memSim_init (env := env) (env1 := env.alone r (fun _ => r) ν) (r := r) rfl (fun _ _ _ => rfl) h0
  obtain ⟨i1, -, i3, -⟩ := memInit_nEval h0
  obtain ⟨j1, j2, -⟩ := memInit_facts h0
  obtain ⟨s₁', h2, h3⟩ := optimizeBy_sim (psoStep_sim hcorr hg hν hpm (fun s => ⟨_, hsched s⟩) pp r)
    (fun s s' w ha h => (pso_histStep_plain hpm.ok w ha h).elim fun _ q => q.full) (ga := ga) (gl := gl) (gs := gs) (gd := gd) hsched (fun s => hsched s) fuel s₀ s' s₁
    (memInit_plain hb h0) j1 (by rw [i3]; exact hterms) (by rw [i1]; exact hr) (by rw [j2]; exact hsi) hs
    (memInit_plain (a := a.single r) hb h1) (memInit_facts h1).1 h
  exact ⟨s₁, s₁', h1, h2, h3.result, h3.it, fun n hn => ⟨h3.y n hn, h3.v n hn⟩⟩

end

/-- Run 1 of the example with all runs and on its own, with the positions and memories of the three particles and the iterations. -/
def Example.memAlone (stp : Env ℚ ℚ → St ℚ ℚ → Except Err (St ℚ ℚ)) : Option (List ℚ × List ℚ × ℕ) × Option (List ℚ × List ℚ × ℕ) :=
  let out (r : ℕ) (env : Env ℚ ℚ) (a : Args ℚ ℚ) : Option (List ℚ × List ℚ × ℕ) :=
    match memInit env a with
    | .ok s => match optimizeBy env (stp env) 9 s with
      | .done s => some ((List.range 3).map (s.x.get r), (List.range 3).map (s.aux1.get r), s.it)
      | _ => none
    | .error _ => none
  (out 1 Example.env (Example.memArgs [.maxIt (some 3)]), out 0 (Example.env.alone 1 (fun _ => 1) Example.nu) ((Example.memArgs [.maxIt (some 3)]).single 1))

/-- C81: the hypotheses hold for two runs of three particles; three steps are made, run 1 moves, and on its own it ends in the same place. -/
example : NoiseRows Example.env Example.nu ∧ Example.env.corr = .none ∧ PostMap Example.env (fun v => max (-100) (min 100 v)) ∧
    SchedLocal Example.env (fun v => 2 * v) id id id ∧ (∀ tm ∈ (Example.memArgs [.maxIt (some 3)]).terms, BuiltIn tm) ∧
    batchSizeOf (Example.memArgs [.maxIt (some 3)]).batchSize (Example.memArgs [.maxIt (some 3)]).x0.cols = (Example.memArgs [.maxIt (some 3)]).x0.cols ∧
    (∀ stp ∈ [fun env => memStep env (2/5) (1/10), fun env => psoStep env Example.psoPar],
      (Example.memAlone stp).1 = (Example.memAlone stp).2 ∧ (Example.memAlone stp).1.isSome ∧
      (Example.memAlone stp).1.map (fun q => decide (q.1 = [5, 6, 7])) = some false ∧ (Example.memAlone stp).1.map (fun q => q.2.2) = some 3) := by
  refine ⟨?_, rfl, fun s => rfl, fun s => rfl, by simp [Example.memArgs, Example.args, BuiltIn], rfl, ?_⟩
  · intro s d hd
    refine ⟨⟨d.rows, d.cols, fun i j => if i + j = s.draws then 1 / 2 else -1 / 2⟩, ?_, rfl, rfl, fun i j => rfl⟩
    simp only [Example.env, hd]
  · intro stp h
    simp only [List.mem_cons, List.not_mem_nil, or_false] at h
    rcases h with rfl | rfl <;> decide +kernel

end Verif
