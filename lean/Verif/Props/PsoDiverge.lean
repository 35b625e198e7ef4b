import Verif.Proofs.PsoDiverge
import Verif.Props.Memory
import Verif.Props.Runs

/-! Property C61: `PSO` as coded drives the particles apart. -/

set_option linter.unusedSectionVars false

namespace Verif

/-- **C61 (the swarm spreads exponentially).** `PSO` without noise and without memory term (`sigma = sigma_memory = lamda_memory = 0`), positive mass, `dt` and `lamda`, no clipping, one consensus
point per run, unbatched, `lamda`, `sigma` and `dt` not scheduled (`alpha` may be): for every objective, whenever `optimize` ends, after `it` steps, the swarm of every run is the initial one
scaled by a factor `≥ (1 + lamda dt² / (m + gamma dt)) ^ it`, and shifted. So particles that start in different places never approach each other, while the method is to bring
them to the consensus. -/
theorem C61_diverges {K V : Type} [Field K] [LinearOrder K] [IsStrictOrderedRing K] [AddCommGroup V] [Module K V] (env : Env K V) (hcorr : env.corr = .none)
    (g : List (K × Flt K × V) → V) (hg : env.cons = .mean g) (ν : ℕ → K → ℕ → ℕ → V → V) (hν : NoiseRows env ν) (hpm : PostMap env id)
    (ga : K → K) (hsched : SchedLocal env ga id id id) (p : PsoPar K) (hm : 0 < p.m) (hga : 0 ≤ p.gamma) (hl0 : p.lm = 0) (hs0 : p.sm = 0)
    (a : Args K V) (hb : batchSizeOf a.batchSize a.x0.cols = a.x0.cols) (hlam : 0 < a.lamda) (hdt : 0 < a.dt) (hsg : a.sigma = 0) (hv : ∀ v, a.aux2 v = 0)
    (s₀ s : St K V) (fuel : ℕ) (h0 : memInit env a = .ok s₀) (h : optimizeBy env (psoStep env p) fuel s₀ = .done s) :
    ∃ k : K, (1 + a.lamda * a.dt ^ 2 / (p.m + p.gamma * a.dt)) ^ s.it ≤ k ∧
      ∀ m < a.x0.rows, ∀ i < a.x0.cols, ∀ j < a.x0.cols, s.x.get m i - s.x.get m j = k • (a.x0.get m i - a.x0.get m j) := by
  obtain ⟨d1, d2, d3, d4⟩ := memInit_data h0
  obtain ⟨j1, -, j3, j4, -⟩ := memInit_facts h0
  obtain ⟨i1, i2, -, -⟩ := memInit_nEval h0
  obtain ⟨e1, e2, k, b, r⟩ := pso_scaled hcorr hg hν hpm hsched hm hga hl0 hs0 hlam hdt (x₀ := a.x0) fuel s₀ s 1 0 (memInit_plain hb h0) j1 d1 j3 (d2.trans hsg)
    ⟨by rw [j4, pow_zero], le_rfl, fun m _ i _ j _ => by rw [d3, one_smul], fun m _ i _ j _ => by rw [d4, d4, hv, hv, sub_self, zero_smul]⟩ h
  refine ⟨k, r.big, ?_⟩
  rw [← i1, ← i2, ← e1, ← e2]
  exact r.x

/-- C61: the hypotheses of `C61_diverges` hold for two runs of three particles; three steps are made, and the particles `1, 2, 3` of run 0 end farther from each other, still equally spaced. -/
example : NoiseRows Example.memEnv Example.nu ∧ Example.memEnv.corr = .none ∧ (∃ g, Example.memEnv.cons = .mean g) ∧ PostMap Example.memEnv id ∧
    SchedLocal Example.memEnv (fun v => 2 * v) id id id ∧
    (match memInit Example.memEnv { Example.memArgs [.maxIt (some 3)] with sigma := 0 } with
    | .ok s₀ => match optimizeBy Example.memEnv (psoStep Example.memEnv ⟨1/2, 1/2, 0, 0⟩) 9 s₀ with
      | .done s => decide (s.it = 3 ∧ 0 < s₀.lamda ∧ 0 < s₀.dt ∧ (List.range 3).map (s₀.x.get 0) = [1, 2, 3] ∧ 1 < s.x.get 0 1 - s.x.get 0 0 ∧
          s.x.get 0 2 - s.x.get 0 1 = s.x.get 0 1 - s.x.get 0 0)
      | _ => false
    | .error _ => false) = true := by
  refine ⟨?_, rfl, ⟨_, rfl⟩, fun s => rfl, fun s => rfl, by decide +kernel⟩
  intro s d hd
  refine ⟨⟨d.rows, d.cols, fun i j => if i + j = s.draws then 1 / 2 else -1 / 2⟩, ?_, rfl, rfl, fun i j => rfl⟩
  simp only [Example.memEnv, Example.env, hd]

end Verif
