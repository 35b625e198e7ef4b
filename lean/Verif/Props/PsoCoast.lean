import Verif.Proofs.PsoCoast
import Verif.Props.Memory
import Verif.Props.Runs
import Mathlib.Tactic.FieldSimp
import Mathlib.Tactic.Positivity
import Mathlib.Tactic.Linarith

/-!
Property C125: inertia of `PSO`, `pso.py:125-135`. The equation behind the method is `m dv = -gamma v dt + forces`, in the semi-implicit form
`(m + gamma dt) v' = m v + forces`; the code multiplies `m v` by `dt`.
-/

set_option linter.unusedSectionVars false

namespace Verif

section
variable {K V : Type} [Field K] [LinearOrder K] [IsStrictOrderedRing K] [AddCommGroup V] [Module K V] (env : Env K V) (hcorr : env.corr = .none)
  (g : List (K × Flt K × V) → V) (hg : env.cons = .mean g) (ν : ℕ → K → ℕ → ℕ → V → V) (hν : NoiseRows env ν) (hpm : PostMap env id)
  (p : PsoPar K) (hl0 : p.lm = 0) (hs0 : p.sm = 0) (s s' : St K V) (w : MemPlain s) (hvs : VShape s) (hlam : s.lamda = 0) (hsg : s.sigma = 0)
include hcorr hg hν hpm hl0 hs0 w hvs hlam hsg

/-- **C125 (one step).** Without forces a step multiplies every velocity by `m dt / (m + gamma dt)`; the position moves by `dt` times the new velocity. -/
theorem C125_step (ha : s.active ≠ []) (h : psoStep env p s = .ok s') :
    ∀ m < s.M, ∀ n < s.N, s'.aux2.get m n = (p.m * s.dt / (p.m + p.gamma * s.dt)) • s.aux2.get m n ∧ s'.x.get m n = s.x.get m n + s.dt • s'.aux2.get m n :=
  pso_coast_step hcorr hg hν hpm hl0 hs0 w hvs ha hlam hsg h

/-- **C125 (with step size 1).** Full statement: a step without forces gives `(m + gamma dt) v' = m v` (so velocities are kept without friction). It holds only for `dt = 1`; see `C125_not_kept`. -/
theorem C125_inertia_partial (hdt : s.dt = 1) (ha : s.active ≠ []) (h : psoStep env p s = .ok s') :
    ∀ m < s.M, ∀ n < s.N, (p.m + p.gamma * s.dt) • s'.aux2.get m n = p.m • s.aux2.get m n := by
  intro m hm n hn
  have hne := (psoStep_runs hcorr hg hν hpm w hvs ha h).1
  rw [(C125_step env hcorr g hg ν hν hpm p hl0 hs0 s s' w hvs hlam hsg ha h m hm n hn).1, smul_smul, mul_div_cancel₀ _ hne, hdt, mul_one]

/-- **C125 (negative).** With any other step size and `m ≠ 0` a step changes the velocity of every moving particle in another way. -/
theorem C125_not_kept (hdt : s.dt ≠ 1) (hpm0 : p.m ≠ 0) (ha : s.active ≠ []) (h : psoStep env p s = .ok s') :
    ∀ m < s.M, ∀ n < s.N, s.aux2.get m n ≠ 0 → (p.m + p.gamma * s.dt) • s'.aux2.get m n ≠ p.m • s.aux2.get m n := by
  intro m hm n hn hv he
  have hne := (psoStep_runs hcorr hg hν hpm w hvs ha h).1
  rw [(C125_step env hcorr g hg ν hν hpm p hl0 hs0 s s' w hvs hlam hsg ha h m hm n hn).1, smul_smul, mul_div_cancel₀ _ hne, ← sub_eq_zero, ← sub_smul, smul_eq_zero] at he
  rcases he with he | he
  · rw [show p.m * s.dt - p.m = p.m * (s.dt - 1) by ring] at he
    rcases mul_eq_zero.1 he with he | he
    · exact hpm0 he
    · exact hdt (sub_eq_zero.1 he)
  · exact hv he

variable (ga gl gs : K → K) (hsched : SchedLocal env ga gl gs id) (hgl : gl 0 = 0) (hgs : gs 0 = 0) (fuel : ℕ) (h : optimizeBy env (psoStep env p) fuel s = .done s')
include hsched hgl hgs h

/-- **C125 (whole optimisation).** After `k` further steps the velocities are `(m dt / (m + gamma dt)) ^ k` times the ones before, and the positions have moved by the corresponding sum. -/
theorem C125_coast : ∃ k, s'.it = s.it + k ∧ ∀ m < s.M, ∀ n < s.N,
    s'.aux2.get m n = (p.m * s.dt / (p.m + p.gamma * s.dt)) ^ k • s.aux2.get m n ∧
    s'.x.get m n = s.x.get m n + (s.dt * ∑ i ∈ Finset.range k, (p.m * s.dt / (p.m + p.gamma * s.dt)) ^ (i + 1)) • s.aux2.get m n := by
  obtain ⟨k, h1, h2⟩ := pso_coast hcorr hg hν hpm hsched hgl hgs hl0 hs0 (dt := s.dt) (o := s) fuel s s' 0 w hvs hlam rfl hsg
    ⟨rfl, rfl, fun m _ n _ => by rw [pow_zero, one_smul], fun m _ n _ => by simp⟩ rfl h
  exact ⟨k, h1, fun m hm n hn => ⟨h2.v m hm n hn, h2.x m hm n hn⟩⟩

/-- **C125 (negative: no inertia without friction).** With `gamma = 0` and `0 < dt < 1` a particle that should move on by `k dt v` after `k` steps moves by less than `dt² / (1 - dt) v`, however many steps are made, and is left with `dt ^ k v`. -/
theorem C125_stops (hm : p.m ≠ 0) (hga : p.gamma = 0) (h0 : 0 < s.dt) (h1 : s.dt < 1) : ∃ k, s'.it = s.it + k ∧ ∃ r, 0 ≤ r ∧ r < s.dt ^ 2 / (1 - s.dt) ∧
    ∀ m < s.M, ∀ n < s.N, s'.aux2.get m n = s.dt ^ k • s.aux2.get m n ∧ s'.x.get m n = s.x.get m n + r • s.aux2.get m n := by
  obtain ⟨k, hk, hc⟩ := C125_coast env hcorr g hg ν hν hpm p hl0 hs0 s s' w hvs hlam hsg ga gl gs hsched hgl hgs fuel h
  have e : p.m * s.dt / (p.m + p.gamma * s.dt) = s.dt := by rw [hga, zero_mul, add_zero, mul_div_cancel_left₀ _ hm]
  rw [e] at hc
  have hsum : ∀ k : ℕ, (s.dt * ∑ i ∈ Finset.range k, s.dt ^ (i + 1)) * (1 - s.dt) = s.dt ^ 2 * (1 - s.dt ^ k) := by
    intro k
    induction k with
    | zero => simp
    | succ k ih => rw [Finset.sum_range_succ, mul_add, add_mul, ih]; ring
  refine ⟨k, hk, _, ?_, ?_, hc⟩
  · exact mul_nonneg h0.le (Finset.sum_nonneg fun i _ => (pow_pos h0 _).le)
  · rw [lt_div_iff₀ (by linarith), hsum]
    have := pow_pos h0 k
    have := pow_pos h0 2
    nlinarith

end

namespace Example

/-- The example surroundings with a scheduler that sets `lamda` and `sigma` to zero after the first step (`multiply(factor=0)`, `scheduler.py:85-100`). -/
def coastEnv : Env ℚ ℚ := { memEnv with sched := fun s => .ok ⟨s.alpha, 0, 0, s.dt⟩ }

end Example

/-- C125: the hypotheses hold for two runs of three particles without friction after the first step and scheduler update; the particles then move with velocities `∓ 1`, and after three more steps they have moved by `7/16` of
their velocities, less than `1/2`. Uniform motion would be `3/2`. -/
example : NoiseRows Example.coastEnv Example.nu ∧ Example.coastEnv.corr = .none ∧ (∃ g, Example.coastEnv.cons = .mean g) ∧ PostMap Example.coastEnv id ∧
    SchedLocal Example.coastEnv id (fun _ => 0) (fun _ => 0) id ∧
    ∃ s₀ s s', memInit Example.coastEnv { Example.memArgs [.maxIt (some 4)] with sigma := 0 } = .ok s₀ ∧
      execAllBy Example.coastEnv (psoStep Example.coastEnv ⟨1/2, 0, 0, 0⟩) [.step, .sched] s₀ = .ok s ∧ MemPlain s ∧ VShape s ∧ s.active ≠ [] ∧ s.lamda = 0 ∧ s.sigma = 0 ∧ s.dt = 1 / 2 ∧
      optimizeBy Example.coastEnv (psoStep Example.coastEnv ⟨1/2, 0, 0, 0⟩) 9 s = .done s' ∧ s'.it = s.it + 3 ∧
      (List.range 3).map (s.aux2.get 0) = [-1, 0, 1] ∧ (List.range 3).map (s.x.get 0) = [1/2, 2, 7/2] ∧ (List.range 3).map (s'.x.get 0) = [1/2 - 7/16, 2, 7/2 + 7/16] := by
  have hν : NoiseRows Example.coastEnv Example.nu := by
    intro s d hd
    refine ⟨⟨d.rows, d.cols, fun i j => if i + j = s.draws then 1 / 2 else -1 / 2⟩, ?_, rfl, rfl, fun i j => rfl⟩
    simp only [Example.coastEnv, Example.memEnv, Example.env, hd]
  refine ⟨hν, rfl, ⟨_, rfl⟩, fun s => rfl, fun s => rfl, ?_⟩
  have h : (match memInit Example.coastEnv { Example.memArgs [.maxIt (some 4)] with sigma := 0 } with
    | .ok s₀ => match execAllBy Example.coastEnv (psoStep Example.coastEnv ⟨1/2, 0, 0, 0⟩) [.step, .sched] s₀ with
      | .ok s => match optimizeBy Example.coastEnv (psoStep Example.coastEnv ⟨1/2, 0, 0, 0⟩) 9 s with
        | .done s' => decide (s₀.active ≠ [] ∧ s.active ≠ [] ∧ s.lamda = 0 ∧ s.sigma = 0 ∧ s.dt = 1 / 2 ∧ s'.it = s.it + 3 ∧ (List.range 3).map (s.aux2.get 0) = [-1, 0, 1] ∧
            (List.range 3).map (s.x.get 0) = [1/2, 2, 7/2] ∧ (List.range 3).map (s'.x.get 0) = [1/2 - 7/16, 2, 7/2 + 7/16])
        | _ => false
      | .error _ => false
    | .error _ => false) = true := by decide +kernel
  split at h
  next s₀ h0 =>
    split at h
    next s h1 =>
      split at h
      next s' h2 =>
        obtain ⟨a0, a1, a2, a3, a4, a5, a6, a7, a8⟩ := of_decide_eq_true h
        have hb := memInit_plain (by rfl) h0
        have hs := h1
        simp only [execAllBy, execBy, bind_ok] at hs
        obtain ⟨r, hr, c, hc, e⟩ := hs
        injection e with e
        subst e
        obtain ⟨-, f⟩ := psoStep_runs (p := id) rfl rfl hν (fun s => rfl) hb (memInit_facts h0).1 a0 hr
        exact ⟨s₀, _, s', h0, h1, memPlain_sched f.shape hc, vshape_sched (f.vshape (memInit_facts h0).1) hc, a1, a2, a3, a4, h2, a5, a6, a7, a8⟩
      next => exact absurd h (by simp)
    next => exact absurd h (by simp)
  next => exact absurd h (by simp)

end Verif
