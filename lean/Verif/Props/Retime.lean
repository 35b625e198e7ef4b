import Verif.Proofs.Retime
import Verif.Spec.ExampleReal
import Verif.Model.Sched

/-!
# C124: only `lamda * dt` and `sigma * sqrt(dt)` matter

`cbx/dynamics/cbo.py:3-4,38-50`, `cbx/noise.py:58-59,91-92,146-147,192-196`, `cbx/dynamics/pdyn.py:919-929`,
`cbx/utils/termination.py:85-95`.
-/

set_option linter.unusedSectionVars false

namespace Verif

section
variable {V : Type} [AddCommGroup V] [Module ℝ V]

/-- C124: the constructor called with the parameters in the new unit gives the same dynamic in the new unit. -/
theorem C124_init (env : Env ℝ V) (c : ℝ) (a : Args ℝ V) : init env (a.retime c) = (init env a).map (St.retime c) := by
  unfold init
  show (if a.x0.cols = 0 then _ else _) = _
  by_cases h : a.x0.cols = 0
  · rw [if_pos h, if_pos h]; rfl
  · rw [if_neg h, if_neg h]
    show Except.ok _ = Except.ok _
    congr 1
    have hb : baseSt (a.retime c) = (baseSt a).retime c := by
      simp only [baseSt, Args.retime, St.retime, mul_zero]
    rw [hb]
    show initBatch env (a.retime c) (initHistory a.tracks a.saveInt (if a.checkF = true then _ else _)) = _
    by_cases h2 : a.checkF = true
    · rw [if_pos h2, if_pos h2]; rfl
    · rw [if_neg h2, if_neg h2]; rfl

/-- C124: every sequence of steps, checks, scheduler updates and resets gives, in the new unit, the same states or the same exception. -/
theorem C124_runs (env : Env ℝ V) (c : ℝ) (hc : 0 < c) (hu : Unitless env c) (l : List Op) (s : St ℝ V) :
    execAll env (cboInner env) l (s.retime c) = (execAll env (cboInner env) l s).map (St.retime c) := by
  induction l generalizing s with
  | nil => rfl
  | cons o l ih =>
    simp only [execAll, exec_retime hc hu, bind, Except.bind]
    cases exec env (cboInner env) o s with
    | error e => rfl
    | ok q => exact ih q

/-- C124: `optimize` ends after the same number of iterations or raises the same exception, or does neither, in both units. -/
theorem C124_optimize (env : Env ℝ V) (c : ℝ) (hc : 0 < c) (hu : Unitless env c) (fuel : ℕ) (s : St ℝ V) :
    optimize env (cboInner env) fuel (s.retime c) = (optimize env (cboInner env) fuel s).retime c := by
  induction fuel generalizing s with
  | zero => rfl
  | succ n ih =>
    simp only [optimize, select_retime hc hu]
    cases selectActive env s with
    | error e => rfl
    | ok q =>
      show (if q.active.length = 0 then _ else _) = Outcome.retime c (if q.active.length = 0 then _ else _)
      by_cases h : q.active.length = 0
      · rw [if_pos h, if_pos h]; rfl
      · rw [if_neg h, if_neg h, step_retime hc hu]
        cases step env (cboInner env) q with
        | error e => rfl
        | ok q =>
          simp only [Except.map]
          rw [sched_retime hu]
          cases schedUpdate env q with
          | error e => rfl
          | ok q => exact ih q

/-- C124: an optimisation with `lamda > 0` has the result of the one with `lamda = 1`, step size `lamda * dt`, noise strength `sigma / sqrt(lamda)` and the time limits multiplied by `lamda`: the same positions, best particles, history, evaluation counts, iterations and reasons. -/
theorem C124_lamda_one (env : Env ℝ V) (a : Args ℝ V) (hl : 0 < a.lamda) (hu : Unitless env a.lamda) (s₀ s : St ℝ V) (fuel : ℕ)
    (h0 : init env a = .ok s₀) (hs : optimize env (cboInner env) fuel s₀ = .done s) :
    ∃ r₀ r, init env { a with lamda := 1, sigma := a.sigma / √a.lamda, dt := a.lamda * a.dt, terms := a.terms.map (Term.retime a.lamda) } = .ok r₀ ∧
      optimize env (cboInner env) fuel r₀ = .done r ∧ r.x = s.x ∧ r.bestP = s.bestP ∧ r.bestE = s.bestE ∧ r.energy = s.energy ∧ r.hist = s.hist ∧ r.nEval = s.nEval ∧ r.it = s.it ∧ r.reason = s.reason ∧
      r.t = a.lamda * s.t := by
  have h := C124_init env a.lamda a
  have e : a.retime a.lamda = { a with lamda := 1, sigma := a.sigma / √a.lamda, dt := a.lamda * a.dt, terms := a.terms.map (Term.retime a.lamda) } := by
    simp only [Args.retime, div_self hl.ne']
  rw [e, h0] at h
  have h2 := C124_optimize env a.lamda hl hu fuel s₀
  rw [hs] at h2
  exact ⟨_, _, h, h2, rfl, rfl, rfl, rfl, rfl, rfl, rfl, rfl, rfl⟩

end

section
variable {ι : Type} [Fintype ι]

/-- C124: isotropic, anisotropic and constant noise have the factor `sqrt(dt)`. -/
theorem C124_row_noise (c : ℝ) (hc : 0 < c) (rule : (ι → ℝ) → (ι → ℝ) → ι → ℝ) (smp : ℕ → ℕ → ℕ → ι → ℝ) (s : St ℝ (ι → ℝ)) :
    rowNoise rule smp (s.retime c) = (rowNoise rule smp s).map (Mat.map fun v => √c • v) := by
  unfold rowNoise
  cases hd : s.drift with
  | none => simp only [show (s.retime c).drift = none from hd]; rfl
  | some d =>
    simp only [show (s.retime c).drift = some d from hd]
    show Except.ok _ = Except.ok _
    congr 1
    unfold Mat.map
    congr 1
    funext i j
    show √(c * s.dt) • _ = √c • √s.dt • _
    rw [Real.sqrt_mul hc.le, smul_smul]
    rfl

/-- C124: covariance noise has the factor `sqrt(dt)` in both modes. -/
theorem C124_cov_noise [DecidableEq ι] (c : ℝ) (hc : 0 < c) (eigh : Matrix ι ι ℝ → (ι → ℝ) × Matrix ι ι ℝ) (b : Bool) (smp : ℕ → ℕ → ℕ → ι → ℝ) (s : St ℝ (ι → ℝ)) :
    covNoise eigh b smp (s.retime c) = (covNoise eigh b smp s).map (Mat.map fun v => √c • v) := by
  have hC : updateCovariance eigh (s.retime c) = updateCovariance eigh s := rfl
  have hL : covLamdaInv b (s.retime c) = covLamdaInv b s := rfl
  unfold covNoise
  cases hd : s.drift with
  | none => simp only [show (s.retime c).drift = none from hd]; rfl
  | some d =>
    simp only [show (s.retime c).drift = some d from hd, hC, hL, show (s.retime c).draws = s.draws from rfl, bind, Except.bind]
    cases updateCovariance eigh s with
    | error e => rfl
    | ok C =>
      simp only
      cases Mat.bin (fun (A : Matrix ι ι ℝ) z => A.mulVec z) C ⟨d.rows, d.cols, fun i j => smp s.draws i j⟩ with
      | error e => rfl
      | ok e =>
        have hf : (fun (l : ℝ) (v : ι → ℝ) => √(2 * (s.retime c).dt * l) • v) = fun l v => √c • (√(2 * s.dt * l) • v) := by
          funext l v
          show √(2 * (c * s.dt) * l) • v = _
          rw [show 2 * (c * s.dt) * l = c * (2 * s.dt * l) by ring, Real.sqrt_mul hc.le, smul_smul]
        simp only [hf]
        unfold Mat.bin
        cases Mat.bdim (covLamdaInv b s).rows e.rows <;> cases Mat.bdim (covLamdaInv b s).cols e.cols <;> rfl

end

/-- C124: schedulers that multiply `alpha` (the default one among them) act in proportion: they leave the time parameters alone. -/
theorem C124_multiply_sched {V : Type} (c : ℝ) (l : List (ℝ × ℝ)) (s : St ℝ V) [AddCommGroup V] [Module ℝ V] :
    schedulerUpdate (l.map fun q => multiplyUpdate .alpha q.1 q.2) (s.retime c).params = (schedulerUpdate (l.map fun q => multiplyUpdate .alpha q.1 q.2) s.params).retime c := by
  have h : ∀ p : Params ℝ, schedulerUpdate (l.map fun q => multiplyUpdate .alpha q.1 q.2) (p.retime c) = (schedulerUpdate (l.map fun q => multiplyUpdate .alpha q.1 q.2) p).retime c := by
    induction l with
    | nil => intro p; rfl
    | cons q l ih => intro p; exact ih (multiplyUpdate .alpha q.1 q.2 p)
  exact h s.params

/-- C124: a `multiply` scheduler of `lamda`, `sigma` or `dt` acts in proportion if its maximum is in the new unit too. -/
theorem C124_multiply_unit (c : ℝ) (hc : 0 < c) (factor maximum : ℝ) (p : Params ℝ) :
    multiplyUpdate .lamda factor (maximum / c) (p.retime c) = (multiplyUpdate .lamda factor maximum p).retime c ∧
    multiplyUpdate .sigma factor (maximum / √c) (p.retime c) = (multiplyUpdate .sigma factor maximum p).retime c ∧
    multiplyUpdate .dt factor (c * maximum) (p.retime c) = (multiplyUpdate .dt factor maximum p).retime c := by
  have hs : 0 ≤ √c := Real.sqrt_nonneg c
  refine ⟨?_, ?_, ?_⟩ <;> simp only [multiplyUpdate, ensureMax, Params.modify, Params.retime]
  · rw [← mul_div_assoc, min_div_div_right hc.le]
  · rw [← mul_div_assoc, min_div_div_right hs]
  · rw [mul_left_comm, mul_min_of_nonneg _ _ hc.le]

/-- C124: two runs of four particles in batches of three with isotropic noise and a scheduler doubling `alpha`; every optimisation in the unit `c = 4` is the one in the original unit. -/
example (fuel : ℕ) : let env := Example.realEnv (rowNoise isoRule Example.smp)
    Unitless env 4 ∧ ∃ s₀ r₀, init env { Example.realArgs (fun m n => ![n, m]) 3 (some 3) with terms := [.maxTime 2] } = .ok s₀ ∧
      init env { Example.realArgs (fun m n => ![n, m]) (3 / 2) (some 3) with lamda := 1 / 4, dt := 4 / 10, terms := [.maxTime 8] } = .ok r₀ ∧
      optimize env (cboInner env) fuel r₀ = (optimize env (cboInner env) fuel s₀).retime 4 := by
  intro env
  have hu : Unitless env 4 := ⟨C124_row_noise 4 (by norm_num) isoRule Example.smp, fun s => rfl, fun g hg => (by cases hg), fun _ _ => rfl, fun s => rfl⟩
  have h4 : √(4 : ℝ) = 2 := by rw [show (4 : ℝ) = 2 ^ 2 by norm_num]; exact Real.sqrt_sq (by norm_num)
  have h0 : ∃ s₀, init env { Example.realArgs (fun m n => ![(n : ℝ), (m : ℝ)]) 3 (some 3) with terms := [.maxTime 2] } = .ok s₀ := by
    unfold init
    rw [if_neg (by simp [Example.realArgs])]
    exact ⟨_, rfl⟩
  obtain ⟨s₀, h0⟩ := h0
  have h1 := C124_init env 4 { Example.realArgs (fun m n => ![(n : ℝ), (m : ℝ)]) 3 (some 3) with terms := [.maxTime 2] }
  rw [h0] at h1
  refine ⟨hu, s₀, s₀.retime 4, h0, ?_, C124_optimize env 4 (by norm_num) hu fuel s₀⟩
  rw [← show _ = Except.ok (s₀.retime 4) from h1]
  congr 1
  simp only [Args.retime, Example.realArgs, List.map_cons, List.map_nil, Term.retime, h4]
  norm_num

end Verif
