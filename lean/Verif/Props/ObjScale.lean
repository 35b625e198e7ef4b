import Verif.Proofs.ObjScale
import Verif.Props.Consensus
import Verif.Model.Polar
import Verif.Model.Correction
import Verif.Model.Sched
import Mathlib.Analysis.SpecialFunctions.Artanh
import Verif.Spec.ExampleReal

/-! Property C102: the objectives `f` and `c * f + b` with `c > 0`. -/

set_option linter.unusedSectionVars false

namespace Verif

section
variable {K V : Type} [Field K] [LinearOrder K] [IsStrictOrderedRing K] [AddCommGroup V] [Module K V]

/-- **C102, CBO and the dynamics that share its step.** For `c > 0`, the objectives `f` and `c * f + b`, with `alpha` divided by `c` and the tolerances changed accordingly: whenever a sequence of operations succeeds for `f`,
it succeeds for `c * f + b` and gives the same run. Batches, stopping criteria, schedulers, trackers, resets and the drift correction are included. -/
theorem C102_cbo (c b : K) (hc : 0 < c) (env env' : Env K V) (he : EnvAffine c b env env') (a : Args K V) (ops : List Op) (s₀ s : St K V) (h0 : init env a = .ok s₀) (h : execAll env (cboInner env) ops s₀ = .ok s) :
    ∃ t₀ t, init env' { a with alpha := a.alpha / c, terms := a.terms.map (Term.affine c b) } = .ok t₀ ∧ execAll env' (cboInner env') ops t₀ = .ok t ∧ AffineRun c b s t := by
  rw [cboInner_eq] at h ⊢
  exact ⟨_, _, init_affine hc he h0, execAll_affine hc he (cboMove_affine hc he) ops h, affineRun c b s⟩

/-- **C102, MirrorCBO.** -/
theorem C102_mirror (c b : K) (hc : 0 < c) (env env' : Env K V) (he : EnvAffine c b env env') (gc : V → V) (a : Args K V) (ops : List Op) (s₀ s : St K V) (h0 : init env a = .ok s₀)
    (h : execAll env (consThen env (mirrorMove env gc)) ops s₀ = .ok s) :
    ∃ t₀ t, init env' { a with alpha := a.alpha / c, terms := a.terms.map (Term.affine c b) } = .ok t₀ ∧ execAll env' (consThen env' (mirrorMove env' gc)) ops t₀ = .ok t ∧ AffineRun c b s t :=
  ⟨_, _, init_affine hc he h0, execAll_affine hc he (mirrorMove_affine hc he gc) ops h, affineRun c b s⟩

/-- **C102, AdamCBO.** -/
theorem C102_adam (c b : K) (hc : 0 < c) (env env' : Env K V) (he : EnvAffine c b env env') (A : AdamOps V) (β1 β2 : K) (a : Args K V) (ops : List Op) (s₀ s : St K V) (h0 : init env a = .ok s₀)
    (h : execAll env (consThen env (adamMove env A β1 β2)) ops s₀ = .ok s) :
    ∃ t₀ t, init env' { a with alpha := a.alpha / c, terms := a.terms.map (Term.affine c b) } = .ok t₀ ∧ execAll env' (consThen env' (adamMove env' A β1 β2)) ops t₀ = .ok t ∧ AffineRun c b s t :=
  ⟨_, _, init_affine hc he h0, execAll_affine hc he (adamMove_affine he A β1 β2) ops h, affineRun c b s⟩

end

section
variable {V : Type} [AddCommGroup V] [Module ℝ V]

/-- **C102, default rule.** The consensus point of `compute_consensus_default` is the same for `f` and `c * f + b` with `alpha / c`, for finite and infinite energies. -/
theorem C102_default (c b : ℝ) (hc : 0 < c) (F : Flt ℝ → Prop) : ConsAffine c b F (.mean (consDefault (V := V))) := fun a L _ => consDefault_affine hc a L

/-- **C102, rescaled rule** (`HyperSurfaceCBO`). -/
theorem C102_rescale (c b : ℝ) (hc : 0 < c) (F : Flt ℝ → Prop) : ConsAffine c b F (.mean (consRescale (V := V))) := by
  intro a L _
  cases L with
  | nil => rfl
  | cons q L =>
    unfold consRescale
    have hmin : ∀ (e : Flt ℝ) (L : List (Flt ℝ × V)), (L.map fun q => (a / c, affE c b q.1, q.2)).foldl (fun acc (q : ℝ × Flt ℝ × V) => Flt.minimum acc q.2.1) (affE c b e) =
        affE c b ((L.map fun q => (a, q.1, q.2)).foldl (fun acc (q : ℝ × Flt ℝ × V) => Flt.minimum acc q.2.1) e) := by
      intro e L
      induction L generalizing e with
      | nil => rfl
      | cons q L ih =>
        simp only [List.map_cons, List.foldl_cons, affE_minimum hc]
        exact ih _
    have hm : rowEMin ((q :: L).map fun q => (a / c, affE c b q.1, q.2)) = affE c b (rowEMin ((q :: L).map fun q => (a, q.1, q.2))) := hmin _ _
    rw [hm]
    generalize rowEMin ((q :: L).map fun q => (a, q.1, q.2)) = e
    have := consDefault_affine (b := 0) hc a ((q :: L).map fun q => (Flt.sub q.1 e, q.2))
    simp only [List.map_map, Function.comp_def, affE_sub hc, mul_affE] at this ⊢
    exact this

end

section
variable {ι : Type} [Fintype ι]

/-- **C102, polarised rule** with `kernel_factor_mode = 'const'`, any kernel. -/
theorem C102_polar (c b : ℝ) (hc : 0 < c) (F : Flt ℝ → Prop) (nl : (ι → ℝ) → (ι → ℝ) → Flt ℝ) : ConsAffine c b F (.polar (polarRule nl (KernelMode.const.kf))) := by
  intro a L j _
  unfold polarRule
  have e : ((L.map fun q => (a / c, affE c b q.1, q.2)).map fun p : ℝ × Flt ℝ × (ι → ℝ) => p.2.2) = (L.map fun q => (a, q.1, q.2)).map fun p => p.2.2 := by
    simp only [List.map_map, Function.comp_def]
  rw [e]
  exact polarAt_affine hc nl a L _

end

/-- **C102, corrections.** The Heaviside correction depends on the sign of the energy gap only; the regularised one needs `correction_eps` multiplied by `c`. -/
theorem C102_correction {V : Type} [AddCommGroup V] [Module ℝ V] (c : ℝ) (hc : 0 < c) (eps : ℝ) (z : Flt ℝ) (v : V) :
    heaviG (K := ℝ) (Flt.mul (.fin c) z) v = heaviG (K := ℝ) z v ∧ heaviRegG (c * eps) (Flt.mul (.fin c) z) v = heaviRegG eps z v := by
  constructor
  · unfold heaviG Flt.gt
    have : (Flt.fin 0 : Flt ℝ) = affE c 0 (.fin 0) := by simp [affE_fin]
    rw [mul_affE]
    conv_lhs => rw [this]
    rw [affE_lt hc]
  · unfold heaviRegG
    rw [mul_affE]
    cases z with
    | nan => rfl
    | pinf => rw [affE_pinf hc]; rfl
    | ninf => rw [affE_ninf hc]; rfl
    | fin z =>
      simp only [affE_fin, add_zero, regFactor]
      rw [mul_div_mul_left _ _ hc.ne']

/-- **C102, scheduler.** `multiply` acts on `alpha / c` as on `alpha` if `maximum` is divided by `c`. -/
theorem C102_multiply (c : ℝ) (hc : 0 < c) (factor maximum : ℝ) (p : Params ℝ) :
    multiplyUpdate .alpha factor (maximum / c) { p with alpha := fun m => p.alpha m / c } = { multiplyUpdate .alpha factor maximum p with alpha := fun m => (multiplyUpdate .alpha factor maximum p).alpha m / c } := by
  simp only [multiplyUpdate, ensureMax, Params.modify, Params.mk.injEq, and_true]
  funext m
  rw [← mul_div_assoc, min_div_div_right hc.le]

/-- **C102 needs the division of `alpha`.** With the same `alpha`, doubling the objective moves the consensus point: energies 0 and `log 2` at 0 and 1, consensus 1/3 against 1/5. -/
theorem C102_alpha_false : consDefault ([(0, (0 : ℝ)), (Real.log 2, 1)].map fun q : ℝ × ℝ => ((1 : ℝ), Flt.fin q.1, q.2)) = 1 / 3 ∧
    consDefault ([(0, (0 : ℝ)), (Real.log 2, 1)].map fun q : ℝ × ℝ => ((1 : ℝ), affE 2 0 (.fin q.1), q.2)) = 1 / 5 := by
  have h2 : Real.exp (-Real.log 2) = 1 / 2 := by rw [Real.exp_neg, Real.exp_log (by norm_num)]; norm_num
  have h4 : Real.exp (-(2 * Real.log 2)) = 1 / 4 := by
    rw [show -(2 * Real.log 2) = -Real.log 2 + -Real.log 2 by ring, Real.exp_add, h2]; norm_num
  constructor
  · have := consDefault_fin 1 [(0, (0 : ℝ)), (Real.log 2, 1)]
    simp only [finSample] at this
    rw [this]
    simp [gibbs, h2]
    norm_num
  · have := consDefault_fin 1 [(0, (0 : ℝ)), (2 * Real.log 2, 1)]
    simp only [finSample, List.map_cons, List.map_nil] at this
    simp only [affE_fin, List.map_cons, List.map_nil, mul_zero, add_zero]
    rw [this]
    simp [gibbs, h4]
    norm_num

/-- **C102 is false for the default scheduler**, whose maximum `1e5` does not scale: `alpha = 1e5` stays, `alpha / 2` grows. -/
theorem C102_sched_false : ∃ p : Params ℝ, (schedulerUpdate defaultSched p).alpha 0 = p.alpha 0 ∧ (schedulerUpdate defaultSched { p with alpha := fun m => p.alpha m / 2 }).alpha 0 ≠ p.alpha 0 / 2 := by
  refine ⟨⟨fun _ => 100000, 1, 1, 1⟩, ?_, ?_⟩ <;>
  · simp only [schedulerUpdate, defaultSched, List.foldl_cons, List.foldl_nil, multiplyUpdate, ensureMax, Params.modify]
    norm_num

/-- **C102 is false for the regularised correction** with unchanged `correction_eps`. -/
theorem C102_reg_false : ∃ z : Flt ℝ, heaviRegG 1 (Flt.mul (.fin 2) z) (1 : ℝ) ≠ heaviRegG 1 z (1 : ℝ) := by
  refine ⟨.fin 1, ?_⟩
  simp only [heaviRegG, Flt.mul, regFactor, smul_eq_mul, mul_one, div_one]
  intro h
  have h1 : Real.tanh 2 = Real.tanh 1 := by linarith
  have h2 : (2 : ℝ) = 1 := Real.tanh_injective h1
  norm_num at h2

/-- **C102 is false for `PolarCBO` with `kernel_factor_mode = 'alpha'`**: dividing `alpha` also weakens the kernel. Particles at 0 and 1 with equal energies, Laplace kernel. -/
theorem C102_polar_alpha_false : ∃ (a : ℝ) (L : List (Flt ℝ × (Unit → ℝ))), polarRule (Kernel.laplace.negLog 1 1) KernelMode.alpha.kf (L.map fun q => (a / 2, affE 2 0 q.1, q.2)) 0 ≠
    polarRule (Kernel.laplace.negLog 1 1) KernelMode.alpha.kf (L.map fun q => (a, q.1, q.2)) 0 := by
  have key : ∀ a : ℝ, ∀ e : Flt ℝ, e = .fin 0 → polarRule (Kernel.laplace.negLog 1 1) KernelMode.alpha.kf [(a, e, fun _ : Unit => (0 : ℝ)), (a, e, fun _ => 1)] 0 () = Real.exp (-a - Real.log (1 + Real.exp (-a))) := by
    intro a e he
    subst he
    simp [polarRule, polarAt, polarRow, polarWeight, Kernel.negLog, pdist, euclid, KernelMode.kf, Flt.mul, Flt.sub, Flt.neg, Flt.add, softmax, expFin]
  refine ⟨2, [(.fin 0, fun _ => 0), (.fin 0, fun _ => 1)], fun h => ?_⟩
  have h1 := congrFun h ()
  simp only [List.map_cons, List.map_nil] at h1
  rw [key _ _ (by simp [affE_fin]), key _ _ rfl] at h1
  have h2 := Real.exp_injective h1
  norm_num at h2
  have h3 : Real.log (1 + Real.exp (-1)) < Real.log (Real.exp 1 * (1 + Real.exp (-2))) := by
    apply Real.log_lt_log (by positivity)
    rw [mul_add, ← Real.exp_add]
    norm_num
  rw [Real.log_mul (Real.exp_pos _).ne' (by positivity), Real.log_exp] at h3
  linarith

open Example in
/-- C102: the hypotheses hold for the default rule, isotropic noise, default post processing, a scheduler with maximum, batches and two stopping criteria; the objective is changed to `2 * f + 5`, runs exist. -/
example : EnvAffine 2 5 (realEnv (rowNoise isoRule smp))
      { realEnv (rowNoise isoRule smp) with f := fun v => .fin (2 * (v 0 ^ 2 + v 1 ^ 2) + 5), sched := fun s => .ok { alpha := fun m => min (2 * s.alpha m) 500, lamda := s.lamda, sigma := s.sigma, dt := s.dt } } ∧
    ∃ s₀, init (realEnv (rowNoise isoRule smp)) (realArgs (fun i j _ => i + j) 1 (some 3)) = .ok s₀ ∧
      ∀ ops : List Op, ∃ s, execAll (realEnv (rowNoise isoRule smp)) (cboInner (realEnv (rowNoise isoRule smp))) ops s₀ = .ok s := by
  refine ⟨⟨fun _ => rfl, rfl, C102_default 2 5 (by norm_num) _, fun _ => rfl, fun _ => rfl, rfl, rfl, rfl, fun _ _ => rfl, fun s p h => ?_, rfl, rfl, fun z => ?_⟩, realEnv_runs _ _ _ _⟩
  · simp only [realEnv, Except.ok.injEq] at h ⊢
    subst h
    simp only [affineSt, Params.mk.injEq, and_true]
    funext m
    rw [← min_div_div_right (by norm_num : (0 : ℝ) ≤ 2)]
    congr 1
    · ring
    · norm_num
  · show Real.sqrt (2 * 2 * z) = 2 * Real.sqrt z
    rw [Real.sqrt_mul (by norm_num), Real.sqrt_mul_self (by norm_num)]

end Verif
