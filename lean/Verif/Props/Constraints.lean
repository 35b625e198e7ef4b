import Verif.Proofs.Constraints

/-! # C35, C36: constraint derivatives and implicit solves -/

namespace Verif

open Matrix Con

variable {ι : Type} [Fintype ι] [DecidableEq ι]

/-- C35, plane: gradient, Hessian and those of the square are the true derivatives (for every `a ≠ 0`; with `a = 0`, which is the default, the
code divides by zero). -/
theorem C35_plane (a : ι → ℝ) (b : ℝ) (_ha : a ≠ 0) (x : ι → ℝ) :
    IsGrad (call (.plane a b)) (grad (.plane a b) x) x ∧ IsHess (call (.plane a b)) (hessian (.plane a b) x) x ∧
      IsGrad (fun y => call (.plane a b) y ^ 2) (gradSquared (.plane a b) x) x ∧
      IsHess (fun y => call (.plane a b) y ^ 2) (hessianSquared (.plane a b) x) x :=
  ⟨con_grad (.plane a b) trivial x, con_hess (.plane a b) trivial x, con_gradSquared (.plane a b) trivial x, con_hessSquared (.plane a b) trivial x⟩

/-- C35, sphere. -/
theorem C35_sphere (r : ℝ) (x : ι → ℝ) :
    IsGrad (call (.sphere r)) (grad (.sphere r) x) x ∧ IsHess (call (.sphere r)) (hessian (.sphere r) x) x ∧
      IsGrad (fun y => call (.sphere r) y ^ 2) (gradSquared (.sphere r) x) x ∧
      IsHess (fun y => call (.sphere r) y ^ 2) (hessianSquared (.sphere r) x) x :=
  ⟨con_grad (.sphere r) trivial x, con_hess (.sphere r) trivial x, con_gradSquared (.sphere r) trivial x, con_hessSquared (.sphere r) trivial x⟩

/-- C35, quadric with a symmetric matrix.  Missing for the full claim: non-symmetric matrices, where it fails
(`C35_quadric_symmetric_iff`, `C35_quadric_false`). -/
theorem C35_quadric_partial (A : Matrix ι ι ℝ) (hA : Aᵀ = A) (b : ι → ℝ) (c : ℝ) (x : ι → ℝ) :
    IsGrad (call (.quadric A b c)) (grad (.quadric A b c) x) x ∧ IsHess (call (.quadric A b c)) (hessian (.quadric A b c) x) x ∧
      IsGrad (fun y => call (.quadric A b c) y ^ 2) (gradSquared (.quadric A b c) x) x ∧
      IsHess (fun y => call (.quadric A b c) y ^ 2) (hessianSquared (.quadric A b c) x) x :=
  ⟨con_grad (.quadric A b c) hA x, con_hess (.quadric A b c) hA x, con_gradSquared (.quadric A b c) hA x, con_hessSquared (.quadric A b c) hA x⟩

/-- The quadric's `grad` is the gradient at every point exactly when the matrix is symmetric. -/
theorem C35_quadric_symmetric_iff (A : Matrix ι ι ℝ) (b : ι → ℝ) (c : ℝ) :
    (∀ x, IsGrad (call (.quadric A b c)) (grad (.quadric A b c) x) x) ↔ Aᵀ = A := by
  constructor
  · intro h
    have h0 : ∀ x : ι → ℝ, A *ᵥ x = x ᵥ* A := by
      intro x
      have h1 := ((isGrad_quad A x).add (isGrad_linear b x)).add (isGrad_const c x)
      have h2 : IsGrad (call (.quadric A b c)) (x ᵥ* A + A *ᵥ x + b + 0) x := by
        refine HasFDerivAt.congr_of_eventuallyEq h1 (Filter.Eventually.of_forall fun y => ?_)
        simp [call, mul_comm]
      have h3 := (h x).unique h2
      ext i
      have := congrFun h3 i
      simp [grad, smul_vecMul] at this
      linarith
    ext i j
    have := congrFun (h0 (Pi.single i 1)) j
    simp [mulVec_single, single_vecMul] at this
    simpa using this
  · intro h x
    exact con_grad (.quadric A b c) h x

/-- C35 fails for a non-symmetric matrix: with `A = [[0,1],[0,0]]` the constraint is `x₀ x₁`, its Hessian `[[0,1],[1,0]]`, but the code returns
`[[0,2],[0,0]]`, and a wrong gradient at `(1, 0)`. -/
theorem C35_quadric_false : ∃ (A : Matrix (Fin 2) (Fin 2) ℝ) (x : Fin 2 → ℝ),
    ¬ IsGrad (call (.quadric A 0 0)) (grad (.quadric A 0 0) x) x ∧
      ∀ y, ¬ IsHess (call (.quadric A 0 0)) (hessian (.quadric A 0 0) y) y := by
  have hq : ∀ y : Fin 2 → ℝ, IsGrad (call (.quadric !![0, 1; 0, 0] 0 0)) ![y 1, y 0] y := by
    intro y
    have h1 := ((isGrad_quad !![0, 1; 0, 0] y).add (isGrad_linear 0 y)).add (isGrad_const 0 y)
    refine h1.congr (fun z => ?_) (fun i => ?_)
    · simp [call, mul_comm]
    · fin_cases i <;> simp [vecMul, mulVec, dotProduct, Fin.sum_univ_two, vecHead]
  refine ⟨!![0, 1; 0, 0], ![1, 0], fun h => ?_, fun y h => ?_⟩
  · have := congrFun (h.unique (hq _)) 1
    simp [grad, vecMul, dotProduct, Fin.sum_univ_two] at this
  · have h2 : IsHess (call (.quadric !![0, 1; 0, 0] 0 0)) !![0, 1; 1, 0] y := by
      refine ⟨fun y => ![y 1, y 0], hq, fun i => ?_⟩
      fin_cases i
      · exact (isGrad_coord (1 : Fin 2) y).congr (fun _ => rfl) (fun j => by fin_cases j <;> simp)
      · exact (isGrad_coord (0 : Fin 2) y).congr (fun _ => rfl) (fun j => by fin_cases j <;> simp)
    have := congrFun (congrFun (h.unique h2) 1) 0
    simp [hessian] at this

example : ∃ (a : Fin 2 → ℝ), a ≠ 0 := ⟨![3, 4], fun h => by have := congrFun h 0; simp at this⟩
example : (!![2, 1; 1, 3] : Matrix (Fin 2) (Fin 2) ℝ)ᵀ = !![2, 1; 1, 3] := by
  ext i j; fin_cases i <;> fin_cases j <;> rfl

/-- C36, plane: `solve_Id_plus_call_grad` always returns, and its value is the one and only solution of
`z + 2·factor·G(x)·∇G(z) = x̃`. -/
theorem C36_plane (a : ι → ℝ) (b : ℝ) (_ha : a ≠ 0) (x xt : ι → ℝ) (factor : ℝ) :
    ∃ z, solvePlusGrad (.plane a b) x xt factor = .ok z ∧
      ∀ w, w + (2 * factor * call (.plane a b) x) • grad (.plane a b) w = xt ↔ w = z := by
  refine ⟨_, rfl, fun w => ⟨fun h => ?_, fun h => ?_⟩⟩
  · ext i
    have := congrFun h i
    simp only [Pi.add_apply, Pi.smul_apply, smul_eq_mul, grad] at this
    rw [← this]; ring
  · ext i
    have := congrFun h i
    simp only [Pi.add_apply, Pi.smul_apply, smul_eq_mul, grad]
    rw [this]; ring

/-- C36, sphere: whenever `1 + 4·factor·G(x) ≠ 0` the value returned is the one and only solution of `z + 2·factor·G(x)·∇G(z) = x̃`; this is in
particular the case outside the ball for `factor ≥ 0`. -/
theorem C36_sphere (r : ℝ) (x xt : ι → ℝ) (factor : ℝ) (hreg : 1 + 4 * factor * call (.sphere r) x ≠ 0) :
    ∃ z, solvePlusGrad (.sphere r) x xt factor = .ok z ∧
      ∀ w, w + (2 * factor * call (.sphere r) x) • grad (.sphere r) w = xt ↔ w = z := by
  have hr : ¬ 1 + 4 * factor * (euclid x ^ 2 - r ^ 2) = 0 := hreg
  refine ⟨fun i => 1 / (1 + 4 * factor * (euclid x ^ 2 - r ^ 2)) * xt i, by simp only [solvePlusGrad]; rw [if_neg hr], fun w => ?_⟩
  have key : ∀ i, (w + (2 * factor * call (.sphere r) x) • grad (.sphere r) w) i =
      (1 + 4 * factor * (euclid x ^ 2 - r ^ 2)) * w i := by
    intro i; simp [call, grad]; ring
  constructor
  · intro h
    ext i
    rw [← h, key, ← mul_assoc, one_div, inv_mul_cancel₀ hr, one_mul]
  · intro h
    ext i
    rw [key, h, ← mul_assoc, mul_one_div_cancel hr, one_mul]

/-- The regularity condition of `C36_sphere` can fail inside the ball: then no finite solution exists for `x̃ ≠ 0`. -/
theorem C36_sphere_singular (r : ℝ) (x xt : ι → ℝ) (factor : ℝ) (hreg : 1 + 4 * factor * call (.sphere r) x = 0) (hxt : xt ≠ 0) :
    ¬ ∃ w, w + (2 * factor * call (.sphere r) x) • grad (.sphere r) w = xt := by
  rintro ⟨w, h⟩
  apply hxt
  rw [← h]
  ext i
  have : (w + (2 * factor * call (.sphere r) x) • grad (.sphere r) w) i = (1 + 4 * factor * call (.sphere r) x) * w i := by
    simp [grad]; ring
  rw [this, hreg]; simp

/-- C36, quadric with symmetric matrix: whenever the system is regular, the one and only solution is returned; otherwise the call raises. -/
theorem C36_quadric_partial (A : Matrix ι ι ℝ) (hA : Aᵀ = A) (b : ι → ℝ) (c : ℝ) (x xt : ι → ℝ) (factor : ℝ) :
    (∀ z, solvePlusGrad (.quadric A b c) x xt factor = .ok z →
      ∀ w, w + (2 * factor * call (.quadric A b c) x) • grad (.quadric A b c) w = xt ↔ w = z) ∧
    ((1 + (4 * factor * call (.quadric A b c) x) • A).det ≠ 0 → ∃ z, solvePlusGrad (.quadric A b c) x xt factor = .ok z) ∧
    ((1 + (4 * factor * call (.quadric A b c) x) • A).det = 0 → solvePlusGrad (.quadric A b c) x xt factor = .error .value) := by
  refine ⟨fun z hz w => ?_, fun h => solveSystem_total _ h, fun h => by simp only [solvePlusGrad, solveSystem]; rw [if_pos h]⟩
  rw [← ((solveSystem_ok.1 hz).2 w)]
  generalize call (.quadric A b c) x = g
  have e : w ᵥ* A = A *ᵥ w := by rw [← vecMul_transpose, hA]
  have key : ∀ i, (w + (2 * factor * g) • grad (.quadric A b c) w) i =
      ((1 + (4 * factor * g) • A) *ᵥ w) i + 2 * factor * g * b i := by
    intro i
    simp [grad, add_mulVec, smul_mulVec, smul_vecMul, e]; ring
  constructor
  · intro h
    ext i
    rw [← h, key]; ring
  · intro h
    ext i
    rw [key, h]; ring

/-- C36 fails for a non-symmetric quadric matrix even with the code's own `grad`: `A = [[0,1],[0,0]]`, `x = (1,1)`, `x̃ = (0,1)`. -/
theorem C36_quadric_false : ∃ (A : Matrix (Fin 2) (Fin 2) ℝ) (x xt z : Fin 2 → ℝ), solvePlusGrad (.quadric A 0 0) x xt 1 = .ok z ∧
    z + (2 * 1 * call (.quadric A 0 0) x) • grad (.quadric A 0 0) z ≠ xt := by
  have hc : call (.quadric !![0, 1; 0, 0] 0 0) (![1, 1] : Fin 2 → ℝ) = 1 := by
    simp [call, vecMul, dotProduct, Fin.sum_univ_two]
  refine ⟨!![0, 1; 0, 0], ![1, 1], ![0, 1], ![-4, 1], ?_, fun h => ?_⟩
  · simp only [solvePlusGrad, hc]
    rw [solveSystem_ok]
    refine ⟨by simp [det_fin_two], fun w => ⟨fun h => ?_, fun h => ?_⟩⟩
    · have h0 := congrFun h 0
      have h1 := congrFun h 1
      simp [mulVec, dotProduct, Fin.sum_univ_two] at h0 h1
      ext i; fin_cases i
      · simp; rw [h1] at h0; linarith
      · simpa using h1
    · rw [h]
      ext i; fin_cases i <;> simp [mulVec, dotProduct, Fin.sum_univ_two]
  · rw [hc] at h
    have := congrFun h 1
    simp [grad, vecMul, dotProduct, Fin.sum_univ_two] at this

/-- C36, `solve_Id_hessian_squared_sum` for every non-empty constraint list: a returned value is the one and only solution of
`(I + factor·Σ hess(Gᵢ²)(x)) z = x̃`, and the call raises exactly when that matrix is singular.  Missing for the full claim: the empty list
(`C36_empty_false`). -/
theorem C36_hessian_partial (cs : List (Constraint ι)) (hne : cs ≠ []) (x xt : ι → ℝ) (factor : ℝ) :
    (∀ z, multiSolveHessianSquared cs x xt factor = .ok z →
      ∀ w, (1 + factor • (cs.map fun c => hessianSquared c x).sum) *ᵥ w = xt ↔ w = z) ∧
    ((1 + factor • (cs.map fun c => hessianSquared c x).sum).det ≠ 0 → ∃ z, multiSolveHessianSquared cs x xt factor = .ok z) ∧
    ((1 + factor • (cs.map fun c => hessianSquared c x).sum).det = 0 → multiSolveHessianSquared cs x xt factor = .error .value) := by
  have e : multiSolveHessianSquared cs x xt factor = solveSystem (1 + factor • (cs.map fun c => hessianSquared c x).sum) xt := by
    match cs, hne with
    | [c], _ => simp [multiSolveHessianSquared, solveHessianSquared]
    | c :: c' :: l, _ => rfl
  rw [e]
  exact ⟨fun z hz => (solveSystem_ok.1 hz).2, solveSystem_total xt, fun h => by simp only [solveSystem]; rw [if_pos h]⟩

/-- The same for `solve_Id_call_times_hessian`, for every constraint list: the system is `(I + factor·Σ Gᵢ(x)·hess Gᵢ(x)) z = x̃`. -/
theorem C36_call_hessian (cs : List (Constraint ι)) (x xt : ι → ℝ) (factor : ℝ) :
    (∀ z, multiSolveCallHessian cs x xt factor = .ok z →
      ∀ w, (1 + factor • (cs.map fun c => call c x • hessian c x).sum) *ᵥ w = xt ↔ w = z) ∧
    ((1 + factor • (cs.map fun c => call c x • hessian c x).sum).det ≠ 0 → ∃ z, multiSolveCallHessian cs x xt factor = .ok z) := by
  have e : multiSolveCallHessian cs x xt factor = solveSystem (1 + factor • (cs.map fun c => call c x • hessian c x).sum) xt := by
    match cs with
    | [] => simp [multiSolveCallHessian, solveSystem]
    | [.plane a b] => simp [multiSolveCallHessian, solveCallHessian, solveSystem, hessian]
    | [.sphere r] => simp [multiSolveCallHessian, solveCallHessian]
    | [.quadric A b k] => simp [multiSolveCallHessian, solveCallHessian]
    | [.no] => simp [multiSolveCallHessian, solveCallHessian]
    | c :: c' :: l => rfl
  rw [e]
  exact ⟨fun z hz => (solveSystem_ok.1 hz).2, solveSystem_total xt⟩

/-- C36 fails for the empty list: the system is `z = x̃`, but `0` is returned whatever `x̃` is. -/
theorem C36_empty_false (x xt : ι → ℝ) (factor : ℝ) (hxt : xt ≠ 0) :
    ∃ z, multiSolveHessianSquared [] x xt factor = .ok z ∧
      (1 + factor • (([] : List (Constraint ι)).map fun c => hessianSquared c x).sum) *ᵥ z ≠ xt :=
  ⟨0, rfl, by simpa using hxt.symm⟩

/-- For a plane and `factor ≥ 0` the Hessian system is always regular, so a step never raises. -/
theorem C36_plane_hessian_total (a : ι → ℝ) (b : ℝ) (x xt : ι → ℝ) (factor : ℝ) (hf : 0 ≤ factor) :
    ∃ z, multiSolveHessianSquared [.plane a b] x xt factor = .ok z := by
  apply solveSystem_total
  intro h0
  obtain ⟨v, hv, h⟩ := Matrix.exists_mulVec_eq_zero_iff.mpr h0
  apply hv
  set g : ι → ℝ := grad (.plane a b) x
  have e : (1 + factor • hessianSquared (.plane a b) x) *ᵥ v = v + (2 * factor * (g ⬝ᵥ v)) • g := by
    ext i
    simp only [hessianSquared, hessian, smul_zero, add_zero, add_mulVec, one_mulVec, smul_mulVec, Pi.add_apply, Pi.smul_apply, smul_eq_mul]
    rw [vecMulVec_mulVec]
    simp [g]; ring
  rw [e] at h
  have h2 : v ⬝ᵥ v + 2 * factor * (g ⬝ᵥ v) ^ 2 = 0 := by
    have := congrArg (fun w => w ⬝ᵥ v) h
    simp only [add_dotProduct, smul_dotProduct, smul_eq_mul, zero_dotProduct] at this
    linarith [this, sq (g ⬝ᵥ v)]
  have h3 : 0 ≤ v ⬝ᵥ v := by
    rw [← euclid_sq]; positivity
  have h4 : 0 ≤ 2 * factor * (g ⬝ᵥ v) ^ 2 := by positivity
  have h5 : v ⬝ᵥ v = 0 := by linarith
  exact dotProduct_self_eq_zero.1 h5

/-- `solve_Id_plus_call_grad` for lists: the empty list returns `x̃`, two or more constraints raise `ValueError`. -/
theorem C36_list (x xt : ι → ℝ) (factor : ℝ) (cs : List (Constraint ι)) :
    (cs = [] → multiSolvePlusGrad cs x xt factor = .ok xt) ∧
      (∀ c, cs = [c] → multiSolvePlusGrad cs x xt factor = solvePlusGrad c x xt factor) ∧
      (1 < cs.length → multiSolvePlusGrad cs x xt factor = .error .value) := by
  refine ⟨fun h => by subst h; rfl, fun c h => by subst h; rfl, fun h => ?_⟩
  match cs, h with
  | _ :: _ :: _, _ => rfl

/-- Regular sphere data: `x = (1, 1)`, `r = 1`, `factor = 1` gives `1 + 4 = 5`. -/
example : 1 + 4 * 1 * call (.sphere 1) (![1, 1] : Fin 2 → ℝ) ≠ 0 := by
  simp only [call, euclid_sq_sum, Fin.sum_univ_two]; norm_num

/-- Singular sphere data: `x = (0, 0)`, `r = 1`, `factor = 1/4`. -/
example : 1 + 4 * (1 / 4) * call (.sphere 1) (![0, 0] : Fin 2 → ℝ) = 0 := by
  simp only [call, euclid_sq_sum, Fin.sum_univ_two]; norm_num

/-- Regular quadric data: `A = 2·I`, `x = (1, 0)`, `factor = 1`. -/
example : (1 + (4 * 1 * call (.quadric ((2 : ℝ) • 1) 0 0) ![1, 0]) • ((2 : ℝ) • (1 : Matrix (Fin 2) (Fin 2) ℝ))).det ≠ 0 := by
  simp [call, det_fin_two, Fin.sum_univ_two, vecMul, dotProduct, Matrix.smul_apply, Matrix.one_apply]; norm_num

end Verif
