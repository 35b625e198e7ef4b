import Mathlib.Analysis.Calculus.FDeriv.Mul
import Mathlib.Analysis.Calculus.FDeriv.Pow
import Mathlib.Analysis.Calculus.FDeriv.Linear
import Mathlib.Tactic.Ring
import Mathlib.Tactic.Linarith
import Mathlib.Tactic.FieldSimp
import Verif.Model.Constraints
import Verif.Spec.Constraints
import Verif.Proofs.Mirror

/-! Helper lemmas for `Props/Constraints.lean`. -/

namespace Verif

open Matrix Con

variable {ι : Type} [Fintype ι] [DecidableEq ι]

omit [DecidableEq ι] in
theorem dotForm_apply (g v : ι → ℝ) : dotForm g v = ∑ i, g i * v i := by
  simp [dotForm, ContinuousLinearMap.sum_apply]

omit [DecidableEq ι] in
theorem dotForm_add (g h : ι → ℝ) : dotForm (g + h) = dotForm g + dotForm h := by
  ext v; simp [dotForm_apply, add_mul, Finset.sum_add_distrib]

omit [DecidableEq ι] in
theorem dotForm_smul (k : ℝ) (g : ι → ℝ) : dotForm (k • g) = k • dotForm g := by
  ext v; simp [dotForm_apply, Finset.mul_sum, mul_assoc]

omit [DecidableEq ι] in
theorem dotForm_zero : dotForm (0 : ι → ℝ) = 0 := by
  ext v; simp [dotForm_apply]

theorem dotForm_inj {g h : ι → ℝ} (e : dotForm g = dotForm h) : g = h := by
  ext i
  have := congrArg (fun L : (ι → ℝ) →L[ℝ] ℝ => L (Pi.single i 1)) e
  simpa [dotForm_apply, Pi.single_apply] using this

/-- A linear form has itself as derivative. -/
theorem isGrad_linear (g x : ι → ℝ) : IsGrad (fun y => ∑ i, g i * y i) g x := by
  have h := (dotForm g).hasFDerivAt (x := x)
  refine h.congr_of_eventuallyEq (Filter.Eventually.of_forall fun y => ?_)
  exact (dotForm_apply g y).symm

omit [DecidableEq ι] in
theorem IsGrad.congr {f f' : (ι → ℝ) → ℝ} {g g' x : ι → ℝ} (h : IsGrad f' g' x) (hf : ∀ y, f y = f' y) (hg : ∀ i, g i = g' i) :
    IsGrad f g x := by
  obtain rfl : f = f' := funext hf
  obtain rfl : g = g' := funext hg
  exact h

omit [DecidableEq ι] in
theorem IsGrad.add {f₁ f₂ : (ι → ℝ) → ℝ} {g₁ g₂ x : ι → ℝ} (h₁ : IsGrad f₁ g₁ x) (h₂ : IsGrad f₂ g₂ x) :
    IsGrad (fun y => f₁ y + f₂ y) (g₁ + g₂) x := by
  unfold IsGrad at *
  rw [dotForm_add]
  exact HasFDerivAt.fun_add h₁ h₂

omit [DecidableEq ι] in
theorem isGrad_const (k : ℝ) (x : ι → ℝ) : IsGrad (fun _ => k) 0 x := by
  unfold IsGrad
  rw [dotForm_zero]
  exact hasFDerivAt_const k x

omit [DecidableEq ι] in
theorem IsGrad.mul {f₁ f₂ : (ι → ℝ) → ℝ} {g₁ g₂ x : ι → ℝ} (h₁ : IsGrad f₁ g₁ x) (h₂ : IsGrad f₂ g₂ x) :
    IsGrad (fun y => f₁ y * f₂ y) (f₁ x • g₂ + f₂ x • g₁) x := by
  unfold IsGrad at *
  rw [dotForm_add, dotForm_smul, dotForm_smul]
  exact HasFDerivAt.fun_mul h₁ h₂

omit [DecidableEq ι] in
theorem IsGrad.const_mul {f : (ι → ℝ) → ℝ} {g x : ι → ℝ} (k : ℝ) (h : IsGrad f g x) : IsGrad (fun y => k * f y) (k • g) x := by
  have := (isGrad_const k x).mul h
  simpa using this

omit [DecidableEq ι] in
theorem IsGrad.sum {κ : Type} (s : Finset κ) {f : κ → (ι → ℝ) → ℝ} {g : κ → ι → ℝ} {x : ι → ℝ} (h : ∀ k ∈ s, IsGrad (f k) (g k) x) :
    IsGrad (fun y => ∑ k ∈ s, f k y) (∑ k ∈ s, g k) x := by
  classical
  induction s using Finset.induction_on with
  | empty => simpa using isGrad_const 0 x
  | insert a s ha ih =>
    simp only [Finset.sum_insert ha]
    exact (h a (Finset.mem_insert_self a s)).add (ih fun k hk => h k (Finset.mem_insert_of_mem hk))

/-- A function has at most one gradient at a point. -/
theorem IsGrad.unique {f : (ι → ℝ) → ℝ} {g h x : ι → ℝ} (h₁ : IsGrad f g x) (h₂ : IsGrad f h x) : g = h :=
  dotForm_inj (HasFDerivAt.unique h₁ h₂)

/-- A function has at most one Hessian at a point. -/
theorem IsHess.unique {f : (ι → ℝ) → ℝ} {H H' : Matrix ι ι ℝ} {x : ι → ℝ} (h₁ : IsHess f H x) (h₂ : IsHess f H' x) : H = H' := by
  obtain ⟨g, hg, h⟩ := h₁
  obtain ⟨g', hg', h'⟩ := h₂
  have e : g = g' := funext fun y => (hg y).unique (hg' y)
  subst e
  funext i
  exact dotForm_inj ((h i).unique (h' i))

theorem isGrad_coord (i : ι) (x : ι → ℝ) : IsGrad (fun y => y i) (Pi.single i 1) x := by
  have := isGrad_linear (Pi.single i (1 : ℝ)) x
  simpa [Pi.single_apply] using this

/-- Gradient of a quadratic form, for any matrix. -/
theorem isGrad_quad (A : Matrix ι ι ℝ) (x : ι → ℝ) :
    IsGrad (fun y => ∑ i, y i * (y ᵥ* A) i) (x ᵥ* A + A *ᵥ x) x := by
  have h : IsGrad (fun y => ∑ i, y i * (y ᵥ* A) i) (∑ i, (x i • (A.col i) + (x ᵥ* A) i • Pi.single i 1)) x := by
    apply IsGrad.sum
    intro i _
    refine IsGrad.mul (f₁ := fun y => y i) (isGrad_coord i x) ?_
    have := isGrad_linear (A.col i) x
    refine HasFDerivAt.congr_of_eventuallyEq this (Filter.Eventually.of_forall fun y => ?_)
    simp [vecMul, dotProduct, mul_comm]
  convert h using 1
  ext j
  simp only [Pi.add_apply, Finset.sum_apply, Pi.smul_apply, smul_eq_mul, Finset.sum_add_distrib, Pi.single_apply, mul_ite, mul_one,
    mul_zero, Finset.sum_ite_eq, Finset.mem_univ, if_true, Matrix.col_apply]
  simp [mulVec, dotProduct, mul_comm, add_comm]

omit [DecidableEq ι] in
theorem euclid_sq_sum (v : ι → ℝ) : euclid v ^ 2 = ∑ i, v i ^ 2 := by
  rw [euclid, Real.sq_sqrt (Finset.sum_nonneg fun i _ => sq_nonneg _)]

/-- Conditions on the parameters under which the documented derivative formulas hold: a symmetric quadric matrix. -/
def Con.Constraint.Regular : Constraint ι → Prop
  | .quadric A _ _ => Aᵀ = A
  | _ => True

theorem con_grad (c : Constraint ι) (hc : c.Regular) (x : ι → ℝ) : IsGrad (call c) (grad c x) x := by
  cases c with
  | plane a b =>
    refine (((isGrad_linear a x).add (isGrad_const (-b) x)).const_mul (1 / euclid a)).congr (fun y => ?_) (fun i => ?_)
    · simp only [call]; ring
    · simp [grad]; ring
  | sphere r =>
    refine ((isGrad_quad (1 : Matrix ι ι ℝ) x).add (isGrad_const (-r ^ 2) x)).congr (fun y => ?_) (fun i => ?_)
    · simp only [call, euclid_sq_sum, vecMul_one]
      have : ∀ i, y i ^ 2 = y i * y i := fun i => sq _
      simp only [this]; ring
    · simp [grad]; ring
  | quadric A b k =>
    have hA : Aᵀ = A := hc
    refine (((isGrad_quad A x).add (isGrad_linear b x)).add (isGrad_const k x)).congr (fun y => ?_) (fun i => ?_)
    · simp [call, mul_comm]
    · have e : A *ᵥ x = x ᵥ* A := by rw [← vecMul_transpose, hA]
      rw [e]
      simp [grad, smul_vecMul]; ring
  | no => exact (isGrad_const 0 x).congr (fun _ => rfl) (fun _ => rfl)

theorem con_grad_coord (c : Constraint ι) (hc : c.Regular) (x : ι → ℝ) (i : ι) :
    IsGrad (fun y => grad c y i) (hessian c x i) x := by
  cases c with
  | plane a b => exact (isGrad_const (a i / euclid a) x).congr (fun _ => rfl) (fun _ => rfl)
  | sphere r =>
    refine ((isGrad_coord i x).const_mul 2).congr (fun y => rfl) (fun j => ?_)
    simp [hessian, Matrix.one_apply, Pi.single_apply, eq_comm]
  | quadric A b k =>
    have hA : Aᵀ = A := hc
    refine (((isGrad_linear (A i) x).const_mul 2).add (isGrad_const (b i) x)).congr (fun y => ?_) (fun j => ?_)
    · have : ∀ j, A i j = A j i := fun j => (congrFun (congrFun hA j) i)
      simp only [grad, vecMul, dotProduct, Finset.mul_sum, this, Pi.smul_apply, smul_eq_mul]
      congr 1
      exact Finset.sum_congr rfl fun j _ => by ring
    · simp [hessian]
  | no => exact (isGrad_const 0 x).congr (fun _ => rfl) (fun _ => rfl)

theorem con_gradSquared (c : Constraint ι) (hc : c.Regular) (x : ι → ℝ) : IsGrad (squared c) (gradSquared c x) x := by
  refine ((con_grad c hc x).mul (con_grad c hc x)).congr (fun y => ?_) (fun i => ?_)
  · simp [squared, sq]
  · simp [gradSquared]; ring

theorem con_hess (c : Constraint ι) (hc : c.Regular) (x : ι → ℝ) : IsHess (call c) (hessian c x) x :=
  ⟨grad c, con_grad c hc, con_grad_coord c hc x⟩

theorem con_hessSquared (c : Constraint ι) (hc : c.Regular) (x : ι → ℝ) : IsHess (squared c) (hessianSquared c x) x := by
  refine ⟨gradSquared c, con_gradSquared c hc, fun i => ?_⟩
  refine (((con_grad c hc x).mul (con_grad_coord c hc x i)).const_mul 2).congr (fun y => ?_) (fun j => ?_)
  · simp [gradSquared, mul_assoc]
  · simp [hessianSquared, vecMulVec_apply]; ring

theorem solveSystem_ok {A : Matrix ι ι ℝ} {x z : ι → ℝ} :
    solveSystem A x = .ok z ↔ A.det ≠ 0 ∧ ∀ w, A *ᵥ w = x ↔ w = z := by
  unfold solveSystem
  split
  · rename_i h; simp [h]
  · rename_i h
    have hu : IsUnit A.det := isUnit_iff_ne_zero.mpr h
    constructor
    · intro e
      cases e
      refine ⟨h, fun w => ⟨fun e => ?_, fun e => ?_⟩⟩
      · rw [← e, mulVec_mulVec, nonsing_inv_mul _ hu, one_mulVec]
      · rw [e, mulVec_mulVec, mul_nonsing_inv _ hu, one_mulVec]
    · rintro ⟨-, hw⟩
      have : A⁻¹ *ᵥ x = z := (hw _).1 (by rw [mulVec_mulVec, mul_nonsing_inv _ hu, one_mulVec])
      rw [this]

theorem solveSystem_total {A : Matrix ι ι ℝ} (x : ι → ℝ) (h : A.det ≠ 0) : ∃ z, solveSystem A x = .ok z := by
  unfold solveSystem; rw [if_neg h]; exact ⟨_, rfl⟩

end Verif
