import Mathlib.LinearAlgebra.Matrix.NonsingularInverse
import Mathlib.LinearAlgebra.Matrix.DotProduct
import Mathlib.Analysis.Real.Sqrt
import Verif.Np.Mat
import Verif.Model.Noise
import Verif.Model.FullMoves

/-!
# Constraint functions: `cbx/constraints.py:1-182`

All functions act on the last axis, so they are functions of one particle `ι → ℝ`.  Division by `norm_a` in the plane constraint is a real
division, to be read for `a ≠ 0`; the division in the sphere solve is modelled with its zero case.  Rounding is not modelled.
-/

namespace Verif

open Matrix

namespace Con

variable {ι : Type} [Fintype ι] [DecidableEq ι]

/-- The constraint classes: `planeConstraint` (`constraints.py:162-167`), `sphereConstraint` (`constraints.py:143-146`),
`quadricConstraint` (`constraints.py:119-123`), `NoConstraint` (`constraints.py:105-107`). -/
inductive Constraint (ι : Type) where
  | plane (a : ι → ℝ) (b : ℝ)
  | sphere (r : ℝ)
  | quadric (A : Matrix ι ι ℝ) (b : ι → ℝ) (c : ℝ)
  | no

/-- `__call__`, `constraints.py:109-110,125-130,148-149,169-170`. -/
noncomputable def call : Constraint ι → (ι → ℝ) → ℝ
  | .plane a b, x => ((∑ i, a i * x i) - b) / euclid a
  | .sphere r, x => euclid x ^ 2 - r ^ 2
  | .quadric A b c, x => (∑ i, x i * (x ᵥ* A) i) + (∑ i, x i * b i) + c
  | .no, _ => 0

/-- `grad`, `constraints.py:112-113,132-133,151-152,172-173`. -/
noncomputable def grad : Constraint ι → (ι → ℝ) → ι → ℝ
  | .plane a _, _ => fun i => a i / euclid a
  | .sphere _, x => fun i => 2 * x i
  | .quadric A b _, x => fun i => (((2 : ℝ) • x) ᵥ* A) i + b i
  | .no, _ => 0

/-- `hessian`, `constraints.py:115-116,135-136,154-155,175-176`. -/
noncomputable def hessian : Constraint ι → (ι → ℝ) → Matrix ι ι ℝ
  | .plane _ _, _ => 0
  | .sphere _, _ => (2 : ℝ) • (1 : Matrix ι ι ℝ)
  | .quadric A _ _, _ => (2 : ℝ) • A
  | .no, _ => 0

/-- `Constraint.squared`, `constraints.py:80-81`. -/
noncomputable def squared (c : Constraint ι) (x : ι → ℝ) : ℝ := call c x ^ 2

/-- `Constraint.grad_squared`, `constraints.py:83-84`. -/
noncomputable def gradSquared (c : Constraint ι) (x : ι → ℝ) : ι → ℝ := fun i => 2 * call c x * grad c x i

/-- `Constraint.hessian_squared`, `constraints.py:86-89`. -/
noncomputable def hessianSquared (c : Constraint ι) (x : ι → ℝ) : Matrix ι ι ℝ :=
  (2 : ℝ) • (Matrix.vecMulVec (grad c x) (grad c x) + call c x • hessian c x)

/-- `solve_system`, `constraints.py:4-5`: `np.linalg.solve` raises `LinAlgError` (a `ValueError`) for a singular matrix. -/
noncomputable def solveSystem (A : Matrix ι ι ℝ) (x : ι → ℝ) : Except Err (ι → ℝ) :=
  if A.det = 0 then .error .value else .ok (A⁻¹ *ᵥ x)

/-- `solve_Id_call_times_hessian`, `constraints.py:94-99`, overridden for the plane in `constraints.py:178-179`. -/
noncomputable def solveCallHessian (c : Constraint ι) (x xt : ι → ℝ) (factor : ℝ) : Except Err (ι → ℝ) :=
  match c with
  | .plane _ _ => .ok xt
  | c => solveSystem (1 + factor • (call c x • hessian c x)) xt

/-- `solve_Id_hessian_squared`, `constraints.py:101-103`. -/
noncomputable def solveHessianSquared (c : Constraint ι) (x xt : ι → ℝ) (factor : ℝ) : Except Err (ι → ℝ) :=
  solveSystem (1 + factor • hessianSquared c x) xt

/-- `solve_Id_plus_call_grad`, `constraints.py:138-141,157-158,181-182`; `NoConstraint` has no such method.  In the sphere case a zero
denominator gives infinities or NaN, no exception: reported here as the error `zeroDiv`. -/
noncomputable def solvePlusGrad (c : Constraint ι) (x xt : ι → ℝ) (factor : ℝ) : Except Err (ι → ℝ) :=
  match c with
  | .plane a b => .ok fun i => xt i - 2 * factor * call (.plane a b) x * a i / euclid a
  | .sphere r =>
    if 1 + 4 * factor * (euclid x ^ 2 - r ^ 2) = 0 then .error .zeroDiv
    else .ok fun i => 1 / (1 + 4 * factor * (euclid x ^ 2 - r ^ 2)) * xt i
  | .quadric A b k =>
    solveSystem (1 + (4 * factor * call (.quadric A b k) x) • A) fun i => xt i - 2 * factor * call (.quadric A b k) x * b i
  | .no => .error .attribute

/-- `MultiConstraint.__call__`, `constraints.py:11-15`. -/
noncomputable def callSum (cs : List (Constraint ι)) (x : ι → ℝ) : ℝ := (cs.map fun c => call c x).sum

/-- `MultiConstraint.squared`, `constraints.py:17-21`. -/
noncomputable def squaredSum (cs : List (Constraint ι)) (x : ι → ℝ) : ℝ := (cs.map fun c => squared c x).sum

/-- `MultiConstraint.grad_squared_sum`, `constraints.py:23-27`. -/
noncomputable def gradSquaredSum (cs : List (Constraint ι)) (x : ι → ℝ) : ι → ℝ := (cs.map fun c => gradSquared c x).sum

/-- `MultiConstraint.hessian_squared_sum`, `constraints.py:29-33`. -/
noncomputable def hessianSquaredSum (cs : List (Constraint ι)) (x : ι → ℝ) : Matrix ι ι ℝ := (cs.map fun c => hessianSquared c x).sum

/-- `MultiConstraint.hessian_sum`, `constraints.py:35-39`. -/
noncomputable def hessianSum (cs : List (Constraint ι)) (x : ι → ℝ) : Matrix ι ι ℝ := (cs.map fun c => hessian c x).sum

/-- `MultiConstraint.call_times_hessian_sum`, `constraints.py:41-45`. -/
noncomputable def callHessianSum (cs : List (Constraint ι)) (x : ι → ℝ) : Matrix ι ι ℝ :=
  (cs.map fun c => call c x • hessian c x).sum

/-- `MultiConstraint.solve_Id_call_times_hessian`, `constraints.py:47-54`. -/
noncomputable def multiSolveCallHessian (cs : List (Constraint ι)) (x xt : ι → ℝ) (factor : ℝ) : Except Err (ι → ℝ) :=
  match cs with
  | [] => .ok xt
  | [c] => solveCallHessian c x xt factor
  | cs => solveSystem (1 + factor • callHessianSum cs x) xt

/-- `MultiConstraint.solve_Id_plus_call_grad`, `constraints.py:56-63`. -/
noncomputable def multiSolvePlusGrad (cs : List (Constraint ι)) (x xt : ι → ℝ) (factor : ℝ) : Except Err (ι → ℝ) :=
  match cs with
  | [] => .ok xt
  | [c] => solvePlusGrad c x xt factor
  | _ => .error .value

/-- `MultiConstraint.solve_Id_hessian_squared_sum`, `constraints.py:66-77`; without constraints it returns `0`. -/
noncomputable def multiSolveHessianSquared (cs : List (Constraint ι)) (x xt : ι → ℝ) (factor : ℝ) : Except Err (ι → ℝ) :=
  match cs with
  | [] => .ok 0
  | [c] => solveHessianSquared c x xt factor
  | cs => solveSystem (1 + factor • hessianSquaredSum cs x) xt

/-- The methods of `MultiConstraint(cs)` that `DriftConstrainedCBO` and `RegCombinationCBO` use, `constraints.py:7-77`. -/
noncomputable def ops (cs : List (Constraint ι)) : ConOps ℝ (ι → ℝ) where
  gradSq := gradSquaredSum cs
  solveHess q x xt := multiSolveHessianSquared cs x xt q
  solvePlus q x xt := multiSolvePlusGrad cs x xt q

end Con
end Verif
