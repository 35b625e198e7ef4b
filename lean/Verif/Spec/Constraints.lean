import Mathlib.Analysis.Calculus.FDeriv.Basic
import Mathlib.Analysis.Calculus.FDeriv.Pi
import Mathlib.LinearAlgebra.Matrix.DotProduct
import Mathlib.Analysis.Normed.Module.FiniteDimension
import Mathlib.LinearAlgebra.Matrix.ToLin
import Mathlib.Analysis.InnerProductSpace.Basic

/-! Gradient and Hessian of a function of finitely many real variables, by the total derivative. -/

namespace Verif

open Matrix

variable {ι : Type} [Fintype ι]

/-- The linear form `v ↦ g · v`. -/
noncomputable def dotForm (g : ι → ℝ) : (ι → ℝ) →L[ℝ] ℝ := ∑ i, g i • ContinuousLinearMap.proj i

/-- `g` is the gradient of `f` at `x`. -/
def IsGrad (f : (ι → ℝ) → ℝ) (g x : ι → ℝ) : Prop := HasFDerivAt f (dotForm g) x

/-- `H` is the Hessian of `f` at `x`: `f` has a gradient everywhere, and the total derivative of that gradient at `x` is `H`. -/
def IsHess (f : (ι → ℝ) → ℝ) (H : Matrix ι ι ℝ) (x : ι → ℝ) : Prop :=
  ∃ g : (ι → ℝ) → ι → ℝ, (∀ y, IsGrad f (g y) y) ∧ ∀ i, HasFDerivAt (fun y => g y i) (dotForm (H i)) x

end Verif
