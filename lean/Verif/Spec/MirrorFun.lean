import Verif.Spec.Constraints
import Mathlib.Topology.Basic

/-! Second derivatives of functions that are smooth near a point only. -/

namespace Verif

open Matrix

variable {ι : Type} [Fintype ι]

/-- `H` is the Hessian of `f` at `x`: `f` has a gradient near `x`, and the total derivative of that gradient at `x` is `H`. -/
def IsHessAt (f : (ι → ℝ) → ℝ) (H : Matrix ι ι ℝ) (x : ι → ℝ) : Prop :=
  ∃ g : (ι → ℝ) → ι → ℝ, (∀ᶠ y in nhds x, IsGrad f (g y) y) ∧ ∀ i, HasFDerivAt (fun y => g y i) (dotForm (H i)) x

end Verif
