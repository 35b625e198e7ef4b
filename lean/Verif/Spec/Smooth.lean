import Mathlib.Data.Fintype.BigOperators
import Mathlib.Data.Real.Basic

/-! Specification for C111: objectives between two parabolas. Independent of the model. -/

namespace Verif

/-- **Specification.** At every point the objective lies between two parabolas with the slope `G x`: curvature at most `L` from above and at least `-L'` from below. For a differentiable objective
with `L`-Lipschitz gradient `G` this holds with `L' = L`, for a convex one with `L' = 0`. -/
structure Curved {ι : Type} [Fintype ι] (f : (ι → ℝ) → ℝ) (G : (ι → ℝ) → ι → ℝ) (L L' : ℝ) : Prop where
  upper : ∀ x y, f y ≤ f x + ∑ l, G x l * (y l - x l) + L / 2 * ∑ l, (y l - x l) ^ 2
  lower : ∀ x y, f x + ∑ l, G x l * (y l - x l) - L' / 2 * ∑ l, (y l - x l) ^ 2 ≤ f y

end Verif
