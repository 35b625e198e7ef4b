import Mathlib.Analysis.SpecialFunctions.Pow.Real

/-! What a documented minimum claims. -/

namespace Verif

/-- `p` is a global minimiser of `f` with value `v`. -/
def GlobalMin {X : Type} (f : X → ℝ) (p : X) (v : ℝ) : Prop := f p = v ∧ ∀ x, v ≤ f x

/-- `p` is the only one. -/
def UniqueMin {X : Type} (f : X → ℝ) (p : X) (v : ℝ) : Prop := GlobalMin f p v ∧ ∀ x, f x = v → x = p

end Verif
