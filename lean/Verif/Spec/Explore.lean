import Verif.Model.Noise

/-! Specification for C114: noise that acts in every direction. -/

namespace Verif

/-- For this drift every coordinate of the noise is a non-zero multiple of the random number drawn for it. -/
def Spreads {ι : Type} (rule : (ι → ℝ) → (ι → ℝ) → ι → ℝ) (d : ι → ℝ) : Prop :=
  ∃ g : ι → ℝ, (∀ l, g l ≠ 0) ∧ ∀ z l, rule d z l = g l * z l

end Verif
