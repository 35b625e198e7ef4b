import Verif.Spec.Noise

/-! Specification for C113: noise that stays in a subspace. -/

namespace Verif

/-- If all drift vectors of a run lie in the subspace `W`, then so do its noise vectors, whatever the random numbers. -/
def NoiseIn {V : Type} [AddCommGroup V] [Module ℝ V] (env : Env ℝ V) (W : Submodule ℝ V) : Prop :=
  ∀ (s : St ℝ V) d n, s.drift = some d → env.noise s = .ok n → n.rows = d.rows → ∀ i < d.rows,
    (∀ j < d.cols, d.get i j ∈ W) → ∀ j < d.cols, n.get i j ∈ W

end Verif
