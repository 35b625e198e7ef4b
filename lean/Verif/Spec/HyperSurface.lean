import Mathlib.Data.Fintype.Card
import Verif.Model.HyperSurface
import Verif.Spec.ExampleReal

/-! # Vocabulary and a concrete dynamic for C34 -/

set_option linter.unusedSectionVars false

namespace Verif

/-- Step sizes for which a step cannot reach the origin: `dt σ² (d-1) < 1/2` with isotropic noise, `4 dt σ² < 1` with anisotropic noise. -/
def SmallStep (d : ℕ) (aniso : Bool) (sigma dt : ℝ) : Prop :=
  0 ≤ dt ∧ if aniso then 4 * (dt * sigma ^ 2) < 1 else dt * sigma ^ 2 * ((d : ℝ) - 1) < 1 / 2

/-- The concrete dynamic of `realEnv` with the consensus rule of `HyperSurfaceCBO`, on the unit circle. -/
noncomputable def Example.circleEnv : Env ℝ (Fin 2 → ℝ) :=
  { realEnv (rowNoise (fun d z => euclid d • z) Example.smp) with cons := .mean consRescale }

/-- Start ensemble on the unit circle. -/
noncomputable def Example.circleArgs : Args ℝ (Fin 2 → ℝ) := realArgs (fun i j => if i = j then ![1, 0] else ![0, 1]) (1 / 2) none

end Verif
