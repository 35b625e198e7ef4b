import Mathlib.Probability.Distributions.Gaussian.Real
import Mathlib.MeasureTheory.Constructions.Pi

/-! Independent standard normal numbers. -/

namespace Verif

open MeasureTheory ProbabilityTheory

/-- The distribution of a vector of independent standard normal numbers, `sampler(size=...)` for one particle with the
default sampler `rng.standard_normal`. -/
noncomputable def stdNormal (ι : Type) [Fintype ι] : Measure (ι → ℝ) := Measure.pi fun _ => gaussianReal 0 1

end Verif
