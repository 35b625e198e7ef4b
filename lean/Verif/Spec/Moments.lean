import Mathlib.Probability.Moments.Covariance
import Mathlib.Probability.Distributions.Gaussian.Real

/-! Specification for C106: random numbers with mean 0 and variance 1. -/

namespace Verif

open MeasureTheory ProbabilityTheory

variable {Ω ι : Type} [MeasurableSpace Ω] [DecidableEq ι]

/-- An array of random vectors (row `i`, slot `j`, coordinate `l`) whose entries have mean 0 and variance 1 and are pairwise
uncorrelated. -/
structure White (μ : Measure Ω) (z : Ω → ℕ → ℕ → ι → ℝ) : Prop where
  lp : ∀ i j l, MemLp (fun ω => z ω i j l) 2 μ
  mean : ∀ i j l, ∫ ω, z ω i j l ∂μ = 0
  cov : ∀ i j l i' j' l',
    cov[fun ω => z ω i j l, fun ω => z ω i' j' l'; μ] = if i = i' ∧ j = j' ∧ l = l' then 1 else 0

/-- Independent standard normal numbers: what `np.random.Generator.normal` (the default sampler, `noise.py:46`) stands for. -/
structure StdNormalTape (μ : Measure Ω) (z : Ω → ℕ → ℕ → ι → ℝ) : Prop where
  law : ∀ i j l, HasLaw (fun ω => z ω i j l) (gaussianReal 0 1) μ
  indep : iIndepFun (fun (q : ℕ × ℕ × ι) ω => z ω q.1 q.2.1 q.2.2) μ

end Verif
