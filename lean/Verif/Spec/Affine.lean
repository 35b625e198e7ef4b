import Verif.Spec.Noise
import Verif.Spec.Post
import Verif.Proofs.Step
import Verif.Model.Noise
import Mathlib.Probability.Distributions.Gaussian.Real
import Mathlib.Probability.Independence.Basic
import Mathlib.Probability.ProductMeasure

/-! Specification of C112: affine images of a state, and the dynamics with covariance noise. -/

set_option linter.unusedSectionVars false

namespace Verif

open Matrix MeasureTheory ProbabilityTheory

section
variable {ι : Type} [Fintype ι] [DecidableEq ι]

/-- The ensemble of `t` is the image of the ensemble of `s` under `v ↦ A v + b`; sizes, parameters, running sets and the position in the random numbers are the same. -/
structure AffMatch (A : Matrix ι ι ℝ) (b : ι → ℝ) (s t : St ℝ (ι → ℝ)) : Prop where
  M : t.M = s.M
  N : t.N = s.N
  active : t.active = s.active
  batched : t.batched = s.batched
  alpha : t.alpha = s.alpha
  lamda : t.lamda = s.lamda
  dt : t.dt = s.dt
  sigma : t.sigma = s.sigma
  draws : t.draws = s.draws
  x : ∀ m < s.M, ∀ n < s.N, t.x.get m n = A *ᵥ s.x.get m n + b

/-- A CBO object with default consensus, covariance noise (mode 'sampling' or not), finite objective `f` and post processing `p`. -/
structure CovCBO (env : Env ℝ (ι → ℝ)) (f : (ι → ℝ) → ℝ) (p : (ι → ℝ) → ι → ℝ) (eigh : Matrix ι ι ℝ → (ι → ℝ) × Matrix ι ι ℝ) (sampling : Bool)
    (smp : ℕ → ℕ → ℕ → ι → ℝ) : Prop where
  corr : env.corr = .none
  cons : env.cons = .mean consDefault
  obj : ∀ v, env.f v = .fin (f v)
  eig : EighOK eigh
  noise : env.noise = covNoise eigh sampling smp
  post : PostMap env p
  perm : PermOK env

/-- The law of the random vectors of one step: a vector of independent standard normal numbers for every run and row, all independent. -/
noncomputable def stepLaw (ι : Type) [Fintype ι] : Measure (ℕ × ℕ → ι → ℝ) := Measure.infinitePi fun _ => Measure.pi fun _ => gaussianReal 0 1

/-- The random vectors of the draws `0, 1, …` are independent of each other and have the law `stepLaw`. -/
structure IidDraws {Ω : Type} [MeasurableSpace Ω] (P : Measure Ω) (Z : ℕ → Ω → ℕ × ℕ → ι → ℝ) : Prop where
  meas : ∀ k, Measurable (Z k)
  law : ∀ k, P.map (Z k) = stepLaw ι
  indep : iIndepFun Z P

end

end Verif
