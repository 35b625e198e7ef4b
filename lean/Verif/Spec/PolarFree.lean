import Verif.Model.Polar
import Verif.Spec.Standard

/-! Hypotheses for `PolarCBO` without noise. -/

namespace Verif

/-- `PolarCBO` with kernel `k`, a finite objective `f`, a noise model acting particle by particle, a post processing acting particle by
particle, and a permutation oracle that permutes. -/
structure PolarStd {ι : Type} [Fintype ι] (env : Env ℝ (ι → ℝ)) (k : Kernel) (kappa : ℝ) (mode : KernelMode) (f : (ι → ℝ) → ℝ)
    (ν : ℕ → ℝ → ℕ → ℕ → (ι → ℝ) → ι → ℝ) (p : (ι → ℝ) → ι → ℝ) : Prop where
  corr : env.corr = .none
  cons : env.cons = polarCons k kappa mode
  noise : NoiseRows env ν
  post : PostMap env p
  perm : PermOK env
  f : ∀ v, env.f v = .fin (f v)

/-- The kernel factor of every run is positive: mode `'const'`, or mode `'alpha'` and positive parameters. -/
def FactorPos (mode : KernelMode) (alpha : ℕ → ℝ) : Prop := mode = .const ∨ mode = .alpha ∧ ∀ m, 0 < alpha m

/-- Sets that are pairwise more than `kappa` apart. -/
def Apart {ι κ : Type} [Fintype ι] (kappa : ℝ) (C : κ → Set (ι → ℝ)) : Prop :=
  ∀ a b, a ≠ b → ∀ u ∈ C a, ∀ v ∈ C b, kappa < √(∑ i, (u i - v i) ^ 2)

/-- Sets of diameter less than `kappa`. -/
def Narrow {ι κ : Type} [Fintype ι] (kappa : ℝ) (C : κ → Set (ι → ℝ)) : Prop :=
  ∀ a, ∀ u ∈ C a, ∀ v ∈ C a, √(∑ i, (u i - v i) ^ 2) < kappa

end Verif
