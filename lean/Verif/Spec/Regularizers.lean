import Mathlib.Analysis.SpecialFunctions.Pow.Real

/-! Specification of the constraint sets and Euclidean distances for `cbx/regularizers.py`. -/

namespace Verif

variable {d : ℕ}

/-- Euclidean distance. -/
noncomputable def euclidNorm (x y : Fin d → ℝ) : ℝ := √(∑ i, (x i - y i) ^ 2)

/-- `δ` is the distance of `x` to the set `S`, attained. -/
def IsDist (x : Fin d → ℝ) (S : Set (Fin d → ℝ)) (δ : ℝ) : Prop := (∀ y ∈ S, δ ≤ euclidNorm x y) ∧ ∃ y ∈ S, euclidNorm x y = δ

/-- The hyperplane `⟨a, x⟩ = b`. -/
def planeSet (a : Fin d → ℝ) (b : ℝ) : Set (Fin d → ℝ) := {x | ∑ i, a i * x i = b}

/-- The sphere of radius `r` around the origin. -/
def sphereSet (r : ℝ) : Set (Fin d → ℝ) := {x | euclidNorm x 0 = r}

/-- The quadric `⟨x, A x⟩ + ⟨b, x⟩ + c = 0`. -/
def quadricSet (A : Fin d → Fin d → ℝ) (b : Fin d → ℝ) (c : ℝ) : Set (Fin d → ℝ) :=
  {x | ∑ i, ∑ j, x i * A i j * x j + ∑ i, b i * x i + c = 0}

/-- Run `m` violates the feasibility test: its mean regulariser is larger than `θ^(-1/2)`. -/
def Violates (theta mean : ℝ) : Prop := 1 < theta * mean ^ 2

end Verif
