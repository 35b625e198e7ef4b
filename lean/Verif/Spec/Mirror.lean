import Mathlib.Analysis.SpecialFunctions.Pow.Real
import Mathlib.Data.Matrix.Mul
import Mathlib.LinearAlgebra.Matrix.DotProduct

/-! Constraint sets and projections, independent of the mirror maps. -/

namespace Verif

open Matrix

variable {ι : Type} [Fintype ι]

/-- Squared Euclidean distance. -/
def dist2 (u v : ι → ℝ) : ℝ := (u - v) ⬝ᵥ (u - v)

/-- Closed ball. -/
def InBall (c : ι → ℝ) (r : ℝ) (x : ι → ℝ) : Prop := dist2 x c ≤ r ^ 2

/-- Hyperplane with normal `a` and offset `b`. -/
def InPlane (a : ι → ℝ) (b : ℝ) (x : ι → ℝ) : Prop := a ⬝ᵥ x = b

/-- Sphere around 0. -/
def InSphere (r : ℝ) (x : ι → ℝ) : Prop := x ⬝ᵥ x = r ^ 2

/-- Boundary of the cube of half-width `r`. -/
def InSquare (r : ℝ) (x : ι → ℝ) : Prop := (∀ i, |x i| ≤ r) ∧ ∃ i, |x i| = r

/-- Open cube. -/
def InBox (x : ι → ℝ) : Prop := ∀ i, -1 < x i ∧ x i < 1

/-- Probability simplex. -/
def InSimplex (x : ι → ℝ) : Prop := (∀ i, 0 ≤ x i) ∧ ∑ i, x i = 1

/-- Orthonormal columns. -/
def InStiefel {n k : Type} [Fintype n] [DecidableEq k] (x : Matrix n k ℝ) : Prop := xᵀ * x = 1

/-- `p` is a point of `S` nearest to `y`. -/
def Nearest (S : (ι → ℝ) → Prop) (y p : ι → ℝ) : Prop := S p ∧ ∀ z, S z → dist2 y p ≤ dist2 y z

/-- What `np.linalg.svd(y, full_matrices=False)` promises. -/
structure IsSVD {n k l : Type} [Fintype n] [Fintype k] [Fintype l] [DecidableEq l] (y : Matrix n k ℝ) (U : Matrix n l ℝ)
    (s : l → ℝ) (Vh : Matrix l k ℝ) : Prop where
  eq : y = U * Matrix.diagonal s * Vh
  left : Uᵀ * U = 1
  right : Vh * Vhᵀ = 1
  nonneg : ∀ i, 0 ≤ s i

end Verif
