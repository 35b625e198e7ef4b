import Verif.Spec.Standard
import Verif.Model.Noise

/-! Specification of the linear algebra routine used by covariance noise. -/

namespace Verif

variable {ι : Type} [Fintype ι] [DecidableEq ι]

/-- Contract of `np.linalg.eigh`: for a symmetric matrix it returns eigenvalues `B` and a matrix `Q` of orthonormal
eigenvectors (in its columns), so that `A = Q diag(B) Qᵀ`. -/
def EighOK (eigh : Matrix ι ι ℝ → (ι → ℝ) × Matrix ι ι ℝ) : Prop :=
  ∀ A : Matrix ι ι ℝ, A.transpose = A →
    (eigh A).2.transpose * (eigh A).2 = 1 ∧ A = (eigh A).2 * Matrix.diagonal (eigh A).1 * (eigh A).2.transpose

/-- Symmetric and positive semidefinite. -/
def PSD (A : Matrix ι ι ℝ) : Prop := A.transpose = A ∧ ∀ x : ι → ℝ, 0 ≤ ∑ i, ∑ j, x i * A i j * x j

/-- The weighted covariance `sum_n w_n (x_n - c)(x_n - c)ᵀ` with weights `w_n = exp(-a f_n) / sum_k exp(-a f_k)`. -/
noncomputable def weightedCov (a : ℝ) (N : ℕ) (f : ℕ → ℝ) (x : ℕ → ι → ℝ) (c : ι → ℝ) : Matrix ι ι ℝ :=
  Matrix.of fun i j => ∑ n ∈ Finset.range N,
    Real.exp (-(a * f n)) / (∑ k ∈ Finset.range N, Real.exp (-(a * f k))) * ((x n i - c i) * (x n j - c j))

/-- The noise of a run whose drift is zero for all its particles is zero, whatever the random numbers. -/
def NoiseVanish {V : Type} [AddCommGroup V] [Module ℝ V] (env : Env ℝ V) : Prop :=
  ∀ (s : St ℝ V) d n, s.drift = some d → env.noise s = .ok n → n.rows = d.rows → ∀ i < d.rows,
    (∀ j < d.cols, d.get i j = 0) → ∀ j < d.cols, n.get i j = 0

end Verif
