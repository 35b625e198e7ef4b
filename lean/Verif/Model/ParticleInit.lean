import Verif.Model.ObjectiveHandling
import Mathlib.Analysis.SpecialFunctions.Pow.NNReal
import Mathlib.Algebra.BigOperators.Group.Finset.Basic

/-!
# Initial particles: `cbx/utils/particle_init.py`

Numbers are exact reals. `unif i` is the `i`-th number in `[0, 1)` and `z i` the `i`-th standard normal number of NumPy's global generator.
-/

namespace Verif

/-- `np.random.uniform(low, high, shape)`, `particle_init.py:28`: NumPy computes `low + (high - low) * u`. -/
def uniformArray (low high : ℝ) (shape : List ℕ) (unif : ℕ → ℝ) : Nd ℝ := ⟨shape, (List.range shape.prod).map fun i => low + (high - low) * unif i⟩

/-- Coordinate `c` of row `r` of `np.random.multivariate_normal(np.zeros((d,)), delta**2 * np.eye(d), ...)`, `particle_init.py:38`: with the singular value decomposition
`u diag(s) v` of the covariance, NumPy computes `z @ (sqrt(s)[:, None] * v)`. All singular values of `delta² I` are `delta²`; `v d` is the orthogonal matrix of the decomposition (which one depends on LAPACK). -/
noncomputable def normalEntry (delta : ℝ) (d : ℕ) (v : ℕ → ℕ → ℝ) (z : ℕ → ℝ) (r c : ℕ) : ℝ := ∑ j ∈ Finset.range d, z (r * d + j) * (Real.sqrt (delta ^ 2) * v j c)

/-- The array `np.random.multivariate_normal(..., (M, N))` of shape `(M, N, d)`, `particle_init.py:38`. -/
noncomputable def normalArray (delta : ℝ) (M N d : ℕ) (v : ℕ → ℕ → ℝ) (z : ℕ → ℝ) : Nd ℝ :=
  ⟨[M, N, d], (List.range (M * N * d)).map fun i => normalEntry delta d v z (i / d) (i % d)⟩

/-- `init_particles(shape, x_min, x_max, delta, method)`, `particle_init.py:3-42`. `v d` is the orthogonal matrix for dimension `d`. -/
noncomputable def initParticles (shape : List ℕ) (xMin xMax delta : ℝ) (method : String) (v : ℕ → ℕ → ℕ → ℝ) (unif z : ℕ → ℝ) : Except Err (Nd ℝ) :=
  if method = "uniform" then .ok (uniformArray xMin xMax shape unif)
  else if method = "normal" then
    match shape with
    | [M, N, d] => .ok (normalArray delta M N d (v d) z)
    | [N, d] => .ok (normalArray delta 1 N d (v d) z)
    | _ => .error .runtime
  else .error .runtime

end Verif
