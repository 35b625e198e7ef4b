import Verif.Model.Consensus
import Mathlib.Data.Matrix.Mul
import Mathlib.Data.Real.Sqrt

/-!
# Noise models: `cbx/noise.py`, `update_covariance` and `compute_mat_sqrt` of `cbx/dynamics/pdyn.py`

A particle is a vector `ι → ℝ` (for the isotropic, anisotropic and constant models `ι` may also enumerate several trailing
axes; covariance noise needs exactly one, `noise.py:242`). `smp k i j` is entry `(i,j)` of the `k`-th array returned by
`self.sampler(size=drift.shape)`: an arbitrary function, so every statement holds for every random outcome.
Exact real arithmetic; `np.sqrt(dt)` of a negative `dt` is NaN in NumPy and 0 here, the theorems that depend on it assume
`0 ≤ dt` or hold for the scaled vector itself.
-/

namespace Verif

variable {ι : Type} [Fintype ι]

/-- `self.norm(drift.reshape(k, B, -1), axis=-1)` of one particle, `noise.py:117`: the Euclidean norm. -/
noncomputable def euclid (v : ι → ℝ) : ℝ := Real.sqrt (∑ i, v i ^ 2)

/-- `constant_noise.sample`, `noise.py:61-62`, for one particle with sample `z`. -/
def constRule (_d z : ι → ℝ) : ι → ℝ := z

/-- `isotropic_noise.sample`, `noise.py:116-117`, for one particle with sample `z`. -/
noncomputable def isoRule (d z : ι → ℝ) : ι → ℝ := fun i => z i * euclid d

/-- `anisotropic_noise.sample`, `noise.py:170`, for one particle with sample `z`. -/
def anisoRule (d z : ι → ℝ) : ι → ℝ := fun i => z i * d i

/-- `__call__` of these three models, `noise.py:58-59,91-92,146-147`: `np.sqrt(dyn.dt) * self.sample(dyn.drift)`; the sample
has the shape of the drift. -/
noncomputable def rowNoise (rule : (ι → ℝ) → (ι → ℝ) → ι → ℝ) (smp : ℕ → ℕ → ℕ → ι → ℝ) (s : St ℝ (ι → ℝ)) :
    Except Err (Mat (ι → ℝ)) :=
  match s.drift with
  | none => .error .attribute
  | some d => .ok ⟨d.rows, d.cols, fun i j => Real.sqrt s.dt • rule (d.get i j) (smp s.draws i j)⟩

variable [DecidableEq ι]

/-- `compute_mat_sqrt`, `pdyn.py:561-573`: `B, V = eigh(A)`, `V @ (sqrt(max(B,0))[...,None] * V^T)`. `eigh` is a parameter. -/
noncomputable def matSqrt (eigh : Matrix ι ι ℝ → (ι → ℝ) × Matrix ι ι ℝ) (A : Matrix ι ι ℝ) : Matrix ι ι ℝ :=
  (eigh A).2 * (Matrix.of fun i j => Real.sqrt (max ((eigh A).1 i) 0) * (eigh A).2.transpose i j)

/-- `coeffs` of `update_covariance`, `pdyn.py:902-903`: weights `-alpha * energy` with the full arrays `alpha` (`(M,1)`) and
`energy` (`(M,N)`), normalised by `logsumexp` over the particles. -/
noncomputable def covCoeffs (s : St ℝ (ι → ℝ)) : Except Err (Mat ℝ) := do
  let w ← Mat.bin (fun (a : ℝ) (e : Flt ℝ) => (a, e, ())) ⟨s.M, 1, fun i _ => s.alpha i⟩ s.energy
  pure ⟨w.rows, w.cols, fun i j => coeff (w.row i) (w.get i j)⟩

/-- `drift[...,None] * drift[...,None,:]`, `pdyn.py:905`, for one particle. -/
def outer (d : ι → ℝ) : Matrix ι ι ℝ := Matrix.of fun i j => d i * d j

/-- `update_covariance`, `pdyn.py:891-907`: row `i` of the result is `Cov_sqrt[i]`. -/
noncomputable def updateCovariance (eigh : Matrix ι ι ℝ → (ι → ℝ) × Matrix ι ι ℝ) (s : St ℝ (ι → ℝ)) :
    Except Err (Mat (Matrix ι ι ℝ)) :=
  match s.drift with
  | none => .error .attribute
  | some d => do
    let co ← covCoeffs s
    let D ← Mat.bin (fun D c => (c : ℝ) • D) (d.map outer) co
    pure ⟨D.rows, 1, fun i _ => matSqrt eigh (D.row i).sum⟩

/-- `covariance_noise.lamda`, `noise.py:198-202`, as the reciprocal used in the factor `sqrt(2 dt / lamda)` (for `alpha ≠ -1`): array of shape
`(M,1)` in mode 'sampling', the number 1 otherwise. -/
noncomputable def covLamdaInv (sampling : Bool) (s : St ℝ (ι → ℝ)) : Mat ℝ :=
  if sampling then ⟨s.M, 1, fun i _ => 1 + s.alpha i⟩ else ⟨1, 1, fun _ _ => 1⟩

/-- `covariance_noise.__call__`, `noise.py:192-196,227-247`: `factor * einsum('kij,klj->kli', Cov_sqrt, z)`, for particles
with one trailing axis. -/
noncomputable def covNoise (eigh : Matrix ι ι ℝ → (ι → ℝ) × Matrix ι ι ℝ) (sampling : Bool) (smp : ℕ → ℕ → ℕ → ι → ℝ)
    (s : St ℝ (ι → ℝ)) : Except Err (Mat (ι → ℝ)) :=
  match s.drift with
  | none => .error .attribute
  | some d => do
    let C ← updateCovariance eigh s
    let e ← Mat.bin (fun (A : Matrix ι ι ℝ) z => A.mulVec z) C ⟨d.rows, d.cols, fun i j => smp s.draws i j⟩
    Mat.bin (fun (l : ℝ) (v : ι → ℝ) => Real.sqrt (2 * s.dt * l) • v) (covLamdaInv sampling s) e

end Verif
