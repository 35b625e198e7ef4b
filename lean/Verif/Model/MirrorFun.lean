import Verif.Model.Mirror

/-!
# Mirror maps as functions: `__call__`, `hessian`, `Bregman_distance` of `cbx/dynamics/mirrorcbo.py`

The gradients are in `Verif/Model/Mirror.lean`. Arrays are finite families of particles where a method does not act particle by particle.
-/

namespace Verif.Mirror

variable {ι : Type} [Fintype ι]

/-- `Bregman_distance(F, p, q)`, `mirrorcbo.py:12-13`, for one particle: `Fp = F(p)`, `Fq = F(q)`, `g = F.grad(q)` (finite). -/
noncomputable def bregman (Fp Fq : Flt ℝ) (g p q : ι → ℝ) : Flt ℝ := Flt.sub (Flt.sub Fp Fq) (.fin (∑ i, g i * (p i - q i)))

/-- `ProjectionBall.__call__`, `mirrorcbo.py:62-67`, one particle; `thresh = 1e-5`. The centre is not used. -/
noncomputable def ballCall (radius : ℝ) (theta : ι → ℝ) : Flt ℝ :=
  if radius + 1 / 100000 < euclid theta then .pinf else .fin (0.5 * euclid theta ^ 2)

/-- `LogBarrierBox.__call__`, `mirrorcbo.py:121-122`, for coordinates in `(-1, 1)`. -/
noncomputable def logBarrierCall (theta : ι → ℝ) : ℝ := ∑ i, (Real.log (1 / (1 - theta i)) + Real.log (1 / (1 + theta i)))

/-- Diagonal of `LogBarrierBox.hessian`, `mirrorcbo.py:130-132`, for coordinates in `(-1, 1)`. -/
noncomputable def logBarrierHessDiag (t : ℝ) : ℝ := (1 / (1 - t)) ^ 2 + (1 / (1 + t)) ^ 2

/-- `L2.__call__`, `mirrorcbo.py:149-150`. -/
noncomputable def l2Call (lamda : ℝ) (theta : ι → ℝ) : ℝ := lamda * 0.5 * ∑ i, theta i ^ 2

/-- `L2.hessian`, `mirrorcbo.py:158-160`, one particle: ones on the diagonal. -/
def l2Hess [DecidableEq ι] : Matrix ι ι ℝ := fun i j => 1 * if i = j then 1 else 0

/-- `weighted_L2.__call__`, `mirrorcbo.py:171-172`, for a single particle without further axes. -/
noncomputable def weightedCall (A : Matrix ι ι ℝ) (theta : ι → ℝ) : ℝ := 0.5 * ∑ i, theta i * ∑ j, A i j * theta j

/-- `weighted_L2.hessian`, `mirrorcbo.py:182-183`, one particle. -/
noncomputable def weightedHess (A : Matrix ι ι ℝ) : Matrix ι ι ℝ := fun i j => 1 * 0.5 * (A j i + A i j)

/-- Shape of `0.5*theta.T @ A @ theta`, `mirrorcbo.py:172`, for `theta` with one or two axes and `A` of shape `(m, m)`; other numbers of axes are not modelled (error). -/
def weightedCallShape (m : ℕ) : List ℕ → Except Err (List ℕ)
  | [k] => if k = m then .ok [] else .error .value
  | [n, k] => if n = m then .ok [k, k] else .error .value
  | _ => .error .value

/-- Shape of `weighted_L2.grad(theta)`, `mirrorcbo.py:174-175`: `theta[:,:,None]` needs two axes; `A @ theta[:,:,None]` needs `k = m`. More than two axes are not modelled (error). -/
def weightedGradShape (m : ℕ) : List ℕ → Except Err (List ℕ)
  | [] => .error .index
  | [_] => .error .index
  | [n, k] => if k = m then .ok [n, k] else .error .value
  | _ => .error .value

/-- `NonsmoothBarrier.__call__`, `mirrorcbo.py:188-189`, on an array of `n` particles: `np.sum` without `axis` adds up all particles. -/
noncomputable def nonsmoothCall (n : ℕ) (theta : ℕ → ι → ℝ) : ℝ := ∑ k ∈ Finset.range n, ∑ i, |theta k i| / (1 - |theta k i|)

/-- Diagonal of `NonsmoothBarrier.hessian`, `mirrorcbo.py:197-204`. -/
noncomputable def nonsmoothHessDiag (t : ℝ) : ℝ := (-2 * |t| + 2) / (-4 * |t| - 4 * |t| ^ 3 + |t| ^ 4 + 6 * |t| ^ 2 + 1)

/-- `ElasticNet.__call__`, `mirrorcbo.py:214-215`. -/
noncomputable def elasticCall (delta lamda : ℝ) (theta : ι → ℝ) : ℝ := 1 / (2 * delta) * ∑ i, theta i ^ 2 + lamda * ∑ i, |theta i|

/-- `Entropy.__call__`, `mirrorcbo.py:228-229`, for positive coordinates. -/
noncomputable def entropyCall (x : ι → ℝ) : ℝ := ∑ i, x i * Real.log (1 / x i)

/-- `n, m = theta.shape` at the start of `hessian` (`mirrorcbo.py:131,159,198`): the matrices are built for arrays with two axes only. `axes` is the number of axes. -/
def hessAxes (axes : ℕ) : Except Err Unit := if axes = 2 then .ok () else .error .value

end Verif.Mirror
