import Verif.Model.Consensus
import Verif.Model.Noise

/-!
# Kernels and the polarised consensus: `cbx/dynamics/polarcbo.py`

Points are `ι → ℝ` (particles with one trailing axis, array `x` of shape `(M, N, d)`); exact real arithmetic, `kappa` a
finite number different from zero. Values of `neg_log` are `Flt ℝ` because `dists**np.inf` is 0, 1 or `+inf` and `0/0` is
NaN. A weight `-inf` has coefficient 0; weights NaN or `+inf` make the NumPy result NaN, which has no counterpart in the
consensus below: the theorems exclude them.
-/

namespace Verif

variable {ι : Type} [Fintype ι]

/-- The entries of `PolarCBO.kernel_dict`, `polarcbo.py:198-202`. -/
inductive Kernel where
  | gaussian
  | laplace
  | constant
  | inverseQuadratic
  | taz
  deriving DecidableEq, Repr

/-- `np.linalg.norm(x - y, axis=-1)`, `polarcbo.py:95,100,109,115,125,129,140`. -/
noncomputable def pdist (x y : ι → ℝ) : ℝ := euclid fun i => x i - y i

/-- `((x-y)**2).sum(axes 3, ...)` on arrays with four axes, `polarcbo.py:78,83`. -/
noncomputable def sqdist (x y : ι → ℝ) : ℝ := ∑ i, (x i - y i) ^ 2

/-- The power `t**np.inf` of a non-negative number `t`, `polarcbo.py:112,118`. -/
noncomputable def powInf (t : ℝ) : Flt ℝ := if t < 1 then .fin 0 else if t = 1 then .fin 1 else .pinf

/-- `np.exp(-v)`, `polarcbo.py:80,97,112,137`. -/
noncomputable def expNeg : Flt ℝ → Flt ℝ
  | .nan => .nan
  | .ninf => .pinf
  | .fin a => .fin (Real.exp (-a))
  | .pinf => .fin 0

/-- `neg_log` at one pair of points, given the maximum `mx` of all distances in the array (used by the Taz kernel
only): `polarcbo.py:82-83` (Gaussian), `99-102` (Laplace), `114-118` (Constant), `128-130` (InverseQuadratic), `139-142` (Taz,
`1/kappa * dists/np.max(dists)`). -/
noncomputable def Kernel.negLog (k : Kernel) (kappa mx : ℝ) (x y : ι → ℝ) : Flt ℝ :=
  match k with
  | .gaussian => .fin (1 / (2 * kappa ^ 2) * sqdist x y)
  | .laplace => .fin (1 / kappa * pdist x y)
  | .constant => powInf (pdist x y / kappa)
  | .inverseQuadratic => .fin (-Real.log (1 / (1 + (1 / kappa * pdist x y) ^ 2)))
  | .taz => if mx = 0 then (if pdist x y = 0 then .nan else .pinf) else .fin ((1 / kappa * pdist x y / mx) ^ 2)

/-- `__call__` at one pair of points: `polarcbo.py:78-80` (Gaussian), `94-97` (Laplace), `108-112` (Constant), `124-126`
(InverseQuadratic), `136-137` (Taz). -/
noncomputable def Kernel.call (k : Kernel) (kappa mx : ℝ) (x y : ι → ℝ) : Flt ℝ :=
  match k with
  | .gaussian => .fin (Real.exp (-(1 / (2 * kappa ^ 2)) * sqdist x y))
  | .laplace => .fin (Real.exp (-(1 / kappa) * pdist x y))
  | .constant => expNeg (powInf (pdist x y / kappa))
  | .inverseQuadratic => .fin (1 / (1 + (1 / kappa * pdist x y) ^ 2))
  | .taz => expNeg (Kernel.taz.negLog kappa mx x y)

/-- `Gaussian_kernel.__call__` on arrays with `ndim` axes, `polarcbo.py:78-80`: only the axes from the fourth one on are summed, so for
`ndim ≤ 3` the result has one entry per coordinate. -/
noncomputable def gaussianCall (ndim : ℕ) (kappa : ℝ) (x y : ι → ℝ) : ι → ℝ := fun i =>
  if 4 ≤ ndim then Real.exp (-(1 / (2 * kappa ^ 2)) * sqdist x y)
  else Real.exp (-(1 / (2 * kappa ^ 2)) * (x i - y i) ^ 2)

/-- `np.max(dists)` over the whole array of shape `(M, N, N)`, `polarcbo.py:141` (distances are non-negative, the
fold starts at 0). -/
noncomputable def maxDist (x : Mat (ι → ℝ)) : ℝ :=
  ((List.range x.rows).flatMap fun m => (List.range x.cols).flatMap fun i => (List.range x.cols).map fun j =>
    pdist (x.get m j) (x.get m i)).foldl max 0

/-- `PolarCBO.kernel_factor_mode`, `polarcbo.py:231-237`; `other` stands for any other string. -/
inductive KernelMode where
  | const
  | alpha
  | other
  deriving DecidableEq, Repr

/-- `PolarCBO.kernel_factor`, `polarcbo.py:231-237`, for a run with parameter `alpha`. -/
def KernelMode.factor (mode : KernelMode) (alpha : ℝ) : Except Err ℝ :=
  match mode with
  | .const => .ok 1
  | .alpha => .ok alpha
  | .other => .error .notImpl

/-- `weights = -kernel_factor * neg_log_eval - alpha * energy`, `polarcbo.py:146`, one entry. -/
noncomputable def polarWeight (kf : ℝ) (nl : Flt ℝ) (alpha : ℝ) (e : Flt ℝ) : Flt ℝ :=
  Flt.sub (Flt.mul (.fin (-kf)) nl) (Flt.mul (.fin alpha) e)

/-- `exp` of a weight that is finite or `-inf`, `polarcbo.py:147`. -/
noncomputable def expFin : Flt ℝ → ℝ
  | .fin w => Real.exp w
  | _ => 0

/-- `exp(weights - logsumexp(weights))`, `polarcbo.py:147`, for the weight `w` in the row `ws`. -/
noncomputable def softmax (ws : List (Flt ℝ)) : Flt ℝ → ℝ
  | .fin w => Real.exp (w - Real.log (ws.map expFin).sum)
  | _ => 0

/-- Row `i` of the weights in one run; the triples are (alpha, energy, particle), `polarcbo.py:146` with
`neg_log(x[:,None,...], x[:,:,None,...])`, `polarcbo.py:242`. -/
noncomputable def polarRow (nl : (ι → ℝ) → (ι → ℝ) → Flt ℝ) (kf : ℝ → ℝ) (l : List (ℝ × Flt ℝ × (ι → ℝ))) (xi : ι → ℝ) :
    List (Flt ℝ) :=
  l.map fun p => polarWeight (kf p.1) (nl p.2.2 xi) p.1 p.2.1

/-- `c = np.sum(x[:,None,...] * coeffs, axis=2)` for particle position `xi`, `polarcbo.py:145-150`. -/
noncomputable def polarAt (nl : (ι → ℝ) → (ι → ℝ) → Flt ℝ) (kf : ℝ → ℝ) (l : List (ℝ × Flt ℝ × (ι → ℝ))) (xi : ι → ℝ) :
    ι → ℝ :=
  (l.map fun p => softmax (polarRow nl kf l xi) (polarWeight (kf p.1) (nl p.2.2 xi) p.1 p.2.1) • p.2.2).sum

/-- The same as a consensus rule of `Model/Dyn`: one point per particle of the run, `polarcbo.py:145-150`. -/
noncomputable def polarRule (nl : (ι → ℝ) → (ι → ℝ) → Flt ℝ) (kf : ℝ → ℝ) (l : List (ℝ × Flt ℝ × (ι → ℝ))) (i : ℕ) : ι → ℝ :=
  polarAt nl kf l ((l.map fun p => p.2.2).getD i 0)

/-- Kernel factor as a function of alpha for the two valid modes, `polarcbo.py:232-235`. -/
def KernelMode.kf : KernelMode → ℝ → ℝ
  | .alpha, a => a
  | _, _ => 1

/-- `PolarCBO.compute_consensus`, `polarcbo.py:239-251`, on the array of triples of the active runs: the kernel is evaluated on the
whole array (the Taz kernel divides by the maximum over all runs), an unknown mode raises. -/
noncomputable def polarConsensus (k : Kernel) (kappa : ℝ) (mode : KernelMode) (wx : Mat (ℝ × Flt ℝ × (ι → ℝ))) :
    Except Err (Mat (ι → ℝ)) :=
  if mode = .other then .error .notImpl
  else
    let mx := maxDist (wx.map fun p => p.2.2)
    .ok ⟨wx.rows, wx.cols, fun m i => polarRule (k.negLog kappa mx) mode.kf (wx.row m) i⟩

/-- The consensus rule of `PolarCBO` in the machine of `Model/Dyn`, for the kernels that act run by run (all but Taz),
`polarcbo.py:145-150,239-251`. -/
noncomputable def polarCons (k : Kernel) (kappa : ℝ) (mode : KernelMode) : Cons ℝ (ι → ℝ) :=
  .polar (polarRule (k.negLog kappa 1) mode.kf)

/-- The weights of `PolarCBO.update_covariance`, `polarcbo.py:265`, for particle `i` of the `m`-th active run against particle `j`:
`kernel_factor * neg_log_eval` has shape `(k, B, B)`, but `self.alpha * self.energy` has shape `(M, N)` and is aligned with the
*last two* axes, so its run index is `i` (or 0 if `M = 1`). -/
noncomputable def polarCovWeight (M : ℕ) (kf : ℕ → ℝ) (nl : ℕ → ℕ → ℕ → Flt ℝ) (alpha : ℕ → ℝ) (energy : ℕ → ℕ → Flt ℝ)
    (m i j : ℕ) : Flt ℝ :=
  polarWeight (kf m) (nl m i j) (alpha (Mat.bpos M i)) (energy (Mat.bpos M i) j)

/-- `PolarCBO.update_covariance` before the matrix square root, `polarcbo.py:265-269`, for `k ≥ 1` active runs and batches of
`B ≥ 2` particles: weights and softmax as above; `D = drift[...,None] * drift[...,None,:]` of shape `(k, B, d, d)` is aligned with the
last axes of the coefficients of shape `(k, B, B, 1, 1)`, so the run index of the drift is `i` (or 0 if `k = 1`). The shapes are
compatible only if `M` is 1 or `B`, `N` is `B`, and `k` is 1 or `B`. -/
noncomputable def polarCov (M N k B : ℕ) (kf : ℕ → ℝ) (nl : ℕ → ℕ → ℕ → Flt ℝ) (alpha : ℕ → ℝ) (energy : ℕ → ℕ → Flt ℝ)
    (drift : ℕ → ℕ → ι → ℝ) : Except Err (ℕ → ℕ → ι → ι → ℝ) :=
  if (M = 1 ∨ M = B) ∧ N = B ∧ (k = 1 ∨ k = B) then
    .ok fun m i a b =>
      let w := polarCovWeight M kf nl alpha energy m i
      ((List.range B).map fun j =>
        drift (Mat.bpos k i) j a * drift (Mat.bpos k i) j b * softmax ((List.range B).map w) (w j)).sum
  else .error .value

end Verif
