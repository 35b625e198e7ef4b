import Verif.Model.Polar

/-!
# `PolarCBO` with `kappa = np.inf`: `cbx/dynamics/polarcbo.py:56-142`

The documentation of the Gaussian kernel says `kappa=np.inf` yields a constant kernel (`polarcbo.py:56-57`). `np.true_divide(1, np.inf)` is 0; distances are finite numbers.
-/

namespace Verif

variable {ι : Type} [Fintype ι]

/-- The quotient of a finite number and a finite number as NumPy computes it, `polarcbo.py:141` (the sign of a zero divisor is positive). -/
noncomputable def divFin (a b : ℝ) : Flt ℝ := if b = 0 then (if a = 0 then .nan else if 0 < a then .pinf else .ninf) else .fin (a / b)

/-- `neg_log` at one pair of points with `kappa = np.inf`, `mx` the maximum of all distances: `polarcbo.py:82-83` (Gaussian, `1/(2*inf**2)` is 0), `99-102` (Laplace), `114-118` (Constant, `dists/inf` is 0), `128-130`
(InverseQuadratic), `139-142` (Taz, `0 * dists/np.max(dists)`). -/
noncomputable def Kernel.negLogInf (k : Kernel) (mx : ℝ) (x y : ι → ℝ) : Flt ℝ :=
  match k with
  | .gaussian => .fin (0 * sqdist x y)
  | .laplace => .fin (0 * pdist x y)
  | .constant => powInf 0
  | .inverseQuadratic => .fin (-Real.log (1 / (1 + (0 * pdist x y) ^ 2)))
  | .taz => match divFin (0 * pdist x y) mx with
    | .fin q => .fin (q ^ 2)
    | .nan => .nan
    | _ => .pinf

/-- `PolarCBO.compute_consensus` with `kappa = np.inf`, `polarcbo.py:239-251`, on the array of triples of the active runs. -/
noncomputable def polarConsensusInf (k : Kernel) (mode : KernelMode) (wx : Mat (ℝ × Flt ℝ × (ι → ℝ))) : Except Err (Mat (ι → ℝ)) :=
  if mode = .other then .error .notImpl
  else
    let mx := maxDist (wx.map fun p => p.2.2)
    .ok ⟨wx.rows, wx.cols, fun m i => polarRule (k.negLogInf mx) mode.kf (wx.row m) i⟩

/-- The consensus rule in the machine of `Model/Dyn` for the kernels that act run by run (all but Taz), `polarcbo.py:145-150,239-251`. -/
noncomputable def polarConsInf (k : Kernel) (mode : KernelMode) : Cons ℝ (ι → ℝ) := .polar (polarRule (k.negLogInf 1) mode.kf)

end Verif
