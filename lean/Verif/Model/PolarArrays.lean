import Verif.Model.Arrays
import Verif.Model.Polar

/-!
# The polarised consensus on whole arrays: `cbx/dynamics/polarcbo.py`, `cbx/utils/torch_utils.py`

`Model/Polar.lean` has one point per particle. Here `neg_log`, `compute_polar_consensus` and `PolarCBO.compute_consensus` are written with the
NumPy operations of the code on arrays of shape `(M, N, d1, ..., dk)`. Exact real arithmetic, `kappa` a finite number different from zero.
`compute_polar_consensus_torch` (`torch_utils.py:40-45`) has the same operations on tensors and is the same function in this model.
-/

namespace Verif

namespace Arr

variable {α : Type}

/-- `a[:, None, ...]`, `polarcbo.py:146,149,242`. -/
def newAxis1 (a : Arr α) : Arr α := ⟨a.shape.take 1 ++ 1 :: a.shape.drop 1, fun I => a.get (I.take 1 ++ I.drop 2)⟩

/-- `a[:, :, None, ...]` of an array with at least two axes, `polarcbo.py:242`. -/
def newAxis2 (a : Arr α) : Arr α := ⟨a.shape.take 2 ++ 1 :: a.shape.drop 2, fun I => a.get (I.take 2 ++ I.drop 3)⟩

/-- `a.sum(tuple(i for i in range(3, a.ndim)))`: the sum over all axes from the fourth one on, `polarcbo.py:78,83`. -/
def sumFrom3 [AddCommMonoid α] (a : Arr α) : Arr α :=
  ⟨a.shape.take 3, fun I => ((List.range (a.shape.drop 3).prod).map fun q => a.get (I ++ unravel (a.shape.drop 3) q)).sum⟩

/-- `np.sum(a, axis=2)`; raises without a third axis, `polarcbo.py:149`, `torch_utils.py:44`. -/
def sum2 [AddCommMonoid α] (a : Arr α) : Except Err (Arr α) :=
  match a.shape with
  | m :: n :: k :: s => .ok ⟨m :: n :: s, fun I => ((List.range k).map fun j => a.get (I.take 2 ++ j :: I.drop 2)).sum⟩
  | _ => .error .value

/-- `np.max(a)` of an array of non-negative numbers, `polarcbo.py:141`. -/
noncomputable def maxAll (a : Arr ℝ) : ℝ := ((List.range a.shape.prod).map fun q => a.get (unravel a.shape q)).foldl max 0

end Arr

namespace ArrModel

/-- `neg_log` as a function of the distance, `polarcbo.py:102` (Laplace), `116-118` (Constant), `129-130` (InverseQuadratic), `141-142` (Taz, with the maximum `mx` of all
distances); the Gaussian kernel (`polarcbo.py:83`) does not compute a distance and has its own branch in `negLog`. -/
noncomputable def distLog (k : Kernel) (kappa mx v : ℝ) : Flt ℝ :=
  match k with
  | .gaussian => .fin (1 / (2 * kappa ^ 2) * v ^ 2)
  | .laplace => .fin (1 / kappa * v)
  | .constant => powInf (v / kappa)
  | .inverseQuadratic => .fin (-Real.log (1 / (1 + (1 / kappa * v) ^ 2)))
  | .taz => if mx = 0 then (if v = 0 then .nan else .pinf) else .fin ((1 / kappa * v / mx) ^ 2)

/-- `self.kernel.neg_log(x[:,None,...], x[:,:,None,...])`, `polarcbo.py:242`: Gaussian (`polarcbo.py:82-83`) with a sum over all axes from the fourth one on, the other kernels
(`polarcbo.py:99-102,114-118,128-130,139-142`) with `np.linalg.norm(x-y, axis=-1)`. -/
noncomputable def negLog (k : Kernel) (kappa : ℝ) (x : Arr ℝ) : Except Err (Arr (Flt ℝ)) := do
  let d ← Arr.bin (fun a b => a - b) x.newAxis1 x.newAxis2
  match k with
  | .gaussian => pure ((d.map fun v => v ^ 2).sumFrom3.map fun v => .fin (1 / (2 * kappa ^ 2) * v))
  | k => do
    let n ← d.normLast Real.sqrt
    pure (n.map (distLog k kappa n.maxAll))

/-- `compute_polar_consensus`, `polarcbo.py:145-150`, and `compute_polar_consensus_torch`, `torch_utils.py:40-45`. `alpha` and `kf` are the arguments `alpha` and `kernel_factor`. -/
noncomputable def polarConsensus (energy : Arr (Flt ℝ)) (x : Arr ℝ) (nl : Arr (Flt ℝ)) (alpha kf : Arr ℝ) : Except Err (Arr ℝ) := do
  let k ← Arr.bin (fun a v => Flt.mul (.fin (-a)) v) kf nl
  let e ← Arr.bin (fun a v => Flt.mul (.fin a) v) alpha energy.newAxis1
  let weights ← Arr.bin Flt.sub k e
  let l ← weights.reduceLast lse
  let coeffs ← Arr.bin expSub weights l
  let y ← Arr.bin (fun a b => a * b) x.newAxis1 (coeffs.expand (x.shape.length - 2))
  y.sum2

/-- `PolarCBO.kernel_factor`, `polarcbo.py:231-237`: the number 1 (an array without axes) or `alpha[active_runs_idx, :, None]`; `al` is `alpha[active_runs_idx, :]`. -/
def kernelFactor (mode : KernelMode) (al : Arr ℝ) : Except Err (Arr ℝ) :=
  match mode with
  | .const => .ok ⟨[], fun _ => 1⟩
  | .alpha => .ok (al.expand 1)
  | .other => .error .notImpl

/-- `PolarCBO.compute_consensus`, `polarcbo.py:242-250`, for the batch `x` with its energies. -/
noncomputable def polarCons (k : Kernel) (kappa : ℝ) (mode : KernelMode) (active : List ℕ) (s : State) (energy : Arr (Flt ℝ)) (x : Arr ℝ) : Except Err (Arr ℝ) := do
  let nl ← negLog k kappa x
  let al ← alphaRows s.alpha active
  let kf ← kernelFactor mode al
  polarConsensus energy x nl (al.expand 1) kf

/-- The step of `PolarCBO`, `polarcbo.py:239-251`, `cbo.py:3-4,40-50`. -/
noncomputable def polarStep (F : Arr ℝ → Except Err (Arr (Flt ℝ))) (k : Kernel) (kappa : ℝ) (mode : KernelMode) (kind : Kind) (z : List ℕ → ℝ) (active : List ℕ) (cIdx pIdx : Idx)
    (lamda dt sigma : ℝ) (s : State) : Except Err (State × Arr ℝ × Arr ℝ) :=
  stepWith F (polarCons k kappa mode active s) kind z cIdx pIdx lamda dt sigma s

end ArrModel
end Verif
