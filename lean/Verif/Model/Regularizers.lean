import Verif.Np.Mat
import Mathlib.Analysis.SpecialFunctions.Pow.Real
import Mathlib.Analysis.SpecialFunctions.Exp
import Mathlib.LinearAlgebra.Matrix.Notation

/-!
# Regularised objectives: `cbx/regularizers.py`

Exact real arithmetic. Points have `d` coordinates, ensembles are `Mat (Fin d → ℝ)`.
-/

namespace Verif

open scoped BigOperators

variable {d : ℕ}

/-- `np.isclose(t, 0)` with the default tolerances, `regularizers.py:10`: `|t| <= 1e-8`. -/
def isClose0 (t : ℝ) : Prop := |t| ≤ 1 / 10 ^ 8

open Classical in
/-- `L0.__call__`, `regularizers.py:9-10`. -/
noncomputable def regL0 (lamda : ℝ) (x : Fin d → ℝ) : ℝ := lamda * ((Finset.univ.filter fun i => ¬ isClose0 (x i)).card : ℝ)

/-- `L1.__call__`, `regularizers.py:16-17`. -/
noncomputable def regL1 (lamda : ℝ) (x : Fin d → ℝ) : ℝ := lamda * ∑ i, |x i|

/-- The normal `a` of `HyperplaneDistance`, `regularizers.py:20-23`: a number (the default is `1`) or a vector. -/
inductive Normal (d : ℕ) where
  | scalar (a : ℝ)
  | vec (a : Fin d → ℝ)

/-- `a` broadcast against a point, `regularizers.py:26`. -/
def Normal.coord : Normal d → Fin d → ℝ
  | .scalar a, _ => a
  | .vec a, i => a i

/-- `np.linalg.norm(a)`, `regularizers.py:22`. -/
noncomputable def Normal.norm : Normal d → ℝ
  | .scalar a => |a|
  | .vec a => √(∑ i, a i ^ 2)

/-- `HyperplaneDistance.__call__`, `regularizers.py:25-26`. Division by zero (`a = 0`) is NaN in NumPy, zero here; the theorems exclude it. -/
noncomputable def regPlane (a : Normal d) (b : ℝ) (x : Fin d → ℝ) : ℝ := |∑ i, a.coord i * x i - b| / a.norm

/-- `SphereDistance.__call__`, `regularizers.py:33-34`. -/
noncomputable def regSphere (r : ℝ) (x : Fin d → ℝ) : ℝ := |√(∑ i, x i ^ 2) - r|

/-- `QuadricDistance.__call__`, `regularizers.py:42-47`: `(x @ A.T)_i = sum_j A_ij x_j`. -/
noncomputable def regQuadric (A : Fin d → Fin d → ℝ) (b : Fin d → ℝ) (c : ℝ) (x : Fin d → ℝ) : ℝ :=
  |∑ i, x i * ∑ j, A i j * x j + ∑ i, x i * b i + c|

/-- `self.lamda` of `regularize_objective`, `regularizers.py:73-74,81-85`: the number given, or the column of shape `(M, 1)` fixed by the
first call. -/
inductive Lam where
  | num (l : ℝ)
  | col (l : List ℝ)

/-- `broadcast_lamda`, `regularizers.py:81-85`, for an ensemble with `M` runs. -/
noncomputable def Lam.broadcast (l : Lam) (M : ℕ) : List ℝ :=
  match l with
  | .num l => List.replicate M l
  | .col l => l

/-- NumPy broadcast of a first axis: equal, or one of them is 1; else `ValueError`, `regularizers.py:79`. -/
def bcast (a b : ℕ) : Except Err ℕ :=
  if a = b then .ok a else if a = 1 then .ok b else if b = 1 then .ok a else .error .value

/-- Row used for output row `i` of an operand with `a` rows, `regularizers.py:79`. -/
def brow (a i : ℕ) : ℕ := if a = 1 then 0 else i

/-- `regularize_objective.__call__`, `regularizers.py:77-79`: `f` is the original objective and `R` the regulariser, both pointwise. Returns
the value and the new `lamda`. -/
noncomputable def regCall (f R : (Fin d → ℝ) → ℝ) (p : ℝ) (lam : Lam) (x : Mat (Fin d → ℝ)) : Except Err (Mat ℝ × Lam) := do
  let l := lam.broadcast x.rows
  let r ← bcast l.length x.rows
  pure (⟨r, x.cols, fun m n => f (x.get (brow x.rows m) n) + l.getD (brow l.length m) 0 * R (x.get (brow x.rows m) n) ^ p⟩, .col l)

/-- `simple_param_rule_mean`, `regularizers.py:91-92`: mean of the regulariser over the particles of run `m`. -/
noncomputable def ruleSimple (R : (Fin d → ℝ) → ℝ) (x : Mat (Fin d → ℝ)) (m : ℕ) : ℝ :=
  (∑ n ∈ Finset.range x.cols, R (x.get m n)) / x.cols

/-- `weighted_param_rule_mean`, `regularizers.py:94-97`: mean weighted by `exp(-alpha f)`; `e` are the energies `dyn.eval_f(dyn.x)`. -/
noncomputable def ruleWeighted (R : (Fin d → ℝ) → ℝ) (alpha : ℕ → ℝ) (e : ℕ → ℕ → ℝ) (x : Mat (Fin d → ℝ)) (m : ℕ) : ℝ :=
  (∑ n ∈ Finset.range x.cols, Real.exp (-alpha m * e m n) * R (x.get m n)) / ∑ n ∈ Finset.range x.cols, Real.exp (-alpha m * e m n)

/-- Parameters of `regularization_paramter_scheduler`, `regularizers.py:101-117`. -/
structure RegCfg where
  thetaMax : ℝ
  factorTheta : ℝ
  factorLamda : ℝ
  lamdaMax : ℝ

/-- `theta` and `f.lamda` per run, after `broadcast_params` (`regularizers.py:119-123`). -/
structure RegSt where
  theta : ℕ → ℝ
  lamda : ℕ → ℝ

/-- The state before the first update, `regularizers.py:111,119-123`: `theta` given as a number. -/
noncomputable def RegSt.init (theta lamda : ℝ) : RegSt := ⟨fun _ => theta, fun _ => lamda⟩

open Classical in
/-- `regularization_paramter_scheduler.update`, `regularizers.py:125-133`: `m` is the mean computed by the rule for every run. -/
noncomputable def lamUpdate (c : RegCfg) (m : ℕ → ℝ) (s : RegSt) : RegSt :=
  let t : ℕ → Prop := fun i => m i ≤ 1 / √(s.theta i)
  { theta := fun i => if t i then s.theta i * c.factorTheta else min (s.theta i / c.factorTheta) c.thetaMax
    lamda := fun i => min (max (if t i then s.lamda i else s.lamda i * c.factorLamda) 0) c.lamdaMax }

/-- A sequence of updates, `cbx/scheduler.py` calling `regularizers.py:125-133` once per step. -/
noncomputable def regRun (c : RegCfg) (ms : List (ℕ → ℝ)) (s : RegSt) : RegSt := ms.foldl (fun s m => lamUpdate c m s) s

end Verif
