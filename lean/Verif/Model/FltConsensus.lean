import Verif.Model.Consensus
import Verif.Model.Post

/-!
# The default consensus with IEEE values: `cbx/dynamics/pdyn.py:575-595`, `cbx/dynamics/hypersurfacecbo.py:76-82`

`Consensus.lean` computes with real numbers. Here energies, weights, coefficients and coordinates are `Flt ℝ`, so that NaN and
infinite energies take the path they take in NumPy. Finite arithmetic is exact. `logsumexp` is SciPy's function; its code is
not part of the repository and the model follows its documented algorithm (shift by the largest weight if that is finite).
-/

namespace Verif

/-- `np.exp`, used at `pdyn.py:585`. -/
noncomputable def Flt.exp : Flt ℝ → Flt ℝ
  | .nan => .nan
  | .ninf => .fin 0
  | .fin a => .fin (Real.exp a)
  | .pinf => .pinf

/-- `np.log`, used inside `scipy.special.logsumexp` (`pdyn.py:585`). -/
noncomputable def Flt.log : Flt ℝ → Flt ℝ
  | .nan => .nan
  | .ninf => .nan
  | .fin a => if a < 0 then .nan else if a = 0 then .ninf else .fin (Real.log a)
  | .pinf => .pinf

/-- `np.abs`, used at `pdyn.py:590`. -/
noncomputable def Flt.abs : Flt ℝ → Flt ℝ
  | .nan => .nan
  | .ninf => .pinf
  | .fin a => .fin |a|
  | .pinf => .pinf

/-- `weights = - alpha * energy`, `pdyn.py:583`. -/
noncomputable def fltWeight {V : Type} (p : ℝ × Flt ℝ × V) : Flt ℝ := Flt.mul (.fin (-p.1)) p.2.1

/-- The shift of `scipy.special.logsumexp` (`pdyn.py:585`): the largest weight, or 0 if that is not finite. -/
noncomputable def lseShift (w : List (Flt ℝ)) : ℝ :=
  match w with
  | [] => 0
  | v :: l => match l.foldl Flt.maximum v with
    | .fin m => m
    | _ => 0

/-- `scipy.special.logsumexp(weights)`, called at `pdyn.py:585`: `log(sum(exp(w - shift))) + shift`. -/
noncomputable def fltLse (w : List (Flt ℝ)) : Flt ℝ :=
  Flt.add (Flt.log (Flt.sum (w.map fun v => Flt.exp (Flt.sub v (.fin (lseShift w)))))) (.fin (lseShift w))

/-- `coeffs = np.exp(weights - logsumexp(weights))`, `pdyn.py:585`. -/
noncomputable def fltCoeff {V : Type} (l : List (ℝ × Flt ℝ × V)) (p : ℝ × Flt ℝ × V) : Flt ℝ :=
  Flt.exp (Flt.sub (fltWeight p) (fltLse (l.map fltWeight)))

/-- `(x * coeffs).sum(axis=1)`, `pdyn.py:587`, coordinate by coordinate. -/
noncomputable def consFlt {ι : Type} (l : List (ℝ × Flt ℝ × (ι → Flt ℝ))) : ι → Flt ℝ :=
  fun k => Flt.sum (l.map fun p => Flt.mul (p.2.2 k) (fltCoeff l p))

/-- `_check_coeffs`, `pdyn.py:589-592`, for one run: raise if the coefficients do not sum to 1 up to 0.1. The comparison is
the IEEE one. -/
noncomputable def checkCoeffs {V : Type} (l : List (ℝ × Flt ℝ × V)) : Except Err Unit :=
  if Flt.gt (Flt.abs (Flt.sub (Flt.sum (l.map (fltCoeff l))) (.fin 1))) (.fin (1 / 10)) then .error .runtime else .ok ()

/-- `compute_consensus_default(check_coeffs=True).__call__`, `pdyn.py:582-587`, for one run. -/
noncomputable def consChecked {ι : Type} (l : List (ℝ × Flt ℝ × (ι → Flt ℝ))) : Except Err (ι → Flt ℝ) :=
  match checkCoeffs l with
  | .error e => .error e
  | .ok () => .ok (consFlt l)

/-- `compute_consensus_rescale`, `hypersurfacecbo.py:77-83`: the default rule with `energy - emin`. -/
noncomputable def consRescaleFlt {ι : Type} (l : List (ℝ × Flt ℝ × (ι → Flt ℝ))) : ι → Flt ℝ :=
  consFlt (l.map fun p => (p.1, Flt.sub p.2.1 (rowEMin l), p.2.2))

end Verif
