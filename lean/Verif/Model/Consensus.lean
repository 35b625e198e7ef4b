import Verif.Model.Dyn
import Mathlib.Analysis.SpecialFunctions.Log.Basic

/-!
# Consensus rules on one run: `cbx/dynamics/pdyn.py:575-595`, `cbx/dynamics/hypersurfacecbo.py:76-82`

Arguments are the triples (alpha, energy, particle) of one row. Exact real arithmetic. An energy `+inf` has weight
`-inf` and coefficient 0 (for `alpha > 0`, as in NumPy: `C74_infinite_partial`); energies NaN or `-inf` make the NumPy result NaN (`FltConsensus.lean`), which has no
counterpart here: the theorems assume finite energies.
-/

namespace Verif

/-- `exp(weights)` with `weights = -alpha * energy`, `pdyn.py:583`. -/
noncomputable def expWeight (alpha : ℝ) : Flt ℝ → ℝ
  | .fin e => Real.exp (-alpha * e)
  | _ => 0

/-- `logsumexp(weights)`, `pdyn.py:585`. -/
noncomputable def lseWeights {V : Type} (l : List (ℝ × Flt ℝ × V)) : ℝ :=
  Real.log (l.map fun p => expWeight p.1 p.2.1).sum

/-- `coeffs = exp(weights - logsumexp(weights))`, `pdyn.py:585`. -/
noncomputable def coeff {V : Type} (l : List (ℝ × Flt ℝ × V)) (p : ℝ × Flt ℝ × V) : ℝ :=
  match p.2.1 with
  | .fin e => Real.exp (-p.1 * e - lseWeights l)
  | _ => 0

/-- `compute_consensus_default.__call__`, `pdyn.py:582-587`: `(x * coeffs).sum(axis=1)`. -/
noncomputable def consDefault {V : Type} [AddCommGroup V] [Module ℝ V] (l : List (ℝ × Flt ℝ × V)) : V :=
  (l.map fun p => coeff l p • p.2.2).sum

/-- `np.min(energy)` of the row, `hypersurfacecbo.py:78`. -/
noncomputable def rowEMin {V : Type} (l : List (ℝ × Flt ℝ × V)) : Flt ℝ :=
  match l with
  | [] => .pinf
  | p :: l => l.foldl (fun acc q => Flt.minimum acc q.2.1) p.2.1

/-- `compute_consensus_rescale`, `hypersurfacecbo.py:77-83`: the default rule with `energy - emin`. -/
noncomputable def consRescale {V : Type} [AddCommGroup V] [Module ℝ V] (l : List (ℝ × Flt ℝ × V)) : V :=
  consDefault (l.map fun p => (p.1, Flt.sub p.2.1 (rowEMin l), p.2.2))

end Verif
