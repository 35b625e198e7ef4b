import Verif.Spec.Fl

/-!
# The consensus rules as rules of the state machine in floating point arithmetic: `cbx/dynamics/pdyn.py:582-587`, `cbx/dynamics/hypersurfacecbo.py:77-83`

The rounded rules of `Rounded.lean`, coordinate by coordinate, on the triples (alpha, energy, particle) of one row; `t`, `t'` are the orders of the additions in the two sums (`np.sum`, `logsumexp`).
Energies that are not finite are not covered (they are read as zero; the theorems assume finite energies).
-/

namespace Verif

variable {φ : FloatFmt} {ι : Type}

/-- A finite energy as a number (`pdyn.py:583`). -/
noncomputable def energyVal : Flt (Fl φ) → ℝ
  | .fin e => e.val
  | _ => 0

/-- `compute_consensus_default.__call__`, `pdyn.py:582-587`. -/
noncomputable def flConsDefault (t t' : ∀ n, SumTree (Fin (n + 1))) : List (Fl φ × Flt (Fl φ) × (ι → Fl φ)) → ι → Fl φ
  | [] => fun _ => 0
  | q :: l => fun i => Fl.round φ ((Arith.ofRound φ.rd).consensus (t l.length) (t' l.length) q.1.val
      (fun j => energyVal ((q :: l).get j).2.1) fun j => (((q :: l).get j).2.2 i).val)

/-- `compute_consensus_rescale`, `hypersurfacecbo.py:77-83`. -/
noncomputable def flConsRescale (t t' : ∀ n, SumTree (Fin (n + 1))) : List (Fl φ × Flt (Fl φ) × (ι → Fl φ)) → ι → Fl φ
  | [] => fun _ => 0
  | q :: l => fun i => Fl.round φ ((Arith.ofRound φ.rd).rescaled (t l.length) (t' l.length) q.1.val
      (fun j => energyVal ((q :: l).get j).2.1) fun j => (((q :: l).get j).2.2 i).val)

end Verif
