import Verif.Model.Rounded
import Verif.Model.FltConsensus

/-!
# The consensus rules in IEEE arithmetic: `cbx/dynamics/pdyn.py:582-587`, `cbx/dynamics/hypersurfacecbo.py:77-83`, `cbx/utils/torch_utils.py:33-37`

As `Rounded.lean`, but all operations act on numbers that may be infinite or NaN, so that overflow is visible. What the operations do is left open here (`Spec/Ieee.lean` states the rules of
IEEE 754). Not modelled: the sign of zero. `logsumexp` follows its documented algorithm (`FltConsensus.lean`).
-/

namespace Verif

/-- Elementary operations on numbers that may be infinite or NaN: those used in `pdyn.py:583-587`. -/
structure FltArith where
  add : Flt ℝ → Flt ℝ → Flt ℝ
  sub : Flt ℝ → Flt ℝ → Flt ℝ
  mul : Flt ℝ → Flt ℝ → Flt ℝ
  exp : Flt ℝ → Flt ℝ
  log : Flt ℝ → Flt ℝ

/-- The sum computed in the order of the tree (`pdyn.py:585,587`). -/
def SumTree.evalFlt {ι : Type} (add : Flt ℝ → Flt ℝ → Flt ℝ) (f : ι → Flt ℝ) : SumTree ι → Flt ℝ
  | .leaf i => f i
  | .node l r => add (l.evalFlt add f) (r.evalFlt add f)

variable {n : ℕ}

/-- `weights = - alpha * energy`, `pdyn.py:583`. -/
def FltArith.weights (A : FltArith) (alpha : ℝ) (e : Fin n → Flt ℝ) (i : Fin n) : Flt ℝ := A.mul (.fin (-alpha)) (e i)

/-- `logsumexp(weights)`, `pdyn.py:585`: `log(sum(exp(w - shift))) + shift`, where the shift is the largest weight, or 0 if that is not finite. -/
noncomputable def FltArith.lse (A : FltArith) (t : SumTree (Fin n)) (w : Fin n → Flt ℝ) : Flt ℝ :=
  A.add (A.log (t.evalFlt A.add fun i => A.exp (A.sub (w i) (.fin (lseShift (List.ofFn w)))))) (.fin (lseShift (List.ofFn w)))

/-- `coeffs = exp(weights - logsumexp(weights))`, `pdyn.py:585`. -/
noncomputable def FltArith.coeffs (A : FltArith) (t : SumTree (Fin n)) (w : Fin n → Flt ℝ) (i : Fin n) : Flt ℝ := A.exp (A.sub (w i) (A.lse t w))

/-- `compute_consensus_default.__call__`, `pdyn.py:582-587` (`torch_utils.py:33-37` is the same), one coordinate: `(x * coeffs).sum(axis=1)`. -/
noncomputable def FltArith.consensus (A : FltArith) (t t' : SumTree (Fin n)) (alpha : ℝ) (e x : Fin n → Flt ℝ) : Flt ℝ :=
  t'.evalFlt A.add fun i => A.mul (x i) (A.coeffs t (A.weights alpha e) i)

/-- `np.min(energy)`, `hypersurfacecbo.py:79`. -/
noncomputable def fltMin : List (Flt ℝ) → Flt ℝ
  | [] => .pinf
  | v :: l => l.foldl Flt.minimum v

/-- `compute_consensus_rescale`, `hypersurfacecbo.py:77-83`: the default rule for `energy - min(energy)`. -/
noncomputable def FltArith.rescaled (A : FltArith) (t t' : SumTree (Fin n)) (alpha : ℝ) (e x : Fin n → Flt ℝ) : Flt ℝ :=
  A.consensus t t' alpha (fun i => A.sub (e i) (fltMin (List.ofFn e))) x

/-- A coordinate of a particle in the arithmetic `A`, `cbo.py:43-50`. -/
def IeeeVal (_ : FltArith) : Type := Flt ℝ

/-- `+` on coordinates, `cbo.py:47`. -/
instance (A : FltArith) : Add (IeeeVal A) := ⟨A.add⟩
/-- `-` on coordinates, `cbo.py:45`. -/
instance (A : FltArith) : Sub (IeeeVal A) := ⟨A.sub⟩
/-- Product with a scalar, `cbo.py:3-4`. The scalar (`-lamda * dt`, `sigma`) is finite and computed exactly: simplification. -/
instance (A : FltArith) : SMul ℝ (IeeeVal A) := ⟨fun c v => A.mul (.fin c) v⟩

/-- `compute_consensus_default.__call__`, `pdyn.py:582-587`, as a rule of the state machine; `alpha` is the one of the run. -/
noncomputable def ieeeConsDefault {ι : Type} (A : FltArith) (t t' : ∀ n, SumTree (Fin (n + 1))) : List (ℝ × Flt ℝ × (ι → IeeeVal A)) → ι → IeeeVal A
  | [] => fun _ => (.fin 0 : Flt ℝ)
  | q :: l => fun k => A.consensus (t l.length) (t' l.length) q.1 (fun j => ((q :: l).get j).2.1) fun j => ((q :: l).get j).2.2 k

/-- `post_process_default.__call__`, `pdyn.py:41-43`, for coordinates in the arithmetic `A` (comparisons and replacements only, no arithmetic). -/
noncomputable def ieeePost {ι : Type} (A : FltArith) (big maxThresh : ℝ) (s : St ℝ (ι → IeeeVal A)) : Except Err (Mat (ι → IeeeVal A)) :=
  .ok (s.x.map fun v i => (postCoord false big maxThresh (v i) : Flt ℝ))

end Verif
