import Mathlib.Analysis.SpecialFunctions.Log.Basic
import Mathlib.Data.Real.Archimedean

/-!
# The consensus rules in rounded arithmetic: `cbx/dynamics/pdyn.py:582-595`, `cbx/dynamics/hypersurfacecbo.py:77-83`, `cbx/utils/torch_utils.py:33-37`

One run, one coordinate of the particles. Every elementary operation of the code is an operation of an arbitrary arithmetic, so that rounding errors are visible. Finite numbers only:
overflow to infinity is not modelled (infinities and NaN: `FltConsensus.lean`).
-/

namespace Verif

/-- Elementary operations of an arithmetic: those used in `pdyn.py:583-587`. -/
structure Arith where
  add : ℝ → ℝ → ℝ
  sub : ℝ → ℝ → ℝ
  mul : ℝ → ℝ → ℝ
  exp : ℝ → ℝ
  log : ℝ → ℝ

/-- Order of the additions in a sum: `np.sum`/`torch.sum` (`pdyn.py:585,587`) are free to choose it (sequential, pairwise, blocked). -/
inductive SumTree (ι : Type) where
  | leaf (i : ι)
  | node (l r : SumTree ι)

/-- The summands in the order of the tree (`pdyn.py:585,587`). -/
def SumTree.leaves {ι : Type} : SumTree ι → List ι
  | .leaf i => [i]
  | .node l r => l.leaves ++ r.leaves

/-- The sum computed in the order of the tree (`pdyn.py:585,587`). -/
def SumTree.eval {ι : Type} (add : ℝ → ℝ → ℝ) (f : ι → ℝ) : SumTree ι → ℝ
  | .leaf i => f i
  | .node l r => add (l.eval add f) (r.eval add f)

variable {n : ℕ}

/-- `weights = - alpha * energy`, `pdyn.py:583`. -/
def Arith.weights (A : Arith) (alpha : ℝ) (e : Fin n → ℝ) (i : Fin n) : ℝ := A.mul (-alpha) (e i)

/-- `logsumexp(weights)`, `pdyn.py:585`, as `scipy.special.logsumexp` computes it: `log(sum(exp(w - max(w)))) + max(w)`. -/
noncomputable def Arith.lse (A : Arith) (t : SumTree (Fin n)) (w : Fin n → ℝ) : ℝ :=
  A.add (A.log (t.eval A.add fun i => A.exp (A.sub (w i) (⨆ j, w j)))) (⨆ j, w j)

/-- `coeffs = exp(weights - logsumexp(weights))`, `pdyn.py:585`. -/
noncomputable def Arith.coeffs (A : Arith) (t : SumTree (Fin n)) (w : Fin n → ℝ) (i : Fin n) : ℝ := A.exp (A.sub (w i) (A.lse t w))

/-- `compute_consensus_default.__call__`, `pdyn.py:582-587` (`torch_utils.py:33-37` is the same): `(x * coeffs).sum(axis=1)`. -/
noncomputable def Arith.consensus (A : Arith) (t t' : SumTree (Fin n)) (alpha : ℝ) (e x : Fin n → ℝ) : ℝ :=
  t'.eval A.add fun i => A.mul (x i) (A.coeffs t (A.weights alpha e) i)

/-- `compute_consensus_rescale`, `hypersurfacecbo.py:77-83`: the default rule for `energy - min(energy)`. -/
noncomputable def Arith.rescaled (A : Arith) (t t' : SumTree (Fin n)) (alpha : ℝ) (e x : Fin n → ℝ) : ℝ :=
  A.consensus t t' alpha (fun i => A.sub (e i) (⨅ j, e j)) x

/-- `_check_coeffs` raises, `pdyn.py:589-592`: the coefficients do not sum up to one, with tolerance 0.1. -/
def Arith.checkRaises (A : Arith) (t' : SumTree (Fin n)) (c : Fin n → ℝ) : Prop := 1 / 10 < |A.sub (t'.eval A.add c) 1|

/-- `np.exp(2 * nom - denom)` in `eff_sample_size_gap.__call__`, `scheduler.py:177-180`: the effective sample size of one run. -/
noncomputable def Arith.ess (A : Arith) (t : SumTree (Fin n)) (alpha : ℝ) (e : Fin n → ℝ) : ℝ :=
  A.exp (A.sub (A.mul 2 (A.lse t (A.weights alpha e))) (A.lse t fun i => A.mul (A.mul (-2) alpha) (e i)))

end Verif
