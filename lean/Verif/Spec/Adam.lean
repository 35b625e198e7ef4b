import Verif.Model.Dyn
import Mathlib.Algebra.BigOperators.Group.Finset.Basic
import Mathlib.Algebra.Module.Defs

/-! Exponentially weighted sums and the drifts a particle experienced. -/

namespace Verif

variable {K V : Type} [Zero K] [One K] [Neg K] [Add K] [Sub K] [Mul K] [Inv K] [Div K] [NatCast K] [Pow K ℕ] [LinearOrder K] [Add V] [Sub V] [SMul K V]

/-- The weight of the `i`-th of `k` past values in an exponentially weighted sum. -/
def emaWeight {K : Type} [Field K] (β : K) (k i : ℕ) : K := (1 - β) * β ^ (k - 1 - i)

/-- Exponentially weighted sum of past values, oldest first. -/
def ema {K W : Type} [Field K] [AddCommGroup W] [Module K W] (β : K) (l : List W) : W :=
  ∑ i ∈ Finset.range l.length, emaWeight β l.length i • l.getD i 0

/-- The drift of particle `(m, n)` in the last step, if the particle was selected (with repeated indices the last slot). -/
def driftAt (s : St K V) (m n : ℕ) : Option V :=
  match s.pIdx.lastPos m n, s.drift with
  | some p, some d => some (d.get p.1 p.2)
  | _, _ => none

/-- All drifts particle `(m, n)` experienced in the steps of an operation sequence, oldest first. -/
def drifts (env : Env K V) (inner : St K V → Except Err (St K V)) (m n : ℕ) : List Op → St K V → List V
  | [], _ => []
  | o :: l, s =>
    match exec env inner o s with
    | .error _ => []
    | .ok s' => (if o = .step then (driftAt s' m n).toList else []) ++ drifts env inner m n l s'

end Verif
