import Verif.Model.Plot
import Verif.Spec.Batch

/-! Specification for C57. -/

namespace Verif

/-- The iterations of which frames are wanted: the multiples of `freq` below the number of recorded transitions. -/
def wanted (entries freq : ℕ) : List ℕ := (List.range (entries - 1)).filter fun i => freq ∣ i

/-- All entries that run `r` needs exist: in every entry of `x` the run exists, the consensus and drift lists are long enough and their entries contain the run; the
recorded particle indices are inside the ensemble. -/
structure Covered {V : Type} (p : Plot V) : Prop where
  x : ∀ a ∈ p.x, p.numRun < a.rows
  c : ∀ l, p.c = some l → p.x.length - 1 ≤ l.length ∧ ∀ a, some a ∈ l → p.numRun < a.rows
  d : ∀ l, p.dr = some l → p.x.length - 1 ≤ l.length ∧ ∀ e ∈ l, ∃ a, e.1 = some a ∧ p.numRun < a.rows ∧ p.numRun < e.2.rows ∧
    ∀ q ∈ p.x, e.2.InBounds q.rows q.cols

/-- All runs are active whenever a step is made. -/
def StepsFull {K V : Type} [Zero K] [One K] [Neg K] [Add K] [Sub K] [Mul K] [Inv K] [Div K] [NatCast K] [Pow K ℕ] [LinearOrder K] [Add V] [Sub V] [SMul K V] (env : Env K V) (inner : St K V → Except Err (St K V)) : List Op → St K V → Prop
  | [], _ => True
  | o :: l, s => (o = .step → s.active.length = s.M) ∧ ∀ s', exec env inner o s = .ok s' → StepsFull env inner l s'

end Verif
