import Verif.Model.TorchEval
import Verif.Spec.TorchParams

/-! Specification for networks given by flattened parameters: which parameters network `n` has, which inputs are classified correctly. -/

namespace Verif

variable {α X L : Type}

/-- Parameter `p` of network `n` of the list of networks. -/
def netParam (ps : NetParams α) (n : ℕ) (p : String) : Option (Nd α) :=
  match ps.lookup p with
  | some s => (s.rows[n]?).map fun d => ⟨s.shape, d⟩
  | none => none

/-- The label names the first of the largest outputs. -/
def Classified [LinearOrder L] (row : List L) (label : ℕ) : Prop :=
  ∃ v, row[label]? = some v ∧ ∀ j u, row[j]? = some u → u ≤ v ∧ (j < label → u < v)

/-- How many of the labelled inputs are classified correctly. -/
noncomputable def correct [LinearOrder L] (g : X → List L) (data : List (X × ℕ)) : ℕ :=
  (data.filter fun q => @decide (Classified (g q.1) q.2) (Classical.dec _)).length

/-- All labelled inputs of the batches. -/
def allData (loader : List (List X × List ℕ)) : List (X × ℕ) := (loader.map fun b => b.1.zip b.2).flatten

end Verif
