import Verif.Np.Flt

/-! Specification for energies that need not be finite. -/

namespace Verif

variable {K V : Type}

/-- The particles with finite energy, with their energy. -/
def finitePart : List (Flt K × V) → List (K × V)
  | [] => []
  | (.fin e, v) :: l => (e, v) :: finitePart l
  | _ :: l => finitePart l

/-- A usable collection of energies: no NaN, no `-inf`, and at least one finite. -/
def Usable (l : List (Flt K × V)) : Prop :=
  (∀ p ∈ l, p.1 ≠ .nan ∧ p.1 ≠ .ninf) ∧ ∃ p ∈ l, ∃ e, p.1 = .fin e

end Verif
