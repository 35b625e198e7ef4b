import Verif.Model.Dyn

/-! Specification for best-so-far values, in terms of the list of objective evaluations. -/

namespace Verif

variable {K V : Type} [Zero K] [One K] [Neg K] [Add K] [Sub K] [Mul K] [Inv K] [Div K] [NatCast K] [Pow K ℕ] [LinearOrder K]

/-- Run `m` had its energy evaluated at point `v` at some earlier time. -/
def Evaluated (s : St K V) (m : ℕ) (v : V) : Prop := (Site.energy, m, v) ∈ s.log

/-- `b` is the minimum of the objective values seen by run `m` (`+inf` if there were none): no value is below
it, and it is one of the values or `+inf`. -/
def IsBest (f : V → Flt K) (s : St K V) (m : ℕ) (b : Flt K) : Prop :=
  (∀ v, Evaluated s m v → Flt.lt (f v) b = false) ∧
  (b = .pinf ∨ ∃ v, Evaluated s m v ∧ f v = b)

/-- No energy evaluation so far produced NaN. -/
def NoNaN (f : V → Flt K) (s : St K V) : Prop := ∀ m v, Evaluated s m v → f v ≠ .nan

end Verif
