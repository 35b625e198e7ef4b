import Verif.Model.Names

/-! Specification for C58: the documented names. -/

namespace Verif

/-- An error that Python code raised. -/
def Raises {α : Type} (r : Except Err α) : Prop := ∃ e, r = .error e

/-- The words of the termination criteria and what they select. -/
def termWords : List ((String × String) × Term ℚ) :=
  [(("energy", "tol"), .energyTol (.fin (1 / 10 ^ 7))), (("diff", "tol"), .diffTol (.fin (1 / 10 ^ 7))), (("max", "eval"), .maxEval 1000),
   (("max", "it"), .maxIt (some 1000)), (("max", "time"), .maxTime 10), (("energy", "stagnation"), .energyStag 20 (.fin (1 / 10 ^ 9)) none)]

/-- What one element of the constraint list contributes, if it is valid. -/
def conOf {ι : Type} : ConArg ι → Except Err (List (Con.Constraint ι))
  | .none => .ok []
  | .dict name a b r A bv c =>
    if name = "plane" then .ok [.plane a b] else if name = "sphere" then .ok [.sphere r]
    else if name = "quadric" then .ok [.quadric A bv c] else .error .key

end Verif
