import Verif.Model.Base

/-! What a user-written inner step is expected to do with the energies. -/

namespace Verif

variable {K V : Type} [Zero K] [One K] [Neg K] [Add K] [Sub K] [Mul K] [Inv K] [Div K] [NatCast K] [Pow K ℕ] [LinearOrder K]

/-- The inner step sets `energy` to the objective at the positions at the *beginning* of the step (as `CBXDynamic` does), one value per particle, and keeps the
number of runs and particles. -/
def EvaluatesFirst (env : Env K V) (inner : St K V → Except Err (St K V)) : Prop :=
  ∀ s v, s.x.rows = s.M → s.x.cols = s.N → inner s = .ok v → v.x.rows = s.M ∧ v.x.cols = s.N ∧ v.energy.cols = s.N ∧ ∀ m < s.M, ∀ n < s.N, v.energy.get m n = env.f (s.x.get m n)

/-- Criteria that need an attribute the base class does not have. -/
def NeedsCBX : Term K → Prop
  | .maxEval _ => True
  | .maxTime _ => True
  | .energyStag _ _ _ => True
  | _ => False

end Verif
