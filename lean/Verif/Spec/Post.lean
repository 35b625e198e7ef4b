import Verif.Model.Dyn

/-! Specification-level notions for positions of stopped or unselected particles. -/

namespace Verif

variable {K V : Type} [Zero K] [One K] [Neg K] [Add K] [Sub K] [Mul K] [Inv K] [Div K] [NatCast K] [Pow K ℕ] [LinearOrder K]

/-- Post processing acts on each particle separately by the map `p` (as the built-in clipping does). -/
def PostMap (env : Env K V) (p : V → V) : Prop := ∀ s, env.post s = .ok (s.x.map p)

/-- The norm used for `update_diff` is zero for unchanged particles and never negative. -/
structure NormOK (env : Env K V) : Prop where
  zero : ∀ l : List (V × V), (∀ q ∈ l, q.1 = q.2) → env.normDiff l = .fin 0
  nonneg : ∀ l : List (V × V), Flt.lt (env.normDiff l) (.fin 0) = false

/-- Built-in criteria without internal state. -/
def BuiltIn : Term K → Prop
  | .energyStag _ _ _ => False
  | .custom _ => False
  | _ => True

/-- Everything a user can observe about run `m`: positions, energies, best values, evaluation count, minimal energy. -/
structure SameRun (m : ℕ) (s s' : St K V) : Prop where
  x : ∀ n < s.N, s'.x.get m n = s.x.get m n
  energy : ∀ n < s.N, s'.energy.get m n = s.energy.get m n
  bestE : s'.bestE m = s.bestE m
  bestP : s'.bestP m = s.bestP m
  nEval : s'.nEval m = s.nEval m
  fMin : s'.fMin m = s.fMin m

end Verif
