import Verif.Model.Dyn
import Mathlib.Algebra.Field.Basic
import Mathlib.Algebra.Module.Basic

/-! Specification-level notions for `MirrorCBO` with a multiple of the squared norm as mirror map. -/

namespace Verif

variable {K V : Type} [Field K] [LinearOrder K] [AddCommGroup V] [Module K V]

/-- A state with other values of `lamda`, `sigma` and the dual variable. -/
def setDual (l g : K) (A : Mat V) (s : St K V) : St K V := { s with lamda := l, sigma := g, aux1 := A }

/-- Noise, stopping criteria and corrections that do not look at `lamda`, `sigma` and the dual variable; a scheduler that treats `lamda` and `sigma` proportionally. -/
structure DualBlind (env : Env K V) (l : K) : Prop where
  noise : ∀ s a g A, env.noise (setDual a g A s) = env.noise s
  custom : ∀ i s a g A, env.custom i (setDual a g A s) = env.custom i s
  corr : ∀ c, env.corr = .custom c → ∀ s a g A, c (setDual a g A s) = c s
  sched : ∀ s A p, env.sched s = .ok p → env.sched (setDual (l * s.lamda) (l * s.sigma) A s) = .ok { p with lamda := l * p.lamda, sigma := l * p.sigma }

end Verif
