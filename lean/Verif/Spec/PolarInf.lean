import Verif.Model.Dyn
import Mathlib.Data.List.Forall2

/-! Specification-level notions for `PolarCBO` with a kernel that does not distinguish particles, next to `CBO`. -/

namespace Verif

variable {K V : Type}

/-- The consensus of `CBO` (one point per run) next to the one of `PolarCBO` (one point per particle): every particle of a run has the point of the run. -/
def SameConsensus : Option (Mat V) → Option (Mat V) → Prop
  | none, none => True
  | some c, some d => d.rows = c.rows ∧ c.cols = 1 ∧ ∀ i j, d.get i j = c.get i 0
  | _, _ => False

/-- An entry of the history of the consensus. -/
def SameConsEntry : Entry K V → Entry K V → Prop
  | .consensus c, .consensus d => SameConsensus c d
  | _, _ => False

/-- `u` agrees with `s` in everything but the shape of the consensus (and its history); the recorded calls of the objective may differ only if the correction evaluates the objective at the consensus. -/
structure SameButCons (env : Env K V) (s u : St K V) : Prop where
  rest : u = { s with cons := u.cons, hist := u.hist, log := u.log }
  cons : SameConsensus s.cons u.cons
  hist : ∀ t, t ≠ .consensus → u.hist t = s.hist t
  consHist : List.Forall₂ SameConsEntry (s.hist .consensus) (u.hist .consensus)
  log : (∀ g, env.corr ≠ .heavi g) → u.log = s.log

/-- Noise, post processing, stopping criteria, corrections and schedulers given by the user do not look at the consensus, the history and the record of calls. -/
structure ConsBlind (env : Env K V) : Prop where
  noise : ∀ s c h l, env.noise { s with cons := c, hist := h, log := l } = env.noise s
  post : ∀ s c h l, env.post { s with cons := c, hist := h, log := l } = env.post s
  custom : ∀ i s c h l, env.custom i { s with cons := c, hist := h, log := l } = env.custom i s
  corr : ∀ f, env.corr = .custom f → ∀ s c h l, f { s with cons := c, hist := h, log := l } = f s
  sched : ∀ s c h l, env.sched { s with cons := c, hist := h, log := l } = env.sched s

end Verif
