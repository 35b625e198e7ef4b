import Verif.Spec.Runs
import Verif.Spec.Post

/-! Renumbering the particles of every run: what it means that two dynamics differ only in the order of their particles. -/

set_option linter.unusedSectionVars false

namespace Verif

variable {K V : Type} [Zero K] [One K] [Neg K] [Add K] [Sub K] [Mul K] [Inv K] [Div K] [NatCast K] [Pow K ℕ] [LinearOrder K] [Add V] [Sub V] [SMul K V]

/-- `π` is a permutation of the numbers below `N`. -/
def Renumbers (π : ℕ → ℕ) (N : ℕ) : Prop := ((List.range N).map π).Perm (List.range N)

/-- The same ensemble, particle `n` of every run being the former particle `π n`. -/
def Mat.relabel {α : Type} (π : ℕ → ℕ) (x : Mat α) : Mat α := ⟨x.rows, x.cols, fun m n => x.get m (π n)⟩

/-- The same arguments for a renumbered ensemble. -/
def Args.relabel (π : ℕ → ℕ) (a : Args K V) : Args K V := { a with x0 := a.x0.relabel π }

/-- The surroundings `env'` differ from `env` only in that the noise of particle `n` is the one particle `π n` had. The rule `r` for the consensus point does not look at the order of the particles, and neither does the norm used for
`update_diff`; post processing treats particles separately. -/
structure EnvRelabel (π : ℕ → ℕ) (N : ℕ) (r : List (K × Flt K × V) → V) (p : V → V) (env env' : Env K V) : Prop where
  f : env'.f = env.f
  cons : env.cons = .mean r
  cons' : env'.cons = .mean r
  sym : ∀ l l' : List (K × Flt K × V), l.Perm l' → r l = r l'
  corr : env.corr = .none
  corr' : env'.corr = .none
  noise : ∃ ν ν', NoiseRows env ν ∧ NoiseRows env' ν' ∧ ∀ c dt i, ∀ j < N, ∀ v, ν' c dt i j v = ν c dt i (π j) v
  post : PostMap env p
  post' : PostMap env' p
  norm : env'.normDiff = env.normDiff
  normSym : ∀ l l' : List (V × V), l.Perm l' → env.normDiff l = env.normDiff l'
  empty : env'.emptyRaises = env.emptyRaises
  sched : ∃ ga gl gs gd, SchedLocal env ga gl gs gd ∧ SchedLocal env' ga gl gs gd

/-- `u` is `s` with the particles of every run renumbered. Everything that does not belong to a single particle is the same: consensus points, best energies, `update_diff`, evaluation counts, active runs, parameters and clock. Nothing is
said about `best_particle`. -/
structure Relabelled (π : ℕ → ℕ) (s u : St K V) : Prop where
  M : u.M = s.M
  N : u.N = s.N
  x : ∀ m < s.M, ∀ n < s.N, u.x.get m n = s.x.get m (π n)
  energy : ∀ m < s.M, ∀ n < s.N, u.energy.get m n = s.energy.get m (π n)
  consNone : s.cons = none → u.cons = none
  cons : ∀ c, s.cons = some c → ∃ c', u.cons = some c' ∧ c'.rows = c.rows ∧ c'.cols = c.cols ∧ ∀ i < c.rows, c'.get i 0 = c.get i 0
  bestE : ∀ m < s.M, u.bestE m = s.bestE m
  bestCurE : ∀ m < s.M, u.bestCurE m = s.bestCurE m
  fMin : ∀ m < s.M, u.fMin m = s.fMin m
  updDiff : ∀ m < s.M, u.updDiff m = s.updDiff m
  nEval : u.nEval = s.nEval
  alpha : u.alpha = s.alpha
  lamda : u.lamda = s.lamda
  sigma : u.sigma = s.sigma
  dt : u.dt = s.dt
  t : u.t = s.t
  it : u.it = s.it
  active : u.active = s.active
  terms : u.terms = s.terms
  draws : u.draws = s.draws
  batched : u.batched = s.batched
  batchSize : u.batchSize = s.batchSize
  saveInt : u.saveInt = s.saveInt

end Verif
