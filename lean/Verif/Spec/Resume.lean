import Verif.Model.Dyn

/-! Specification for resuming a stopped optimization and for parameters without influence: changes of attributes and callables that do
not read them. -/

namespace Verif

variable {K V : Type}

/-- The same dynamic with other values of `lamda`, `term_criteria` and `active_runs`' termination reasons. -/
def St.tweak (f : K → K) (g : List (Term K) → List (Term K)) (h : (ℕ → Option (List ℕ)) → ℕ → Option (List ℕ)) (s : St K V) :
    St K V :=
  { s with lamda := f s.lamda, terms := g s.terms, reason := h s.reason }

/-- The same dynamic with the given criteria. -/
def St.withTerms (T : List (Term K)) (s : St K V) : St K V := { s with terms := T }

/-- The same dynamic with the given criteria and reasons. -/
def St.withTR (T : List (Term K)) (R : ℕ → Option (List ℕ)) (s : St K V) : St K V := { s with terms := T, reason := R }

/-- The same dynamic with the given `lamda`. -/
def St.withLamda (l : K) (s : St K V) : St K V := { s with lamda := l }

/-- Noise, post processing and a user's correction do not read what `φ` changes. -/
structure Env.Ignores (env : Env K V) (φ : St K V → St K V) : Prop where
  noise : ∀ s, env.noise (φ s) = env.noise s
  post : ∀ s, env.post (φ s) = env.post s
  corr : ∀ c, env.corr = .custom c → ∀ s d, c (φ s) d = c s d

/-- A step does not read what `φ` changes: it gives the same exception or the same result, on which `φ` has been applied. -/
def StepIgnores (inner : St K V → Except Err (St K V)) (φ : St K V → St K V) : Prop :=
  ∀ s, inner (φ s) = (inner s).map φ

/-- `Later a b`: criterion `b` is `a` with a larger bound: more iterations (or no bound, `max_it = None`) or more time. -/
inductive Later [LE K] : Term K → Term K → Prop
  | maxIt {n n' : ℕ} (h : n ≤ n') : Later (.maxIt (some n)) (.maxIt (some n'))
  | maxItNone (n : ℕ) : Later (.maxIt (some n)) (.maxIt none)
  | maxTime {T T' : K} (h : T ≤ T') : Later (.maxTime T) (.maxTime T')

/-- No callable reads the criteria, the reasons of earlier stops or, for user criteria, the active runs. -/
structure Env.Plain (env : Env K V) : Prop where
  ignores : ∀ T R, env.Ignores (St.withTR T R)
  sched : ∀ T R s, env.sched (St.withTR T R s) = env.sched s
  custom : ∀ i s A m, env.custom i { s with active := A } m = env.custom i s m
  customTR : ∀ i s T R m, env.custom i (St.withTR T R s) m = env.custom i s m

/-- No callable reads `lamda` (a scheduler may change it). -/
structure Env.NoLamda (env : Env K V) : Prop where
  ignores : ∀ l, env.Ignores (St.withLamda l)
  sched : ∀ l s, (env.sched (St.withLamda l s)).map (fun p => (p.alpha, p.sigma, p.dt)) =
    (env.sched s).map fun p => (p.alpha, p.sigma, p.dt)
  custom : ∀ i l s m, env.custom i (St.withLamda l s) m = env.custom i s m

end Verif
