import Verif.Model.Dyn
import Mathlib.Algebra.Order.Field.Basic
import Mathlib.Algebra.Module.Basic

/-! Specification-level notions for runs with objectives `f` and `c * f + b`. -/

namespace Verif

variable {K V : Type} [Field K] [LinearOrder K]

/-- `c * e + b` for an energy. -/
def affE (c b : K) (e : Flt K) : Flt K := Flt.add (Flt.mul (.fin c) e) (.fin b)

/-- A history entry after changing the objective: energies are mapped, everything else stays. -/
def Entry.affine (c b : K) : Entry K V → Entry K V
  | .energy e => .energy (e.map (affE c b))
  | e => e

/-- A stopping criterion after changing the objective: the tolerance of `energy_tol` and the stored losses of `energy_stagnation` are mapped, the threshold for the standard deviation is multiplied. -/
def Term.affine (c b : K) : Term K → Term K
  | .energyTol tol => .energyTol (affE c b tol)
  | .energyStag p th lo => .energyStag p (Flt.mul (.fin c) th) (lo.map fun l r m => affE c b (l r m))
  | t => t

/-- A state after changing the objective: energies are mapped, `alpha` is divided by `c`, positions, consensus points, drifts, counters, active runs stay. -/
def affineSt (c b : K) (s : St K V) : St K V :=
  { s with
    energy := s.energy.map (affE c b), bestE := fun m => affE c b (s.bestE m), bestCurE := fun m => affE c b (s.bestCurE m), fMin := fun m => affE c b (s.fMin m)
    alpha := fun m => s.alpha m / c, hist := fun t => (s.hist t).map (Entry.affine c b), terms := s.terms.map (Term.affine c b) }

/-- A consensus rule that depends on `alpha` and the energies of a run only through `alpha * energy` up to a constant; `F` says which energies occur. -/
def ConsAffine (c b : K) (F : Flt K → Prop) : Cons K V → Prop
  | .mean r => ∀ (a : K) (L : List (Flt K × V)), (∀ q ∈ L, F q.1) → r (L.map fun q => (a / c, affE c b q.1, q.2)) = r (L.map fun q => (a, q.1, q.2))
  | .polar r => ∀ (a : K) (L : List (Flt K × V)) (j : ℕ), (∀ q ∈ L, F q.1) → r (L.map fun q => (a / c, affE c b q.1, q.2)) j = r (L.map fun q => (a, q.1, q.2)) j

/-- Two environments for the objectives `f` and `c * f + b`: noise, post processing and user criteria do not look at energies and `alpha`, the second correction gives on the
gap `c * z` what the first gives on `z`, the second scheduler gives the `alpha` of the first divided by `c`. -/
structure EnvAffine (c b : K) (env env' : Env K V) : Prop where
  f : ∀ v, env'.f v = affE c b (env.f v)
  cons : env'.cons = env.cons
  rule : ConsAffine c b (fun e => ∃ v, e = env.f v) env.cons
  noise : ∀ s, env'.noise (affineSt c b s) = env.noise s
  post : ∀ s, env'.post (affineSt c b s) = env.post s
  normDiff : env'.normDiff = env.normDiff
  perm : env'.perm = env.perm
  sampler : env'.sampler = env.sampler
  custom : ∀ i s, env'.custom i (affineSt c b s) = env.custom i s
  sched : ∀ s p, env.sched s = .ok p → env'.sched (affineSt c b s) = .ok { p with alpha := fun m => p.alpha m / c }
  emptyRaises : env'.emptyRaises = env.emptyRaises
  corr : match env.corr with
    | .none => env'.corr = .none
    | .custom k => ∃ k', env'.corr = .custom k' ∧ ∀ s, k' (affineSt c b s) = k s
    | .heavi g => ∃ g', env'.corr = .heavi g' ∧ ∀ z v, g' (Flt.mul (.fin c) z) v = g z v
  sqrt : ∀ z, env'.sqrtK (c * c * z) = c * env.sqrtK z

/-- The second state belongs to the objective `c * f + b`, the first to `f`: same positions, consensus points, drifts, best positions, counters, active runs and reasons; energies and recorded energies `c * e + b`. -/
structure AffineRun (c b : K) (s t : St K V) : Prop where
  x : t.x = s.x
  cons : t.cons = s.cons
  drift : t.drift = s.drift
  bestP : t.bestP = s.bestP
  bestCurP : t.bestCurP = s.bestCurP
  fMinIdx : t.fMinIdx = s.fMinIdx
  aux1 : t.aux1 = s.aux1
  aux2 : t.aux2 = s.aux2
  updDiff : t.updDiff = s.updDiff
  nEval : t.nEval = s.nEval
  log : t.log = s.log
  it : t.it = s.it
  time : t.t = s.t
  active : t.active = s.active
  reason : t.reason = s.reason
  params : t.lamda = s.lamda ∧ t.sigma = s.sigma ∧ t.dt = s.dt
  alpha : ∀ m, t.alpha m = s.alpha m / c
  rows : t.energy.rows = s.energy.rows ∧ t.energy.cols = s.energy.cols
  energy : ∀ m n, t.energy.get m n = affE c b (s.energy.get m n)
  bestE : ∀ m, t.bestE m = affE c b (s.bestE m)
  bestCurE : ∀ m, t.bestCurE m = affE c b (s.bestCurE m)
  fMin : ∀ m, t.fMin m = affE c b (s.fMin m)
  hist : ∀ tr, t.hist tr = (s.hist tr).map (Entry.affine c b)

end Verif
