import Verif.Model.Dyn

/-! # Vocabulary for C25: two executions related by a map of the space -/

set_option linter.unusedSectionVars false

namespace Verif

/-- Two computations both raise the same exception, or both succeed with related results. -/
def ExRel {α β : Type} (R : α → β → Prop) : Except Err α → Except Err β → Prop
  | .ok a, .ok b => R a b
  | .error e, .error e' => e = e'
  | _, _ => False

variable {K V : Type} [Zero K] [One K] [Neg K] [Add K] [Sub K] [Mul K] [Inv K] [Div K] [NatCast K] [Pow K ℕ] [LinearOrder K] [Add V] [Sub V] [SMul K V]

/-- A history entry after mapping positions by `φ`, differences of positions by `ψ` and update norms by `κ`. -/
def Entry.image (φ ψ : V → V) (κ : Flt K → Flt K) : Entry K V → Entry K V
  | .updateNorm u => .updateNorm fun m => κ (u m)
  | .energy e => .energy e
  | .x y => .x (y.map φ)
  | .consensus c => .consensus (c.map (Mat.map φ))
  | .driftMean d => .driftMean (d.map (Mat.map ψ))
  | .drift d ix => .drift (d.map (Mat.map ψ)) ix

/-- The tolerance of `diff_tol` mapped by `κ`; other criteria do not mention lengths. -/
def Term.image (κ : Flt K → Flt K) : Term K → Term K
  | .diffTol tol => .diffTol (κ tol)
  | t => t

/-- State `t` is state `s` with all positions mapped by `φ`, all differences of positions by `ψ`, all update norms by `κ`; everything else that the dynamic reads is the same.
(The ghost list of evaluated points and the extra arrays of other dynamics are not compared.) -/
structure Image (φ ψ : V → V) (κ : Flt K → Flt K) (s t : St K V) : Prop where
  x : t.x = s.x.map φ
  xOld : t.xOld = s.xOld.map (Mat.map φ)
  cons : t.cons = s.cons.map (Mat.map φ)
  drift : t.drift = s.drift.map (Mat.map ψ)
  best : ∀ m, t.bestP m = φ (s.bestP m) ∧ t.bestE m = s.bestE m
  bestCur : ∀ m, t.bestCurP m = φ (s.bestCurP m) ∧ t.bestCurE m = s.bestCurE m
  energy : t.energy = s.energy
  fMin : t.fMin = s.fMin ∧ t.fMinIdx = s.fMinIdx
  updDiff : ∀ m, t.updDiff m = κ (s.updDiff m)
  hist : ∀ tr, t.hist tr = (s.hist tr).map (Entry.image φ ψ κ)
  count : t.M = s.M ∧ t.N = s.N ∧ t.nEval = s.nEval ∧ t.it = s.it ∧ t.t = s.t ∧ t.draws = s.draws
  params : t.alpha = s.alpha ∧ t.lamda = s.lamda ∧ t.sigma = s.sigma ∧ t.dt = s.dt
  runs : t.active = s.active ∧ t.reason = s.reason ∧ t.terms = s.terms.map (Term.image κ)
  batch : t.batchSize = s.batchSize ∧ t.batched = s.batched ∧ t.batchPartial = s.batchPartial ∧ t.batchConcat = s.batchConcat ∧ t.indices = s.indices ∧ t.perms = s.perms ∧
    t.cIdx = s.cIdx ∧ t.pIdx = s.pIdx
  tracking : t.saveInt = s.saveInt ∧ t.trackIt = s.trackIt ∧ t.tracks = s.tracks

end Verif
