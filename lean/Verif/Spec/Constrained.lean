import Verif.Model.FullMoves
import Verif.Spec.Example

/-! # Vocabulary and concrete dynamics for C18, C37 -/

set_option linter.unusedSectionVars false

namespace Verif

variable {K V : Type} [Zero K] [One K] [Neg K] [Add K] [Sub K] [Mul K] [Inv K] [Div K] [NatCast K] [Pow K ℕ] [LinearOrder K] [Add V] [Sub V] [SMul K V]

/-- The constraint `x = 0` for particles in one dimension (plane with `a = 1`, `b = 0`), over the rationals. -/
def Example.lineOps : ConOps ℚ ℚ := ⟨fun x => 2 * x, fun q _ t => .ok (t / (1 + 2 * q)), fun q x t => .ok (t - 2 * q * x)⟩

/-- Three runs, the middle one close to the minimiser. -/
def Example.args3 : Args ℚ ℚ :=
  { Example.args [.energyTol (.fin 2)] none with x0 := ⟨3, 3, fun i j => if i = 1 then 2 else 10 + i + j⟩ }

/-- The line `y = 1` in the plane over the rationals, as a hypersurface (plane with `a = (0, 1)`, `b = 1`). -/
def Example.lineSurf : SurfOps ℚ (ℚ × ℚ) := ⟨fun _ z => (z.1, 0), fun y => (y.1, 1), fun _ _ _ _ => (0, 0)⟩

/-- A dynamic in the plane over the rationals. -/
def Example.env2 : Env ℚ (ℚ × ℚ) where
  f v := .fin (v.1 * v.1 + v.2 * v.2)
  cons := .mean fun l => ((l.map fun p => p.2.2.1).sum / l.length, (l.map fun p => p.2.2.2).sum / l.length)
  noise s := match s.drift with
    | some d => .ok ⟨d.rows, d.cols, fun i j => if i + j = s.draws then (1 / 2, 1) else (-1 / 2, 1 / 4)⟩
    | none => .error .attribute
  corr := .none
  post s := .ok s.x
  normDiff l := .fin (l.map fun p => |p.1.1 - p.2.1| + |p.1.2 - p.2.2|).sum
  sqrtK := id
  perm N c m j := if j < N then (j + c + m) % N else j
  sampler k i j := (k + i, j)
  custom _ _ _ := false
  sched s := .ok { alpha := s.alpha, lamda := s.lamda, sigma := s.sigma, dt := s.dt }

/-- Two runs on the line `y = 1`, the second far away from the minimiser. -/
def Example.argsLine (terms : List (Term ℚ)) : Args ℚ (ℚ × ℚ) where
  x0 := ⟨2, 3, fun i j => (8 * i + j, 1)⟩
  alpha := 1
  lamda := 1
  sigma := 1 / 4
  dt := 1 / 2
  terms := terms
  tracks := [.x]
  saveInt := 1
  batchSize := none
  batchPartial := true
  batchConcat := false
  checkF := true

/-- Run `i` of two states holds the same data. -/
structure SameData (i : ℕ) (s t : St K V) : Prop where
  N : t.N = s.N
  x : ∀ j < s.N, t.x.get i j = s.x.get i j
  alpha : t.alpha i = s.alpha i
  par : t.lamda = s.lamda ∧ t.dt = s.dt ∧ t.sigma = s.sigma
  draws : t.draws = s.draws

end Verif
