import Verif.Model.Dyn
import Mathlib.Data.Rat.Defs
import Mathlib.Algebra.Order.Ring.Rat
import Mathlib.Algebra.Field.Rat
import Mathlib.Algebra.BigOperators.Group.List.Basic

/-! A concrete, executable instance of the machine over the rationals; used to show that the hypotheses of
the theorems can be met by non-trivial runs. -/

namespace Verif.Example

/-- Objective `v ↦ (v - 9/4)²`, consensus = plain mean, constant noise, default-like clipping post processing. -/
def env : Env ℚ ℚ where
  f v := .fin ((v - 9 / 4) * (v - 9 / 4))
  cons := .mean fun l => (l.map fun p => p.2.2).sum / l.length
  noise s := match s.drift with
    | some d => .ok ⟨d.rows, d.cols, fun i j => if i + j = s.draws then 1 / 2 else -1 / 2⟩
    | none => .error .attribute
  corr := .none
  post s := .ok (s.x.map fun v => max (-100) (min 100 v))
  normDiff l := .fin (l.map fun p => |p.1 - p.2|).sum
  sqrtK := id
  perm N c m j := if j < N then (j + c + m) % N else j
  sampler k i j := k + i + j
  custom _ _ _ := false
  sched s := .ok { alpha := fun m => 2 * s.alpha m, lamda := s.lamda, sigma := s.sigma, dt := s.dt }

/-- Two runs of three particles, time step 1/2. -/
def args (terms : List (Term ℚ)) (batch : Option ℕ) : Args ℚ ℚ where
  x0 := ⟨2, 3, fun i j => 4 * i + j + 1⟩
  alpha := 1
  lamda := 1
  sigma := 1 / 4
  dt := 1 / 2
  terms := terms
  tracks := [.x, .energy]
  saveInt := 1
  batchSize := batch
  batchPartial := true
  batchConcat := false
  checkF := true

/-- The state after construction (the constructor succeeds for these arguments). -/
def start (terms : List (Term ℚ)) (batch : Option ℕ) : St ℚ ℚ :=
  match init env (args terms batch) with
  | .ok s => s
  | .error _ => baseSt (args terms batch)

/-- The same with a single run. -/
def args1 (terms : List (Term ℚ)) : Args ℚ ℚ :=
  { args terms none with x0 := ⟨1, 3, fun _ j => j + 1⟩ }

/-- The state after construction with a single run. -/
def start1 (terms : List (Term ℚ)) : St ℚ ℚ :=
  match init env (args1 terms) with
  | .ok s => s
  | .error _ => baseSt (args1 terms)

/-- The final state of an `optimize` run (the start state if it does not finish). -/
def final (terms : List (Term ℚ)) (batch : Option ℕ) (fuel : ℕ) : St ℚ ℚ :=
  match optimize env (cboInner env) fuel (start terms batch) with
  | .done s => s
  | _ => start terms batch

/-- Whether the run finished without exception. -/
def isDone {S : Type} : Outcome S → Bool
  | .done _ => true
  | _ => false

end Verif.Example
