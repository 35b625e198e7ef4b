import Verif.Spec.Best
import Verif.Spec.Example
import Verif.Model.Memory
import Mathlib.Algebra.Module.Basic

/-! Specification for the historical best positions of `CBOMemory` and `PSO`. -/

namespace Verif

variable {K V : Type} [Zero K] [One K] [Neg K] [Add K] [Sub K] [Mul K] [Inv K] [Div K] [NatCast K] [Pow K ℕ] [LinearOrder K] [Add V] [Sub V] [SMul K V]

/-- Replacing a vector by adding the difference is exact; true in modules, false in floating point arithmetic. -/
class MaskExact (K V : Type) [Zero K] [One K] [Add V] [Sub V] [SMul K V] : Prop where
  take : ∀ x y : V, y + (1 : K) • (x - y) = x
  keep : ∀ x y : V, y + (0 : K) • (x - y) = y

instance {K V : Type} [Field K] [AddCommGroup V] [Module K V] : MaskExact K V := ⟨fun x y => by simp, fun x y => by simp⟩

/-- Every step of the sequence is made while at least one run is active, as in `optimize` (`pdyn.py:355-358`). -/
def Live (env : Env K V) (stp : St K V → Except Err (St K V)) : List Op → St K V → Prop
  | [], _ => True
  | o :: l, s => (o = .step → s.active ≠ []) ∧ ∀ s', execBy env stp o s = .ok s' → Live env stp l s'

/-- `traj` lists the ensembles evaluated so far, one more than there were steps and starting with `x0`; in these terms `energy` and `y` hold the
historical best of each particle. -/
structure HistBest (f : V → Flt K) (x0 : Mat V) (steps : ℕ) (s : St K V) (traj : List (Mat V)) : Prop where
  start : traj.head? = some x0
  len : traj.length = steps + 1
  shape : ∀ X ∈ traj, X.rows = s.M ∧ X.cols = s.N
  evals : s.log.filter (fun q => decide (q.1 = Site.energy)) =
    traj.flatMap fun X => (X.entries id).map fun q => (Site.energy, q.1, q.2)
  least : ∀ m < s.M, ∀ n < s.N, ∀ X ∈ traj, Flt.lt (f (X.get m n)) (s.energy.get m n) = false
  visited : ∀ m < s.M, ∀ n < s.N, ∃ X ∈ traj, s.aux1.get m n = X.get m n
  value : ∀ m < s.M, ∀ n < s.N, f (s.aux1.get m n) = s.energy.get m n

/-- Batch size and pool of batch indices: without batches all particles are used; with batches `0 < batch_size < N` and the pool holds particle numbers. -/
def PoolOK (s : St K V) : Prop :=
  (s.batched = false → s.batchSize = s.N) ∧
  (s.batched = true → 0 < s.batchSize ∧ s.batchSize < s.N ∧ s.indices.rows = s.M ∧ ∀ i < s.M, ∀ j < s.indices.cols, s.indices.get i j < s.N)

/-- Shapes of the arrays of a memory dynamic. -/
structure MemShape (s : St K V) : Prop where
  xr : s.x.rows = s.M
  xc : s.x.cols = s.N
  er : s.energy.rows = s.M
  ec : s.energy.cols = s.N
  yr : s.aux1.rows = s.M
  yc : s.aux1.cols = s.N
  act : s.active.Sublist (List.range s.M)
  pool : PoolOK s
  pos : 0 < s.N

/-- The same without batches. -/
structure MemPlain (s : St K V) : Prop extends MemShape s where
  nob : s.batched = false

/-- The steps of the two memory dynamics. -/
def memSteps (env : Env K V) (lm sm : K) (p : PsoPar K) : List (St K V → Except Err (St K V)) := [memStep env lm sm, psoStep env p]

namespace Example

/-- Arguments of the example run for the memory dynamics: `y = copy(x)`, `v = 0 * x`. -/
def memArgs (terms : List (Term ℚ)) : Args ℚ ℚ := { args terms none with aux1 := id, aux2 := fun _ => 0 }

/-- Parameters of the example run of `PSO`. -/
def psoPar : PsoPar ℚ := ⟨1/2, 1/2, 2/5, 1/10⟩

/-- A start with a particle at the minimum of the objective. -/
def memArgs' : Args ℚ ℚ := { memArgs [] with x0 := ⟨2, 3, fun i j => 4 * i + j + 9/4⟩ }

/-- The example surroundings without clipping. -/
def memEnv : Env ℚ ℚ := { env with post := fun s => .ok s.x }

end Example
end Verif
