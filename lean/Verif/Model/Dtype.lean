import Verif.Np.Mat
import Verif.Np.Flt
import Mathlib.Algebra.Order.Floor.Ring

/-!
# Number types of arrays: `cbx/dynamics/pdyn.py:203,670-686,532-543`, `cbo.py:46`, `adamcbo.py:47`, `cbo_memory.py:81`, `driftconstrainedcbo.py:19`

The other models identify an ensemble given as integers with the same ensemble of floats. This file models what NumPy does when the
array `x` handed to the constructor has an integer type: `self.copy(x)` (`pdyn.py:203`) keeps the type, and arrays created from it inherit it.
Only the type distinction integer/float is modelled (no sizes, no overflow).
-/

namespace Verif

/-- Number type of an array: `x.dtype`, kept by `self.copy(x)`, `pdyn.py:203`. -/
inductive DType where
  | int
  | float
  deriving DecidableEq, Repr

section
variable {K : Type} [Field K] [LinearOrder K] [FloorRing K]

/-- C-style conversion of a float to an integer: towards zero. Used by assignments into integer arrays, `pdyn.py:684,543`. -/
def truncZ (v : K) : K := if 0 ≤ v then (⌊v⌋ : K) else (⌈v⌉ : K)

/-- Assignment of a float into an array of the given type, `pdyn.py:684,543`. -/
def castTo : DType → K → K
  | .int, v => truncZ v
  | .float, v => v

/-- The forms in which a user can pass `alpha` (`pdyn.py:633`, `pdyn.py:681`): Python `int`/`float` (also `np.float64`, a subclass of `float`),
another NumPy scalar (`np.float32`, `np.int64`, 0-d), a list, a 1-d array, a 2-d array. -/
inductive AlphaArg (K : Type) where
  | py (a : K)
  | npScalar (a : K)
  | list (l : List K)
  | arr1 (n : ℕ) (g : ℕ → K)
  | arr2 (m : Mat K)

/-- `init_alpha`, `pdyn.py:670-686`: a Python number fills an `(M, 1)` array of the type of `x`; anything else is stored as it is. -/
def initAlpha (dt : DType) (M : ℕ) : AlphaArg K → AlphaArg K
  | .py a => .arr2 ⟨M, 1, fun _ _ => castTo dt a⟩
  | v => v

/-- `self.alpha[self.active_runs_idx, :]`, `pdyn.py:966`, `cbo_memory.py:128`, `pso.py:162`. A NumPy scalar and a 1-d array raise `IndexError`,
a list and a Python number raise `TypeError`. -/
def alphaRows (active : List ℕ) : AlphaArg K → Except Err (Mat K)
  | .py _ => .error .type
  | .npScalar _ => .error .index
  | .list _ => .error .type
  | .arr1 _ _ => .error .index
  | .arr2 m => if ∀ r ∈ active, r < m.rows then .ok ⟨active.length, m.cols, fun i j => m.get (active.getD i 0) j⟩ else .error .index

/-- `weights = - alpha * energy` with the stored `alpha`, `pdyn.py:583` called from `pdyn.py:964-967`. -/
def alphaWeights (alpha : AlphaArg K) (active : List ℕ) (energy : Mat K) : Except Err (Mat K) := do
  let a ← alphaRows active alpha
  Mat.bin (fun a e => -a * e) a energy

variable {ι : Type}

/-- `self.x[self.particle_idx] += update`, `cbo.py:46` (also `adamcbo.py:47`, `cbo_memory.py:81`, `driftconstrainedcbo.py:19`), for all particles: adding
floats in place to integers raises `UFuncTypeError`, a `TypeError`. -/
def inplaceAdd (dt : DType) (x u : Mat (ι → K)) : Except Err (Mat (ι → K)) :=
  match dt with
  | .int => .error .type
  | .float => Mat.bin (fun v w k => v k + w k) x u

/-- `n` steps of a dynamic with an in-place update (`cbo.py:44-50`) and clipping (`pdyn.py:43`; `np.clip` with float bounds returns floats): type and
positions of the ensemble. `upd` computes the update from the positions; without batching. -/
def typedSteps (upd : Mat (ι → K) → Mat (ι → K)) (t : K) : ℕ → DType × Mat (ι → K) → Except Err (DType × Mat (ι → K))
  | 0, s => .ok s
  | n + 1, s => do
    let x ← inplaceAdd s.1 s.2 (upd s.2)
    typedSteps upd t n (.float, x.map fun v k => min (max (v k) (-t)) t)

/-- `update_best_particle`, `pdyn.py:531-544`, for one run, with `best_particle` of type `dt` (it is a copy of `x[:, 0, :]`, `pdyn.py:158`, so it has the
type of the initial ensemble for ever). -/
def bestTyped (dt : DType) (b : Flt K × (ι → K)) (e : Flt K) (v : ι → K) : Flt K × (ι → K) :=
  if Flt.gt b.1 e then (e, fun k => castTo dt (v k)) else b

end
end Verif
