import Verif.Model.Dyn
import Mathlib.Data.Finset.Sort

/-! # Success evaluation: `cbx/utils/success.py` -/

namespace Verif

variable {K V : Type} [Field K] [LinearOrder K]

/-- The dictionary a criterion or `evaluation` returns, `success.py:8-11,27,47` (`normdiff` is left out). -/
structure Success (K : Type) where
  num : ℕ
  rate : K
  idx : List ℕ

/-- `len(idx)/M`, `success.py:9,27,47`: division of Python integers. -/
def rateOf (n M : ℕ) : Except Err K := if M = 0 then .error .zeroDiv else .ok ((n : K) / (M : K))

/-- `dist_to_min_success`, `success.py:3-11`, for the `M` points `x` and the distance `nd` to `x_true`. For points with one axis the
`squeeze`/`reshape` pair gives back one row per run; several axes ending with one of length 1 are not modelled. -/
def distToMin (nd : V → Flt K) (tol : Flt K) (M : ℕ) (x : ℕ → V) : Except Err (Success K) := do
  let idx := (List.range M).filter fun m => Flt.lt (nd (x m)) tol
  let r ← rateOf idx.length M
  pure ⟨idx.length, r, idx⟩

/-- `np.linalg.norm(., ord=inf)` of the difference of two points, `success.py:4-5`. -/
def infDist {d : ℕ} (xTrue : Fin d → K) (x : Fin d → K) : Flt K :=
  .fin ((List.ofFn fun i => |xTrue i - x i|).foldl max 0)

/-- `value_success`, `success.py:23-27`, with `x` of shape `(M, 1, ...)`: `np.where(vals < thresh)[0]` lists the rows. -/
def valueSuccess (f : V → Flt K) (thresh : Flt K) (M : ℕ) (x : ℕ → V) : Except Err (Success K) := do
  let idx := (List.range M).filter fun m => Flt.lt (f (x m)) thresh
  let r ← rateOf idx.length M
  pure ⟨idx.length, r, idx⟩

/-- `np.intersect1d`, `success.py:45`: increasing, without repetitions. -/
def intersect1d (a b : List ℕ) : List ℕ := (a.toFinset ∩ b.toFinset).sort (· ≤ ·)

/-- `evaluation.__call__`, `success.py:41-49`: `criteria` are functions of the dynamic; `None` (the default) is not iterable. -/
def evaluation (criteria : Option (List (St K V → Except Err (Success K)))) (s : St K V) : Except Err (Success K) :=
  match criteria with
  | none => .error .type
  | some cs => do
    let idx ← cs.foldlM (fun idx crit => do
      let r ← crit s
      pure (intersect1d r.idx idx)) (List.range s.M)
    let r ← rateOf idx.length s.M
    pure ⟨idx.length, r, idx⟩

/-- `dist_to_min.__call__`, `success.py:19-21`. -/
def distCrit (nd : V → Flt K) (tol : Flt K) (s : St K V) : Except Err (Success K) := distToMin nd tol s.M s.bestP

/-- `value_thresh.__call__`, `success.py:33-34`. -/
def valueCrit (f : V → Flt K) (thresh : Flt K) (s : St K V) : Except Err (Success K) := valueSuccess f thresh s.M s.bestP

end Verif
