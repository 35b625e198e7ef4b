import Verif.Model.Dyn
import Mathlib.Analysis.SpecialFunctions.Log.Basic
import Mathlib.Algebra.BigOperators.Group.Finset.Basic

/-!
# Parameter schedulers: `cbx/scheduler.py`

`multiply` and `bisection_solve` in any arithmetic, the effective sample size over the reals.
Simplification: parameters and function values are finite (no NaN, no infinities).
-/

namespace Verif

/-- The parameter names a scheduler can be given, `scheduler.py:25-33` (`name`, default `'alpha'`). -/
inductive PName where
  | alpha | lamda | sigma | dt
  deriving DecidableEq, Repr

section
variable {K V : Type} [Mul K] [LinearOrder K]

/-- `setattr(dyn, name, g(getattr(dyn, name)))`, elementwise; `scheduler.py:52,103-105`. -/
def Params.modify (nm : PName) (g : K → K) (p : Params K) : Params K :=
  match nm with
  | .alpha => { p with alpha := fun m => g (p.alpha m) }
  | .lamda => { p with lamda := g p.lamda }
  | .sigma => { p with sigma := g p.sigma }
  | .dt => { p with dt := g p.dt }

/-- `param_update.ensure_max`, `scheduler.py:50-52`. -/
def ensureMax (nm : PName) (maximum : K) (p : Params K) : Params K := p.modify nm fun v => min maximum v

/-- `multiply.update`, `scheduler.py:101-106`. -/
def multiplyUpdate (nm : PName) (factor maximum : K) (p : Params K) : Params K :=
  ensureMax nm maximum (p.modify nm fun v => factor * v)

/-- The parameters of a dynamic; read and written by `getattr`/`setattr`, `scheduler.py:35-52`. -/
def St.params (s : St K V) : Params K := ⟨s.alpha, s.lamda, s.sigma, s.dt⟩

/-- `scheduler.update`, `scheduler.py:70-83`, for parameter updates that read only the parameters (`multiply`): the
updates are applied in list order. -/
def schedulerUpdate (us : List (Params K → Params K)) (p : Params K) : Params K := us.foldl (fun p u => u p) p

end

section
variable {K V : Type} [Field K] [LinearOrder K]

/-- `CBXDynamic.default_sched`, `pdyn.py:803-815`: `multiply(name='alpha', factor=1.05)`, `maximum = 1e5`
(`scheduler.py:28`). -/
def defaultSched : List (Params K → Params K) := [multiplyUpdate .alpha (21 / 20) 100000]

end

section
variable {K : Type} [Zero K] [Neg K] [Add K] [Div K] [OfNat K 2] [LinearOrder K]

/-- The local variables of `bisection_solve`, `scheduler.py:200-206`. -/
structure Bis (K : Type) where
  low : ℕ → K
  high : ℕ → K
  x : ℕ → K
  idx : List ℕ
  it : ℕ

/-- `np.abs`, `scheduler.py:213`. -/
def absK (a : K) : K := max a (-a)

/-- One pass of the loop body, `scheduler.py:205-215`; `M = len(low)`. -/
def bisBody (f : (ℕ → K) → ℕ → K) (M : ℕ) (thresh : K) (s : Bis K) : Bis K :=
  let x := fun j => (s.low j + s.high j) / 2
  let fx := f x
  { low := fun j => if j ∈ s.idx ∧ 0 < fx j then x j else s.low j
    high := fun j => if j ∈ s.idx ∧ fx j < 0 then x j else s.high j
    x := x
    idx := (List.range M).filter fun j => decide (thresh < absK (fx j))
    it := s.it + 1 }

/-- The loop, `scheduler.py:204-215`: `while not term`, `term = (it > max_it) | (len(idx) == 0)`. The counter `n`
only makes the recursion structural; started with `max_it + 1` it is never exhausted before the test succeeds. -/
def bisLoop (f : (ℕ → K) → ℕ → K) (M : ℕ) (thresh : K) (maxIt : ℕ) : ℕ → Bis K → Bis K
  | 0, s => s
  | n + 1, s =>
    let s' := bisBody f M thresh s
    if maxIt < s'.it ∨ s'.idx = [] then s' else bisLoop f M thresh maxIt n s'

/-- `bisection_solve`, `scheduler.py:182-218` (final local variables; the function returns `x`). -/
def bisection (f : (ℕ → K) → ℕ → K) (M : ℕ) (low high : ℕ → K) (maxIt : ℕ) (thresh : K) : Bis K :=
  bisLoop f M thresh maxIt (maxIt + 1) ⟨low, high, high, List.range M, 0⟩

end

/-- `scipy.special.logsumexp` of the entries `g 0, ..., g (N-1)`, `scheduler.py:178-179`. -/
noncomputable def logsumexp (N : ℕ) (g : ℕ → ℝ) : ℝ := Real.log (∑ i ∈ Finset.range N, Real.exp (g i))

/-- `eff_sample_size_gap.__call__` for one run, `scheduler.py:177-180`. -/
noncomputable def effGap (N : ℕ) (e : ℕ → ℝ) (eta alpha : ℝ) : ℝ :=
  Real.exp (2 * logsumexp N (fun i => -alpha * e i) - logsumexp N (fun i => -2 * alpha * e i)) - eta * N

/-- `effective_sample_size.update`, `scheduler.py:148-156`, `minimum = 1e-5` (`scheduler.py:29`), `thresh = 1e-2`;
`E m i` is the energy of particle `i` of run `m`. -/
noncomputable def effectiveUpdate (M N : ℕ) (E : ℕ → ℕ → ℝ) (eta maximum : ℝ) (solveMaxIt : ℕ) (p : Params ℝ) : Params ℝ :=
  ensureMax .alpha maximum { p with
    alpha := (bisection (fun a m => effGap N (E m) eta (a m)) M (fun _ => 1 / 100000) (fun _ => maximum)
      solveMaxIt (1 / 100)).x }

end Verif
