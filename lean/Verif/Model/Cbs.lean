import Verif.Model.Noise

/-!
# Consensus-based sampling: `cbx/dynamics/cbs.py`

`CBS` is a `CBO` whose constructor changes three things; `run`/`optimize` is the loop of `ParticleDynamic.optimize`.
-/

namespace Verif

variable {K V : Type} [Zero K] [One K] [Neg K] [Add K] [Sub K] [Mul K] [Inv K] [Div K] [NatCast K] [Pow K ℕ] [LinearOrder K] [Add V] [Sub V] [SMul K V]

/-- The tracking arguments with the default of `CBS`, `cbs.py:10`: no trackers (`save_int` then has its default 1, `pdyn.py:477`). -/
def cbsTracks (tr : Option (List Track × ℕ)) : List Track × ℕ := tr.getD ([], 1)

/-- The checks of the constructor after `super().__init__`, `cbs.py:12-17`: `sigma` is overwritten, batches and particles with more than one
axis (`trail` = number of axes of one particle) are refused. -/
def cbsCheck (trail : ℕ) (s : St K V) : Except Err (St K V) :=
  if s.batched then .error .notImpl else if 1 < trail then .error .notImpl else .ok { s with sigma := 1 }

/-- `CBS.__init__`, `cbs.py:6-22`. The warning (`cbs.py:19-20`) is not modelled; the mode (`cbs.py:22`) is the argument of `cbsNoise`. -/
def cbsInit (env : Env K V) (trail : ℕ) (tr : Option (List Track × ℕ)) (a : Args K V) : Except Err (St K V) := do
  let s ← init env { a with tracks := (cbsTracks tr).1, saveInt := (cbsTracks tr).2 }
  cbsCheck trail s

/-- The noise of a `CBS` object, `cbs.py:6,22`: covariance noise with `mode` set on the noise object after its construction; every mode but
'sampling' means optimization (`noise.py:198-202`). -/
noncomputable def cbsNoise {ι : Type} [Fintype ι] [DecidableEq ι] (eigh : Matrix ι ι ℝ → (ι → ℝ) × Matrix ι ι ℝ) (mode : String)
    (smp : ℕ → ℕ → ℕ → ι → ℝ) : St ℝ (ι → ℝ) → Except Err (Mat (ι → ℝ)) :=
  covNoise eigh (decide (mode = "sampling")) smp

/-- `CBS.run`, `cbs.py:30-46`, with the scheduler `env.sched`; `CBS.optimize`, `cbs.py:48-49`, is the same call and, unlike
`ParticleDynamic.optimize` (`pdyn.py:364`), returns nothing. -/
def cbsRun (env : Env K V) (fuel : ℕ) (s : St K V) : Outcome (St K V) := optimize env (cboInner env) fuel s

/-- `CBS.default_sched`, `cbs.py:51-52`: the empty scheduler leaves the parameters as they are (`scheduler.py:70-83`). -/
def cbsDefaultSched (s : St K V) : Except Err (Params K) := .ok ⟨s.alpha, s.lamda, s.sigma, s.dt⟩

end Verif
