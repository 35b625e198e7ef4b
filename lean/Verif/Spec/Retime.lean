import Verif.Model.Noise

/-! Specification for C124: another unit of time. -/

namespace Verif

variable {V : Type} [AddCommGroup V] [Module ℝ V]

/-- A criterion with the time limit in the new unit (`max_time`, cbx/utils/termination.py:85-95). -/
noncomputable def Term.retime (c : ℝ) : Term ℝ → Term ℝ
  | .maxTime T => .maxTime (c * T)
  | tm => tm

/-- The parameters in the new unit: `dt` times `c`, `lamda` divided by `c`, `sigma` divided by `√c` (`cbx/dynamics/pdyn.py:640-658`, changed by schedulers, `cbx/scheduler.py:35-80`). -/
noncomputable def Params.retime (c : ℝ) (p : Params ℝ) : Params ℝ := { p with lamda := p.lamda / c, sigma := p.sigma / √c, dt := c * p.dt }

/-- A state in the new unit: parameters, clock and time limits. Particles, energies, history, counters and random numbers are the same (attributes of `cbx/dynamics/pdyn.py:144-165,640-658`). -/
noncomputable def St.retime (c : ℝ) (s : St ℝ V) : St ℝ V :=
  { s with lamda := s.lamda / c, sigma := s.sigma / √c, dt := c * s.dt, t := c * s.t, terms := s.terms.map (Term.retime c) }

/-- Constructor arguments in the new unit (`cbx/dynamics/pdyn.py:629-640`). -/
noncomputable def Args.retime (c : ℝ) (a : Args ℝ V) : Args ℝ V :=
  { a with lamda := a.lamda / c, sigma := a.sigma / √c, dt := c * a.dt, terms := a.terms.map (Term.retime c) }

/-- Result of `optimize` in the new unit (`cbx/dynamics/pdyn.py:355-364`). -/
noncomputable def Outcome.retime (c : ℝ) : Outcome (St ℝ V) → Outcome (St ℝ V)
  | .done s => .done (s.retime c)
  | .raised e => .raised e
  | .outOfFuel => .outOfFuel

/-- The parts of the surroundings given by the user do not depend on the unit: the noise has the factor `√dt`, the others do not read the time parameters, and the scheduler acts in proportion (`cbx/noise.py:59,92,147,195`, `cbx/scheduler.py:35-80`). -/
structure Unitless (env : Env ℝ V) (c : ℝ) : Prop where
  noise : ∀ s, env.noise (s.retime c) = (env.noise s).map (Mat.map fun v => √c • v)
  post : ∀ s, env.post (s.retime c) = env.post s
  corr : ∀ g, env.corr = .custom g → ∀ (s : St ℝ V) d, g (s.retime c) d = g s d
  custom : ∀ i (s : St ℝ V), env.custom i (s.retime c) = env.custom i s
  sched : ∀ s, env.sched (s.retime c) = (env.sched s).map (Params.retime c)

end Verif
