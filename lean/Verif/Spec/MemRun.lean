import Verif.Spec.Memory
import Verif.Spec.Runs

/-! Specification of one run of `CBOMemory` and of `PSO`, written for a run by itself. -/

namespace Verif

variable {K V : Type} [Zero K] [One K] [Neg K] [Add K] [Sub K] [Mul K] [Inv K] [Div K] [NatCast K] [Pow K ℕ] [LinearOrder K] [Add V] [Sub V] [SMul K V]

/-- One run: positions, historical best positions, velocities, energies of the historical best positions. -/
structure MemRun (K V : Type) where
  x : ℕ → V
  y : ℕ → V
  v : ℕ → V
  e : ℕ → Flt K

/-- Parameters of a step of one run, with its consensus function, its number of particles and the noise it is given for the two drifts. -/
structure RunPar (K V : Type) where
  f : V → Flt K
  cons : List (K × Flt K × V) → V
  N : ℕ
  alpha : K
  lamda : K
  sigma : K
  dt : K
  noise₁ : ℕ → V → V
  noise₂ : ℕ → V → V

/-- The consensus point of the historical best positions. -/
def RunPar.point (q : RunPar K V) (R : MemRun K V) : V := q.cons ((List.range q.N).map fun j => (q.alpha, R.e j, R.y j))

/-- The memory after the particles have moved to `X`: a particle's new position replaces its historical best one if its objective value is smaller. Replacing is done by
adding the difference; with rounding the result is only close to the new position. -/
def RunPar.remember (q : RunPar K V) (R : MemRun K V) (X v : ℕ → V) : MemRun K V where
  x := X
  y := fun n => R.y n + (if Flt.gt (R.e n) (q.f (X n)) then (1 : K) else 0) • (X n - R.y n)
  v := v
  e := fun n => Flt.minimum (R.e n) (q.f (X n))

/-- `CBOMemory`: a step towards the consensus point, then one from there towards the historical best position, each with its noise. -/
def RunPar.memMove (q : RunPar K V) (lm sm : K) (R : MemRun K V) (n : ℕ) : V :=
  let d := R.x n - q.point R
  let x := R.x n + ((-q.lamda * q.dt) • d + q.sigma • q.noise₁ n d)
  let d := x - R.y n
  x + ((-lm * q.dt) • d + sm • q.noise₂ n d)

/-- One step of `CBOMemory`. -/
def RunPar.memNext (q : RunPar K V) (lm sm : K) (R : MemRun K V) : MemRun K V := q.remember R (q.memMove lm sm R) R.v

/-- `PSO`: the new velocity. -/
def RunPar.psoVel (q : RunPar K V) (p : PsoPar K) (R : MemRun K V) (n : ℕ) : V :=
  let d := R.x n - q.point R
  let d' := R.x n - R.y n
  (p.m + p.gamma * q.dt)⁻¹ • ((p.m * q.dt) • R.v n + (q.lamda * q.dt) • d + (p.lm * q.dt) • d' + q.sigma • q.noise₁ n d + p.sm • q.noise₂ n d')

/-- One step of `PSO`. -/
def RunPar.psoNext (q : RunPar K V) (p : PsoPar K) (R : MemRun K V) : MemRun K V :=
  q.remember R (fun n => R.x n + q.dt • q.psoVel p R n) (q.psoVel p R)

/-- Run `m` of a state. -/
def St.memRun (s : St K V) (m : ℕ) : MemRun K V := ⟨s.x.get m, s.aux1.get m, s.aux2.get m, s.energy.get m⟩

/-- The parameters of run `m` in a state, if the noise of particle `n` of run `m` in draw `c` is `ν c dt m n`. -/
def St.runPar (s : St K V) (env : Env K V) (g : List (K × Flt K × V) → V) (ν : ℕ → K → ℕ → ℕ → V → V) (m : ℕ) : RunPar K V where
  f := env.f
  cons := g
  N := s.N
  alpha := s.alpha m
  lamda := s.lamda
  sigma := s.sigma
  dt := s.dt
  noise₁ := ν s.draws s.dt m
  noise₂ := ν (s.draws + 1) s.dt m

/-- After the step, run `m` of `s'` is `R`, with the positions post processed by `p`. -/
structure RunIs (p : V → V) (s' : St K V) (m : ℕ) (R : MemRun K V) : Prop where
  x : ∀ n < s'.N, s'.x.get m n = p (R.x n)
  y : ∀ n < s'.N, s'.aux1.get m n = R.y n
  v : ∀ n < s'.N, s'.aux2.get m n = R.v n
  e : ∀ n < s'.N, s'.energy.get m n = R.e n

end Verif
