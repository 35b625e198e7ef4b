import Verif.Model.Dyn
import Verif.Model.Noise
import Verif.Spec.Post

/-! Specification for the independence of runs: a run of a multi-run dynamic compared with a dynamic of its own. -/

namespace Verif

variable {K V : Type} [Zero K] [One K] [Neg K] [Add K] [Sub K] [Mul K] [Inv K] [Div K] [NatCast K] [Pow K ℕ] [LinearOrder K] [Add V] [Sub V] [SMul K V]

/-- The noise of row `i`, slot `j` in draw number `c` depends only on the drift of that particle (and on the time step and
the random numbers): isotropic, anisotropic and constant noise, `noise.py:52-170`. -/
def NoiseRows (env : Env K V) (ν : ℕ → K → ℕ → ℕ → V → V) : Prop :=
  ∀ (s : St K V) d, s.drift = some d → ∃ n, env.noise s = .ok n ∧ n.rows = d.rows ∧ n.cols = d.cols ∧
    ∀ i j, n.get i j = ν s.draws s.dt i j (d.get i j)

/-- The scheduler treats every run and parameter separately (`scheduler.py:85-106`, `multiply`). -/
def SchedLocal (env : Env K V) (ga gl gs gd : K → K) : Prop :=
  ∀ s, env.sched s = .ok ⟨fun m => ga (s.alpha m), gl s.lamda, gs s.sigma, gd s.dt⟩

/-- Particles, energies and best values of run `r` of `s` are those of the only run of `s1`. -/
structure SameValues (r : ℕ) (s s1 : St K V) : Prop where
  x : ∀ n < s.N, s1.x.get 0 n = s.x.get r n
  energy : ∀ n < s.N, s1.energy.get 0 n = s.energy.get r n
  bestE : s1.bestE 0 = s.bestE r
  bestP : s1.bestP 0 = s.bestP r
  fMin : s1.fMin 0 = s.fMin r

/-- The observable results of run `r` of `s` are those of the only run of `s1`: the values and the evaluation count. -/
structure SameResult (r : ℕ) (s s1 : St K V) : Prop extends SameValues r s s1 where
  nEval : s1.nEval 0 = s.nEval r

/-- Constructor arguments for run `r` alone. -/
def Args.single (a : Args K V) (r : ℕ) : Args K V := { a with x0 := ⟨1, a.x0.cols, fun _ n => a.x0.get r n⟩ }

/-- The surroundings of run `r` alone: the permutations of run `r`, and in draw number `c` the random numbers that row
`pos c` gets in the dynamic with all runs. -/
def Env.alone (env : Env K V) (r : ℕ) (pos : ℕ → ℕ) (ν : ℕ → K → ℕ → ℕ → V → V) : Env K V :=
  { env with
    perm := fun N c _ j => env.perm N c r j
    noise := fun s => match s.drift with
      | some d => .ok ⟨d.rows, d.cols, fun i j => ν s.draws s.dt (pos s.draws) j (d.get i j)⟩
      | none => .error .attribute }

/-- The surroundings of run `r` alone with covariance noise (`noise.py:173-247`), with the permutations of run `r` and, in draw number `c`, the random numbers of row `pos c`. -/
noncomputable def Env.aloneCov {ι : Type} [Fintype ι] [DecidableEq ι] (env : Env ℝ (ι → ℝ)) (r : ℕ) (pos : ℕ → ℕ) (eigh : Matrix ι ι ℝ → (ι → ℝ) × Matrix ι ι ℝ) (sampling : Bool)
    (smp : ℕ → ℕ → ℕ → ι → ℝ) : Env ℝ (ι → ℝ) :=
  { env with
    perm := fun N c _ j => env.perm N c r j
    noise := covNoise eigh sampling fun c _ j => smp c (pos c) j }

end Verif
