import Verif.Model.Dyn

/-!
# Random generators as objects

In `Verif/Model/Dyn.lean` random numbers are an arbitrary function of the number of earlier draws. Here the generators are objects with a state: the one a dynamic creates from its
argument `seed`, the one for batches, and the global generator of `np.random`, which other code may use in between.
-/

namespace Verif

section
variable {K V γ : Type} [Zero K] [One K] [Neg K] [Add K] [Sub K] [Mul K] [Inv K] [Div K] [NatCast K] [Pow K ℕ] [LinearOrder K] [Add V] [Sub V] [SMul K V]

/-- What is used of NumPy's generators; `γ` is the type of generator states. Each function returns an array of the requested leading shape and the state afterwards:
`standard_normal` (`pdyn.py:177`), `np.random.uniform(-1, 1)` (`pdyn.py:211`), the numbers of `exponential_sampler` (`noise.py:252-255`), `permuted` (`pdyn.py:735`);
`seeded n` is `default_rng(n)` or `Generator(MT19937(n))` (`pdyn.py:176,734`; different functions of the seed in reality, which does not matter here). -/
structure Rng (γ V : Type) where
  seeded : ℕ → γ
  normal : γ → ℕ → ℕ → (ℕ → ℕ → V) × γ
  uniform : γ → ℕ → ℕ → (ℕ → ℕ → V) × γ
  expo : γ → ℕ → ℕ → (ℕ → ℕ → V) × γ
  permuted : γ → ℕ → ℕ → (ℕ → ℕ → ℕ) × γ

/-- Which sampler the dynamic uses: the default, bound to its own generator (`pdyn.py:176-177`), or `exponential_sampler()`, which uses the global generator (`noise.py:249-256`). -/
inductive Sampler where
  | own | expo
  deriving DecidableEq

/-- Arguments of the constructor that concern randomness: `seed` (`pdyn.py:141`), whether `x` is given or `M`, `N` are (`pdyn.py:193-203`), `batch_args['seed']` (`pdyn.py:714`), `sampler`. -/
structure SeedArgs where
  seed : Option ℕ
  given : Bool
  M : ℕ
  N : ℕ
  batchSeed : ℕ
  sampler : Sampler

/-- The generator state after `c` calls of `batch_rng.permuted` on an array of shape `(M, N)`, `pdyn.py:735,785`. -/
def batchState (R : Rng γ V) (M N : ℕ) (seed : ℕ) : ℕ → γ
  | 0 => R.seeded seed
  | c + 1 => (R.permuted (batchState R M N seed c) M N).2

/-- The permutations a dynamic draws for its batches, `pdyn.py:733-735,784-785`. -/
def batchPerm (R : Rng γ V) (M : ℕ) (seed : ℕ) (N c m j : ℕ) : ℕ := (R.permuted (batchState R M N seed c) M N).1 m j

/-- `self.sampler(size=(r, c, ...))`: array and the new states of own and global generator, `noise.py:27,62,116,170,227`, `pdyn.py:177`. -/
def callSampler (R : Rng γ V) (k : Sampler) (own glob : γ) (r c : ℕ) : (ℕ → ℕ → V) × γ × γ :=
  match k with
  | .own => ((R.normal own r c).1, (R.normal own r c).2, glob)
  | .expo => ((R.expo glob r c).1, own, (R.expo glob r c).2)

/-- `self.noise()`, `pdyn.py:878-889`, with the sample the noise model draws for the current drift (`noise.py:62,116,170,227`); `noiseFn` is the noise model as a function of the sample. -/
def noiseAt (R : Rng γ V) (k : Sampler) (own glob : γ) (noiseFn : St K V → Mat V → Except Err (Mat V)) (s : St K V) : Except Err (Mat V) :=
  match s.drift with
  | none => .error .attribute
  | some d => noiseFn s ⟨d.rows, d.cols, (callSampler R k own glob d.rows d.cols).1⟩

/-- Everything outside the generators, with noise, permutations and sampler taken from them in their current states (`pdyn.py:176-177,734-735`, `noise.py:9-19`). -/
def envAt (R : Rng γ V) (a : SeedArgs) (M : ℕ) (own glob : γ) (env : Env K V) (noiseFn : St K V → Mat V → Except Err (Mat V)) : Env K V :=
  { env with
    noise := noiseAt R a.sampler own glob noiseFn
    perm := batchPerm R M a.batchSeed
    sampler := fun _ i j => (callSampler R a.sampler own glob M a.N).1 i j }

/-- A dynamic together with its own generator, `pdyn.py:126-177`. -/
structure RDyn (K V γ : Type) where
  s : St K V
  own : γ

/-- The generator created in `set_array_backend_funs`, `pdyn.py:176`; without a seed it is initialised by the operating system (`entropy`). -/
def ownGen (R : Rng γ V) (a : SeedArgs) (entropy : γ) : γ :=
  match a.seed with
  | some n => R.seeded n
  | none => entropy

/-- `init_x`, `pdyn.py:193-203,210-211`: the given array, or uniform numbers from the *global* generator. Returns the ensemble and the global generator. -/
def startX (R : Rng γ V) (a : SeedArgs) (x0 : Mat V) (glob : γ) : Mat V × γ :=
  if a.given then (x0, glob) else (⟨a.M, a.N, (R.uniform glob a.M a.N).1⟩, (R.uniform glob a.M a.N).2)

/-- The constructor, `pdyn.py:126-168,629-658`: `check_f_dims` (`pdyn.py:230-234`) calls the sampler once. Returns the dynamic and the global generator. -/
def construct (R : Rng γ V) (a : SeedArgs) (env : Env K V) (noiseFn : St K V → Mat V → Except Err (Mat V)) (args : Args K V) (glob entropy : γ) : Except Err (RDyn K V γ × γ) := do
  let x := startX R a args.x0 glob
  let own := ownGen R a entropy
  let s ← init (envAt R { a with N := x.1.cols } x.1.rows own x.2 env noiseFn) { args with x0 := x.1 }
  let q := callSampler R a.sampler own x.2 s.M s.N
  pure (if args.checkF then (⟨s, q.2.1⟩, q.2.2) else (⟨s, own⟩, x.2))

/-- The generators after a step, which calls the sampler once with the shape of the drift (`cbo.py:44-46`). -/
def afterDraw (R : Rng γ V) (a : SeedArgs) (own glob : γ) (s : St K V) : γ × γ :=
  match s.drift with
  | none => (own, glob)
  | some d => (callSampler R a.sampler own glob d.rows d.cols).2

/-- One operation of the dynamic (`pdyn.py:294-311,432-457,931`); only steps draw random numbers. `inner` is the inner step, e.g. `cboInner`. -/
def rExec (R : Rng γ V) (a : SeedArgs) (env : Env K V) (noiseFn : St K V → Mat V → Except Err (Mat V)) (inner : Env K V → St K V → Except Err (St K V)) (o : Op)
    (D : RDyn K V γ × γ) : Except Err (RDyn K V γ × γ) := do
  let e := envAt R a D.1.s.M D.1.own D.2 env noiseFn
  let s ← exec e (inner e) o D.1.s
  let q := if o = .step then afterDraw R a D.1.own D.2 s else (D.1.own, D.2)
  pure (⟨s, q.1⟩, q.2)

/-- What happens in a program that uses a dynamic: an operation on it, or other code (possibly other dynamics) that changes the state of the global generator;
the methods are those of `exec`, `pdyn.py:294-410`. -/
inductive Ev (γ : Type) where
  | op (o : Op)
  | world (h : γ → γ)

/-- The operations on the dynamic in a program; the methods are those of `exec`, `pdyn.py:294-410`. -/
def Ev.ops : List (Ev γ) → List Op
  | [] => []
  | .op o :: l => o :: Ev.ops l
  | .world _ :: l => Ev.ops l

/-- A program: operations on the dynamic (`pdyn.py:355-364` or calls by the user) mixed with other code. -/
def rRun (R : Rng γ V) (a : SeedArgs) (env : Env K V) (noiseFn : St K V → Mat V → Except Err (Mat V)) (inner : Env K V → St K V → Except Err (St K V)) :
    List (Ev γ) → RDyn K V γ × γ → Except Err (RDyn K V γ × γ)
  | [], D => .ok D
  | .op o :: l, D => do
    let D ← rExec R a env noiseFn inner o D
    rRun R a env noiseFn inner l D
  | .world h :: l, D => rRun R a env noiseFn inner l (D.1, h D.2)

end
end Verif
