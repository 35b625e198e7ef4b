import Verif.Proofs.Torch
import Verif.Props.Rng

/-! Property C67: dynamics made by `to_torch_dynamic` behave like their NumPy versions. -/

set_option linter.unusedSectionVars false

namespace Verif

section
variable {K : Type} [Field K] [LinearOrder K] [IsStrictOrderedRing K] {ι : Type}

/-- **C67, post-processing.** The default post-processing of tensors is the same function as that of arrays, on all values including NaN and infinities. The largest finite numbers `big` and `big'` of the two number
formats may differ (`float32`, `float64`), they only have to be at least `max_thresh`. -/
theorem C67_post (big big' t : K) (ht : 0 ≤ t) (hb : t ≤ big) (hb' : t ≤ big') :
    (torchPost big t : St K (ι → Flt K) → _) = postDefault false big' t := by
  funext s
  simp only [torchPost, postDefault]
  congr 2
  funext v i
  exact torchPostCoord_eq ht hb hb' (v i)

/-- **C67, runs.** With the same noise, batches and objective, a PyTorch dynamic and the NumPy dynamic go through the same states (or raise the same exception) in every sequence of operations and in `optimize`,
whatever the inner step is. Missing: `RegCombinationCBO`, see `C67_regcombination_false`, and equality of the noise, see `C67_seed_false`. -/
theorem C67_runs_partial (big big' t : K) (ht : 0 ≤ t) (hb : t ≤ big) (hb' : t ≤ big') (env : Env K (ι → Flt K))
    (inner : Env K (ι → Flt K) → St K (ι → Flt K) → Except Err (St K (ι → Flt K))) (s : St K (ι → Flt K)) :
    let e := { env with post := defaultPost true false big t }
    let e' := { env with post := defaultPost false false big' t }
    (∀ ops, execAll e (inner e) ops s = execAll e' (inner e') ops s) ∧ ∀ n, optimize e (inner e) n s = optimize e' (inner e') n s := by
  have h : (defaultPost true false big t : St K (ι → Flt K) → _) = defaultPost false false big' t := C67_post big big' t ht hb hb'
  simp only [h]
  exact ⟨fun _ => trivial, fun _ => trivial⟩

/-- **C67, all classes.** After every step of a PyTorch dynamic with the default post-processing, `RegCombinationCBO` included, all coordinates are finite and in `[-max_thresh, max_thresh]`. -/
theorem C67_step (reg : Bool) (big t : K) (ht : 0 ≤ t) (hb : t ≤ big) (env : Env K (ι → Flt K)) (inner : St K (ι → Flt K) → Except Err (St K (ι → Flt K)))
    (hpost : env.post = defaultPost true reg big t) (s s' : St K (ι → Flt K)) (h : step env inner s = .ok s') (m n : ℕ) (i : ι) :
    ∃ a : K, s'.x.get m n i = .fin a ∧ -t ≤ a ∧ a ≤ t := by
  refine C38_step env inner big t ht ?_ s s' h m n i
  rw [hpost, ← C67_post big big t ht hb hb]
  rfl

end

namespace Example

/-- A dynamic on `Flt ℚ` with a NaN and an infinite coordinate in the initial ensemble. -/
def nanStep (post : St ℚ (Unit → Flt ℚ) → Except Err (Mat (Unit → Flt ℚ))) : Except Err (St ℚ (Unit → Flt ℚ)) := do
  let env : Env ℚ (Unit → Flt ℚ) :=
    { f := fun v => Flt.mul (v ()) (v ()), cons := .mean fun l => match l with | [] => fun _ => .fin 0 | p :: _ => p.2.2
      noise := fun s => match s.drift with | some d => .ok d | none => .error .attribute
      corr := .none, post := post, normDiff := fun _ => .fin 0, sqrtK := id
      perm := fun _ _ _ j => j, sampler := fun _ _ _ _ => .fin 1, custom := fun _ _ _ => false
      sched := fun s => .ok ⟨s.alpha, s.lamda, s.sigma, s.dt⟩ }
  let s ← init env
    { x0 := ⟨1, 2, fun _ j _ => if j = 0 then .nan else .pinf⟩, alpha := 1, lamda := 1, sigma := 1, dt := 1, terms := []
      tracks := [], saveInt := 1, batchSize := none, batchPartial := true, batchConcat := false, checkF := false }
  step env (cboInner env) s

end Example

/-- C67, disagreement: with the post-processing of `RegCombinationCBO` the two versions differ, after a step a NaN coordinate is `max_thresh` with PyTorch and still NaN with NumPy. -/
theorem C67_regcombination_false :
    (match Example.nanStep (defaultPost true true 1000 100) with | .ok s => decide (s.x.get 0 0 () = .fin 100) | .error _ => false) = true ∧
    (match Example.nanStep (defaultPost false true 1000 100) with | .ok s => decide (s.x.get 0 0 () = .nan) | .error _ => false) = true := by decide +kernel

/-- **C67, scheduler, range.** After an update of the PyTorch `effective_sample_size` every `alpha` lies in `[minimum, maximum]`; the other parameters are unchanged. -/
theorem C67_effective_range (M N : ℕ) (E : ℕ → ℕ → ℝ) (eta minimum maximum : ℝ) (h : minimum ≤ maximum) (it : ℕ) (p : Params ℝ) (m : ℕ) :
    minimum ≤ (torchEffective M N E eta minimum maximum it p).alpha m ∧ (torchEffective M N E eta minimum maximum it p).alpha m ≤ maximum ∧
    (torchEffective M N E eta minimum maximum it p).lamda = p.lamda ∧ (torchEffective M N E eta minimum maximum it p).sigma = p.sigma ∧
    (torchEffective M N E eta minimum maximum it p).dt = p.dt := by
  obtain ⟨h1, h2⟩ := C27_bracket (fun a m => effGap N (E m) eta (a m)) M (fun _ => minimum) (fun _ => maximum) it (1 / 100) m h
  exact ⟨h1, h2, rfl, rfl, rfl⟩

/-- **C67, scheduler.** With the default `minimum` the PyTorch `effective_sample_size` computes the same parameters as the NumPy version; so C29 applies to it. Missing: `maximum` below `minimum`, see
`C67_effective_false`. -/
theorem C67_effective_partial (M N : ℕ) (E : ℕ → ℕ → ℝ) (eta maximum : ℝ) (h : 1 / 100000 ≤ maximum) (it : ℕ) (p : Params ℝ) :
    torchEffective M N E eta (1 / 100000) maximum it p = effectiveUpdate M N E eta maximum it p := by
  have e : (effectiveUpdate M N E eta maximum it p).alpha = (torchEffective M N E eta (1 / 100000) maximum it p).alpha := funext fun m => effective_alpha M N E eta maximum h it p m
  obtain ⟨a, b, c, d⟩ := p
  simp only [torchEffective, effectiveUpdate, ensureMax, Params.modify, Params.mk.injEq] at e ⊢
  exact ⟨e.symm, trivial, trivial, trivial⟩

/-- **C67, disagreement:** if `maximum` is below `minimum`, every `alpha` of the PyTorch version exceeds `maximum`; in the NumPy version none does. -/
theorem C67_effective_false (M N : ℕ) (E : ℕ → ℕ → ℝ) (eta minimum maximum : ℝ) (h : maximum < minimum) (it : ℕ) (p : Params ℝ) (m : ℕ) :
    maximum < (torchEffective M N E eta minimum maximum it p).alpha m ∧ (effectiveUpdate M N E eta maximum it p).alpha m ≤ maximum :=
  ⟨bisection_above _ M (fun _ => minimum) (fun _ => maximum) it (1 / 100) m h, min_le_left _ _⟩

section
variable {K V γ : Type} [Zero K] [One K] [Neg K] [Add K] [Sub K] [Mul K] [Inv K] [Div K] [NatCast K] [Pow K ℕ] [LinearOrder K] [Add V] [Sub V] [SMul K V]

/-- **C67, seed.** The argument `seed` has no influence at all on a PyTorch dynamic: two programs that differ in the seed (or do not give one, so that NumPy would use entropy from the operating system) end in the same state, or raise
the same exception, whichever of the two samplers is used. The state of the global generator of PyTorch decides, see `C67_seed_false`. -/
theorem C67_seed_ignored (R : Rng γ V) (k : TorchSampler) (a : SeedArgs) (seed' : Option ℕ) (env : Env K V) (nf : St K V → Mat V → Except Err (Mat V))
    (inner : Env K V → St K V → Except Err (St K V)) (args : Args K V) (g e e' : γ) (l : List (Ev γ)) :
    torchProgram R k a env nf inner args g e l = torchProgram R k { a with seed := seed' } env nf inner args g e' l := by
  have hmap : ∀ (x : Except Err (RDyn K V γ × γ)), (do let E ← x; pure (E.1.s, E.2)) = x.map dropOwn := by
    intro x; cases x <;> rfl
  unfold torchProgram
  simp only [hmap]
  have hsame : ∀ (x : RDyn K V γ × γ), rRun (torchRng R k) (torchSeedArgs { a with seed := seed' }) env nf inner l x = rRun (torchRng R k) (torchSeedArgs a) env nf inner l x := by
    intro x
    have hE : ∀ o D, rExec (torchRng R k) (torchSeedArgs { a with seed := seed' }) env nf inner o D = rExec (torchRng R k) (torchSeedArgs a) env nf inner o D := fun _ _ => rfl
    induction l generalizing x with
    | nil => rfl
    | cons v l ih =>
      cases v with
      | op o => simp only [rRun, hE, ih]
      | world f => simp only [rRun, ih]
  simp only [hsame]
  unfold construct
  simp only
  have hx : startX (torchRng R k) (torchSeedArgs { a with seed := seed' }) args.x0 g = startX (torchRng R k) (torchSeedArgs a) args.x0 g := rfl
  rw [hx]
  generalize startX (torchRng R k) (torchSeedArgs a) args.x0 g = x
  have henv : ∀ o, envAt (K := K) (torchRng R k) { torchSeedArgs { a with seed := seed' } with N := x.1.cols } x.1.rows o x.2 env nf =
      envAt (torchRng R k) { torchSeedArgs a with N := x.1.cols } x.1.rows o x.2 env nf := fun _ => rfl
  rw [henv, envAt_glob (a := { torchSeedArgs a with N := x.1.cols }) rfl x.1.rows (ownGen (torchRng R k) (torchSeedArgs { a with seed := seed' }) e')
    (ownGen (torchRng R k) (torchSeedArgs a) e) x.2 env nf]
  cases init (envAt (torchRng R k) { torchSeedArgs a with N := x.1.cols } x.1.rows (ownGen (torchRng R k) (torchSeedArgs a) e) x.2 env nf) { args with x0 := x.1 } with
  | error e => rfl
  | ok s =>
    simp only [bind, Except.bind, pure, Except.pure]
    refine rRun_glob rfl l _ _ ?_
    split_ifs <;> rfl

end

namespace Example

/-- Particles of run 0 of a PyTorch dynamic. -/
def torchRun (k : TorchSampler) (seed : Option ℕ) (g e : ℕ) (l : List (Ev ℕ)) : Option (List ℚ) :=
  match torchProgram rng k (seedArgs true .own seed) env (fun _ m => .ok m) (fun e => cboInner e) (args [] (some 2)) g e l with
  | .ok E => some (E.1.x.row 0)
  | .error _ => none

end Example

/-- C67, disagreement with C59 (a fixed seed makes the run reproducible), even for a given initial ensemble and the default sampler: with the same seed, different states of the global
generator, or other code that uses it, give different particles; the NumPy dynamic gives the same (`C59_seed_partial`). -/
theorem C67_seed_false : Example.torchRun .normal (some 3) 0 0 [.op .step] ≠ Example.torchRun .normal (some 3) 1 0 [.op .step] ∧
    Example.torchRun .normal (some 3) 0 0 [.op .step, .op .step] ≠ Example.torchRun .normal (some 3) 0 0 [.op .step, .world (· + 1), .op .step] ∧
    Example.seedRun (Example.seedArgs true .own (some 3)) 0 0 [.op .step] = Example.seedRun (Example.seedArgs true .own (some 3)) 1 0 [.op .step] ∧
    (Example.torchRun .normal (some 3) 0 0 [.op .step]).isSome = true := by decide +kernel

/-- C67: values of every kind; `float32`-like and `float64`-like largest numbers. -/
example : (List.map (torchPostCoord (1000 : ℚ) 100) [.nan, .pinf, .ninf, .fin 7, .fin 500, .fin (-101)]) = [.fin 100, .fin 100, .fin (-100), .fin 7, .fin 100, .fin (-100)] ∧
    (List.map (torchPostCoord (5000 : ℚ) 100) [.nan, .pinf, .ninf, .fin 7, .fin 500, .fin (-101)]) = [.fin 100, .fin 100, .fin (-100), .fin 7, .fin 100, .fin (-100)] := by decide +kernel

/-- C67: two different seeds, a sampler of either kind, other code in between. -/
example : Example.torchRun .normal (some 3) 5 0 [.op .step, .world (· + 1), .op .step] = Example.torchRun .normal (some 4) 5 2 [.op .step, .world (· + 1), .op .step] ∧
    Example.torchRun .expo (some 3) 5 0 [.op .step, .op .step] = Example.torchRun .expo none 5 2 [.op .step, .op .step] ∧
    Example.torchRun .expo (some 3) 5 0 [.op .step, .op .step] ≠ Example.torchRun .normal none 5 2 [.op .step, .op .step] := by decide +kernel

end Verif
