import Verif.Proofs.Rng
import Verif.Props.Indep

/-! Property C59: a fixed seed makes the run reproducible. -/

set_option linter.unusedSectionVars false

namespace Verif

variable {K V γ : Type} [Zero K] [One K] [Neg K] [Add K] [Sub K] [Mul K] [Inv K] [Div K] [NatCast K] [Pow K ℕ] [LinearOrder K] [Add V] [Sub V] [SMul K V]

/-- **C59, partial.** Two dynamics constructed with the same arguments, a seed, a given initial ensemble and the default sampler, in two programs that perform the same operations on them, behave
in the same way: the same exception, or the same complete state (particles included) after every sequence of operations. The states of the global generator may differ, and other code may
change it at any time. Missing: initial ensembles drawn by the dynamic, `exponential_sampler` and the independent noise of `DriftConstrainedCBO` use the global generator, for
them the claim is false, see `C59_x_false`, `C59_sampler_false`, `C59_indep_false`. -/
theorem C59_seed_partial (R : Rng γ V) (a : SeedArgs) (n : ℕ) (hseed : a.seed = some n) (hx : a.given = true) (hs : a.sampler = .own) (env : Env K V)
    (nf : St K V → Mat V → Except Err (Mat V)) (inner : Env K V → St K V → Except Err (St K V)) (args : Args K V)
    (l l' : List (Ev γ)) (hl : Ev.ops l = Ev.ops l') (g g' e e' : γ) :
    (do let D ← construct R a env nf args g e; (rRun R a env nf inner l D).map Prod.fst) =
    (do let D ← construct R a env nf args g' e'; (rRun R a env nf inner l' D).map Prod.fst) := by
  obtain ⟨seed, given, M, N, bs, sm⟩ := a
  simp only at hseed hx hs
  subst hseed hx hs
  have hc : construct R ⟨some n, true, M, N, bs, .own⟩ env nf args g e = (construct R ⟨some n, true, M, N, bs, .own⟩ env nf args g' e').map fun D => (D.1, g) := by
    unfold construct startX ownGen callSampler
    simp only [if_true]
    rw [envAt_own (a := ⟨some n, true, M, args.x0.cols, bs, .own⟩) rfl args.x0.rows (R.seeded n) g g']
    cases init (envAt R ⟨some n, true, M, args.x0.cols, bs, .own⟩ args.x0.rows (R.seeded n) g' env nf) args with
    | error e => rfl
    | ok s =>
      simp only [bind, Except.bind, pure, Except.pure, Except.map]
      congr 1
      by_cases hb : args.checkF = true <;> simp [hb]
  rw [hc]
  cases construct R ⟨some n, true, M, N, bs, .own⟩ env nf args g' e' with
  | error e => rfl
  | ok D =>
    simp only [Except.map, bind, Except.bind]
    have h1 := rRun_world (R := R) (env := env) (nf := nf) (inner := inner) (a := ⟨some n, true, M, N, bs, .own⟩) rfl l D.1 g g
    have h2 := rRun_world (R := R) (env := env) (nf := nf) (inner := inner) (a := ⟨some n, true, M, N, bs, .own⟩) rfl l' D.1 D.2 g
    rw [hl] at h1
    exact h1.trans h2.symm

/-- **C59 (adequacy of the model).** A program with generator objects, whatever its generators, sampler and other code are, is an execution of the machine of `Verif/Model/Dyn.lean` whose random numbers are some function of the
number of earlier draws. Hence all theorems about that machine, which hold for every such function, apply to it. -/
theorem C59_adequate (R : Rng γ V) (a : SeedArgs) (env : Env K V) (nf : St K V → Mat V → Except Err (Mat V)) (l : List (Ev γ)) (D E : RDyn K V γ × γ)
    (h : rRun R a env nf (fun e => cboInner e) l D = .ok E) :
    ∃ smp : ℕ → ℕ → ℕ → V, let e := fixedEnv env nf (batchPerm R D.1.s.M a.batchSeed) smp
      execAll e (cboInner e) (Ev.ops l) D.1.s = .ok E.1.s := by
  obtain ⟨smp, hs⟩ := rRun_fixed cboInner_once l D E h
  exact ⟨smp, hs smp fun _ _ => rfl⟩

/-- C59 (adequacy) for `DriftConstrainedCBO` without independent noise. -/
theorem C59_adequate_constrained (R : Rng γ V) (a : SeedArgs) (env : Env K V) (nf : St K V → Mat V → Except Err (Mat V)) (G : ConOps K V) (eps : K) (l : List (Ev γ))
    (D E : RDyn K V γ × γ) (h : rRun R a env nf (fun e => consThen e (dcMove e G eps)) l D = .ok E) :
    ∃ smp : ℕ → ℕ → ℕ → V, let e := fixedEnv env nf (batchPerm R D.1.s.M a.batchSeed) smp
      execAll e (consThen e (dcMove e G eps)) (Ev.ops l) D.1.s = .ok E.1.s := by
  obtain ⟨smp, hs⟩ := rRun_fixed (dcInner_once G eps) l D E h
  exact ⟨smp, hs smp fun _ _ => rfl⟩

/-- **C59 (the global generator).** A dynamic with the default sampler uses the global generator only to draw a missing initial ensemble: at the end of every program its state is the one it
had before, advanced by one call of `uniform` of the requested shape if no ensemble was given, and by what the other code did, in that order; no operation of the dynamic touches it. -/
theorem C59_global (R : Rng γ V) (a : SeedArgs) (hs : a.sampler = .own) (env : Env K V) (nf : St K V → Mat V → Except Err (Mat V))
    (inner : Env K V → St K V → Except Err (St K V)) (args : Args K V) (l : List (Ev γ)) (g e : γ) (D E : RDyn K V γ × γ)
    (h0 : construct R a env nf args g e = .ok D) (h : rRun R a env nf inner l D = .ok E) :
    E.2 = l.foldl (fun u ev => match ev with | .world w => w u | .op _ => u) (if a.given then g else (R.uniform g a.M a.N).2) := by
  have hD : D.2 = if a.given then g else (R.uniform g a.M a.N).2 := by
    simp only [construct, bind_ok, pure_ok] at h0
    obtain ⟨s, -, rfl⟩ := h0
    have hx : (startX R a args.x0 g).2 = if a.given then g else (R.uniform g a.M a.N).2 := by
      unfold startX
      split_ifs <;> rfl
    rw [← hx]
    unfold callSampler
    rw [hs]
    by_cases hb : args.checkF = true <;> simp [hb]
  rw [← hD]
  clear h0 hD
  induction l generalizing D with
  | nil =>
    injection h with h
    rw [← h]
    rfl
  | cons ev l ih =>
    cases ev with
    | op o =>
      simp only [rRun, bind_ok] at h
      obtain ⟨D', h1, h2⟩ := h
      rw [ih D' h2]
      have h3 := rExec_own hs (d := D.1) (g := D.2) h1 D.2
      rw [h1] at h3
      injection h3 with h3
      rw [h3]
      rfl
    | world w => exact ih (D.1, w D.2) h

/-- **C59 (permutations of batches).** The `c`-th array of permutations is what a generator seeded with `batch_args['seed']` returns after `c` earlier calls on arrays of the same shape; with
generators that return different permutations for two seeds, the two seeds give different batches. -/
theorem C59_batch_seed (R : Rng γ V) (M seed N c : ℕ) :
    batchPerm R M seed N c = (R.permuted ((fun u => (R.permuted u M N).2)^[c] (R.seeded seed)) M N).1 ∧
    ∀ seed', (R.permuted (R.seeded seed) M N).1 ≠ (R.permuted (R.seeded seed') M N).1 → batchPerm R M seed N 0 ≠ batchPerm R M seed' N 0 := by
  refine ⟨?_, fun _ h => h⟩
  have : batchState R M N seed c = (fun u => (R.permuted u M N).2)^[c] (R.seeded seed) := by
    induction c with
    | zero => rfl
    | succ c ih => rw [Function.iterate_succ_apply', ← ih]; rfl
  unfold batchPerm
  rw [this]

/-- **C59 (how many numbers are used).** For generators of which `cnt` numbers have been taken so far: `CBO` without batches and corrections takes `M*N` numbers (vectors of the dimension of the
particles) from its own generator per step, and `M*N` in the constructor if it checks the objective, for as long as no termination check stops a run. In particular the check shifts
all later random numbers. -/
theorem C59_draws (R : Rng γ V) (cnt : γ → ℕ) (hcnt : ∀ g r c, cnt (R.normal g r c).2 = cnt g + r * c) (hperm : ∀ g M N m j, j < N → (R.permuted g M N).1 m j < N)
    (a : SeedArgs) (hs : a.sampler = .own) (env : Env K V) (hcorr : env.corr = .none) (r : List (K × Flt K × V) → V) (hr : env.cons = .mean r) (hpost : PostOK env)
    (nf : St K V → Mat V → Except Err (Mat V)) (hnf : ∀ s m n, nf s m = .ok n → n.rows = m.rows ∧ n.cols = m.cols) (args : Args K V) (hb : args.batchSize = none)
    (l : List (Ev γ)) (hl : Op.select ∉ Ev.ops l) (g e : γ) (D E : RDyn K V γ × γ)
    (h0 : construct R a env nf args g e = .ok D) (h : rRun R a env nf (fun e => cboInner e) l D = .ok E) :
    cnt E.1.own = cnt (ownGen R a e) + ((if args.checkF then 1 else 0) + (Ev.ops l).count .step) *
      (if a.given then args.x0.rows * args.x0.cols else a.M * a.N) := by
  have hD : cnt D.1.own = cnt (ownGen R a e) + (if args.checkF then 1 else 0) * (D.1.s.M * D.1.s.N) ∧
      D.1.s.M * D.1.s.N = (if a.given then args.x0.rows * args.x0.cols else a.M * a.N) ∧ WF D.1.s ∧ D.1.s.active.length = D.1.s.M ∧ D.1.s.batchSize = D.1.s.N := by
    simp only [construct, bind_ok, pure_ok] at h0
    obtain ⟨s, h1, rfl⟩ := h0
    have k := init_bsize h1
    have w := init_wf (fun N c m j hj => hperm _ _ _ _ _ hj) h1
    have q : s.M = (startX R a args.x0 g).1.rows ∧ s.N = (startX R a args.x0 g).1.cols ∧ s.active = List.range (startX R a args.x0 g).1.rows := by
      unfold init at h1
      split_ifs at h1 <;> (injection h1 with h1; subst h1; exact ⟨rfl, rfl, rfl⟩)
    have x : (startX R a args.x0 g).1.rows * (startX R a args.x0 g).1.cols = if a.given then args.x0.rows * args.x0.cols else a.M * a.N := by
      unfold startX
      split_ifs <;> rfl
    have b : s.batchSize = s.N := by
      rw [k.1, q.2.1]
      simp only [hb]
      rfl
    have c : callSampler R a.sampler (ownGen R a e) (startX R a args.x0 g).2 s.M s.N =
        ((R.normal (ownGen R a e) s.M s.N).1, (R.normal (ownGen R a e) s.M s.N).2, (startX R a args.x0 g).2) := by
      rw [hs]; rfl
    by_cases hc : args.checkF = true
    · simp only [hc, if_true, c]
      exact ⟨by rw [hcnt, one_mul], by rw [← x, q.1, q.2.1], w, by rw [q.2.2, List.length_range, q.1], b⟩
    · rw [if_neg hc, if_neg hc]
      exact ⟨by simp, by rw [← x, ← q.1, ← q.2.1], w, by simp [q.2.2, q.1], b⟩
  obtain ⟨d1, d2, d3, d4, d5⟩ := hD
  rw [← d2]
  have key : ∀ (l : List (Ev γ)) (D E : RDyn K V γ × γ), Op.select ∉ Ev.ops l → WF D.1.s → D.1.s.active.length = D.1.s.M → D.1.s.batchSize = D.1.s.N →
      rRun R a env nf (fun e => cboInner e) l D = .ok E → cnt E.1.own = cnt D.1.own + (Ev.ops l).count .step * (D.1.s.M * D.1.s.N) := by
    intro l
    induction l with
    | nil =>
      intro D E _ _ _ _ h
      injection h with h
      subst h
      simp [Ev.ops]
    | cons ev l ih =>
      intro D E hl w ha hbs h
      cases ev with
      | world q => exact ih (D.1, q D.2) E hl w ha hbs h
      | op o =>
        simp only [rRun, bind_ok] at h
        obtain ⟨D', h1, h2⟩ := h
        simp only [Ev.ops, List.mem_cons, not_or] at hl
        simp only [rExec, bind_ok, pure_ok] at h1
        obtain ⟨s, h3, rfl⟩ := h1
        have hpe : PermOK (envAt R a D.1.s.M D.1.own D.2 env nf) := fun N c m j hj => hperm _ _ _ _ _ hj
        have hpo : PostOK (envAt R a D.1.s.M D.1.own D.2 env nf) := hpost
        have w' := exec_wf (cboMove_ok _) hpo hpe w (o := o) h3
        have fr : s.M = D.1.s.M ∧ s.N = D.1.s.N ∧ s.active = D.1.s.active ∧ s.batchSize = D.1.s.batchSize := by
          cases o with
          | step =>
            have f := step_frame (consThen_frame (cboMove_ok _)) h3
            exact ⟨f.M, f.N, f.active, f.batchSize⟩
          | select => exact absurd rfl hl.1
          | sched => have f := sched_frame h3; rw [f]; exact ⟨rfl, rfl, rfl, rfl⟩
          | reset => injection h3 with h3; subst h3; exact ⟨rfl, rfl, rfl, rfl⟩
        have hi := ih _ E hl.2 w' (by rw [fr.1, fr.2.2.1]; exact ha) (by rw [fr.2.1, fr.2.2.2]; exact hbs) h2
        rw [hi]
        simp only [fr.1, fr.2.1, Ev.ops, List.count_cons]
        by_cases ho : o = .step
        · subst ho
          simp only [if_true, beq_self_eq_true]
          obtain ⟨c, d, n, xm, F⟩ := cboStep_facts (env := envAt R a D.1.s.M D.1.own D.2 env nf) hcorr (by
            intro q d n hq hn
            simp only [envAt, noiseAt, hq] at hn
            obtain ⟨e1, e2⟩ := hnf _ _ _ hn
            exact ⟨.inl e1, .inl e2⟩) hr hpe w h3
          have hp : s.pIdx.cols = D.1.s.N := by
            have hix := preStep_idx _ hpe w
            have e1 := (step_frame (consThen_frame (cboMove_ok _)) h3).pIdx
            rw [e1]
            rcases hix.pCols with h | h
            · exact h
            · rw [h, hix.cCols, hbs]
          unfold afterDraw
          rw [F.drift, hs]
          simp only [callSampler]
          rw [hcnt, F.dr, F.dc, hp, ha]
          ring
        · simp [ho]
  rw [key l D E hl d3 d4 d5 h, d1]
  ring

namespace Example

/-- A toy generator: the state is a number, every call advances it. -/
def rng : Rng ℕ ℚ where
  seeded n := 100 * n
  normal g r c := (fun i j => (((g + c * i + j) * 7 % 11 : ℕ) : ℚ) / 10 - 1 / 2, g + r * c)
  uniform g r c := (fun i j => (((g + c * i + j) * 3 % 7 : ℕ) : ℚ) / 4 - 1, g + r * c)
  expo g r c := (fun i j => (((g + c * i + j) % 5 : ℕ) : ℚ) - 2, g + 2 * r * c)
  permuted g _ N := (fun m j => (j + g + m) % N, g + 1)

/-- Seed 3, batch seed 42. -/
def seedArgs (given : Bool) (sampler : Sampler) (seed : Option ℕ) : SeedArgs := { seed := seed, given := given, M := 2, N := 3, batchSeed := 42, sampler := sampler }

/-- Particles of run 0 after two steps, with other code in between; `g` is the state of the global generator. -/
def seedRun (a : SeedArgs) (g e : ℕ) (l : List (Ev ℕ)) : Option (List ℚ) :=
  match (do let D ← construct rng a env (fun _ m => .ok m) (args [] (some 2)) g e; rRun rng a env (fun _ m => .ok m) (fun e => cboInner e) l D) with
  | .ok E => some (E.1.s.x.row 0)
  | .error _ => none

end Example

/-- `C59_draws` covers the toy generator, with other code in between: two runs of three particles, check, two steps. -/
example : (∀ g r c, (Example.rng.normal g r c).2 = g + r * c) ∧ (∀ g M N m j, j < N → (Example.rng.permuted g M N).1 m j < N) ∧ Example.env.corr = .none ∧ PostOK Example.env ∧
    (match (do let D ← construct Example.rng (Example.seedArgs true .own (some 3)) Example.env (fun _ m => .ok m) (Example.args [] none) 5 0
               rRun Example.rng (Example.seedArgs true .own (some 3)) Example.env (fun _ m => .ok m) (fun e => cboInner e) [.op .step, .world (· + 1), .op .sched, .op .step] D) with
    | .ok E => decide (E.1.own = 300 + (1 + 2) * (2 * 3))
    | .error _ => false) = true :=
  ⟨fun _ _ _ => rfl, fun _ _ _ _ _ h => Nat.mod_lt _ (by omega), rfl, (by
    intro s x' h
    simp only [Example.env] at h
    injection h with h
    subst h
    exact ⟨rfl, rfl⟩), by decide +kernel⟩

/-- C59, disagreement: without a given ensemble the seed does not determine the particles. -/
theorem C59_x_false : Example.seedRun (Example.seedArgs false .own (some 3)) 0 0 [.op .step] ≠ Example.seedRun (Example.seedArgs false .own (some 3)) 1 0 [.op .step] ∧
    (Example.seedRun (Example.seedArgs false .own (some 3)) 0 0 [.op .step]).isSome = true := by decide +kernel

/-- C59, disagreement: with `exponential_sampler` the seed has no influence on the noise, the global generator has. -/
theorem C59_sampler_false : Example.seedRun (Example.seedArgs true .expo (some 3)) 0 0 [.op .step] ≠ Example.seedRun (Example.seedArgs true .expo (some 3)) 1 0 [.op .step] ∧
    Example.seedRun (Example.seedArgs true .expo (some 3)) 0 0 [.op .step, .op .step] = Example.seedRun (Example.seedArgs true .expo (some 4)) 0 0 [.op .step, .op .step] ∧
    Example.seedRun (Example.seedArgs true .expo (some 3)) 0 0 [.op .step, .op .step] ≠
      Example.seedRun (Example.seedArgs true .expo (some 3)) 0 0 [.op .step, .world (· + 1), .op .step] := by decide +kernel

/-- Run 0 of `DriftConstrainedCBO` after two steps; the independent noise comes from the global generator (`driftconstrainedcbo.py:60`), whose state at the start of each loop is `g`. -/
def Example.indepSeedRun (g : ℕ) : Option (List ℚ) :=
  match (do
    let s ← init Example.env { Example.args [] none with x0 := ⟨2, 3, fun i j => (j : ℚ) / 4 + 5 * i⟩ }
    execAll Example.env (indepInner Example.env Example.lineOps (1 / 4) Example.indepArgs (fun _ k i j => 3 * (Example.rng.normal (g + 3 * k) 1 3).1 i j) 9) [.step, .step] s) with
  | .ok s => some (s.x.row 0)
  | .error _ => none

/-- C59, disagreement: same arguments, same numbers from the dynamic's own generator, but different states of the global generator give different particles. -/
theorem C59_indep_false : Example.indepSeedRun 0 ≠ Example.indepSeedRun 1 ∧ (Example.indepSeedRun 0).isSome = true ∧ (Example.indepSeedRun 1).isSome = true := by decide +kernel

/-- C59: a dynamic that draws its own ensemble of six numbers, with other code in between; the hypotheses of `C59_global` are met and the global generator ends at `(0 + 6 + 4) * 2`. -/
example : (match (do
      let D ← construct Example.rng (Example.seedArgs false .own (some 3)) Example.env (fun _ m => .ok m) (Example.args [] (some 2)) 0 0
      rRun Example.rng (Example.seedArgs false .own (some 3)) Example.env (fun _ m => .ok m) (fun e => cboInner e) [.world (· + 4), .op .step, .world (· * 2), .op .step] D) with
    | .ok E => some E.2
    | .error _ => none) = some 20 := by decide +kernel

/-- C59: the toy generator returns different permutations for the seeds 0 and 1 of an array of shape `(2, 3)`, and the fourth array is that of state `42·100 + 3`. -/
example : (Example.rng.permuted (Example.rng.seeded 0) 2 3).1 0 0 ≠ (Example.rng.permuted (Example.rng.seeded 1) 2 3).1 0 0 ∧
    batchPerm Example.rng 2 42 3 3 0 0 = 4203 % 3 := by decide +kernel

/-- C59: a seeded run with other code in between; a different seed gives different particles. -/
example : Example.seedRun (Example.seedArgs true .own (some 3)) 0 0 [.op .step, .op .step] =
      Example.seedRun (Example.seedArgs true .own (some 3)) 5 7 [.world (· + 4), .op .step, .world (· * 2), .op .step] ∧
    Example.seedRun (Example.seedArgs true .own (some 3)) 0 0 [.op .step, .op .step] ≠ Example.seedRun (Example.seedArgs true .own (some 4)) 0 0 [.op .step, .op .step] ∧
    Example.seedRun (Example.seedArgs true .own none) 0 0 [.op .step] ≠ Example.seedRun (Example.seedArgs true .own none) 0 1 [.op .step] := by decide +kernel

end Verif
