import Verif.Props.Runs
import Verif.Props.MirrorDyn
import Verif.Props.Adam

/-! C71: the runs of `AdamCBO` and `MirrorCBO` are independent of each other, and stopped runs of `MirrorCBO` are frozen. -/

set_option linter.unusedSectionVars false

namespace Verif

variable {K V : Type} [Zero K] [One K] [Neg K] [Add K] [Sub K] [Mul K] [Inv K] [Div K] [NatCast K] [Pow K ℕ] [LinearOrder K] [Add V] [Sub V] [SMul K V]

/-- **C71, AdamCBO (partial).** One consensus point per run, row-wise noise, post processing that acts particle by particle and is
idempotent, built-in criteria without internal state, a scheduler that treats the runs separately, any batching mode, any decay
rates: if `optimize` finishes for all `M` runs together, then run `r` started alone (with its permutations and its rows of the
random numbers) finishes, with the same positions, energies, best values and evaluation count. In particular the moments of one
run never leak into another, and the bias correction is that of the common iteration counter.
Missing from the full statement: schedulers that couple the runs (false, `C17_effective_false`). Covariance noise: `Props/RunsAll.lean`. -/
theorem C71_adam_partial [SoundArith K] (env : Env K V) (A : AdamOps V) (β1 β2 : K) (r : ℕ) (ν : ℕ → K → ℕ → ℕ → V → V)
    (p : V → V) (g : List (K × Flt K × V) → V) (ga gl gs gd : K → K)
    (hcons : env.cons = .mean g) (hcorr : env.corr = .none) (hnoise : NoiseRows env ν) (hpm : PostMap env p)
    (hid : ∀ v, p (p v) = p v) (hp : PermOK env) (hno : NormOK env) (hsched : SchedLocal env ga gl gs gd)
    (hgd : ∀ v, 0 ≤ v → 0 ≤ gd v)
    (a : Args K V) (hr : r < a.x0.rows) (hdt : 0 ≤ a.dt) (hsi : a.saveInt ≠ 0) (hterms : ∀ tm ∈ a.terms, BuiltIn tm)
    (s₀ s' : St K V) (fuel : ℕ) (h0 : init env a = .ok s₀)
    (h : optimize env (consThen env (adamMove env A β1 β2)) fuel s₀ = .done s') :
    ∃ pos : ℕ → ℕ, (∀ c, pos c < a.x0.rows) ∧
      ∃ s₁ s₁', init (env.alone r pos ν) (a.single r) = .ok s₁ ∧
        optimize (env.alone r pos ν) (consThen (env.alone r pos ν) (adamMove (env.alone r pos ν) A β1 β2)) fuel s₁ = .done s₁' ∧
        SameResult r s' s₁' :=
  independent_core env r ν p (move := fun e => adamMove e A β1 β2) (adamMove_ok env A β1 β2)
    (fun _ _ h => ⟨(adamMove_facts h).2.2.2.1, (adamMove_facts h).2.2.1⟩)
    (fun _ _ _ he => adamMove_kit he A β1 β2)
    (keeps_local (adamMove_ok env A β1 β2) (adamMove_local env A β1 β2) hpm hp) (image_fixed hpm hid)
    g ga gl gs gd hcons hcorr hnoise hpm hp hno hsched hgd a hr hdt hsi hterms s₀ s' fuel h0 h

/-- **C71, MirrorCBO (partial).** The same for `MirrorCBO` with any mirror map (`gc` is `grad_conj`, the dual variable starts at
`a.aux1` of the initial particles): no assumption on the post processing beyond acting particle by particle. Although
`self.x = grad_conj(self.y)` is computed for *all* runs, also the stopped ones, run `r` gets exactly the results it would get alone.
Missing from the full statement: schedulers that couple the runs. Covariance noise: `Props/RunsAll.lean`. -/
theorem C71_mirror_partial [SoundArith K] (env : Env K V) (gc : V → V) (r : ℕ) (ν : ℕ → K → ℕ → ℕ → V → V)
    (p : V → V) (g : List (K × Flt K × V) → V) (ga gl gs gd : K → K)
    (hcons : env.cons = .mean g) (hcorr : env.corr = .none) (hnoise : NoiseRows env ν) (hpm : PostMap env p)
    (hp : PermOK env) (hno : NormOK env) (hsched : SchedLocal env ga gl gs gd)
    (hgd : ∀ v, 0 ≤ v → 0 ≤ gd v)
    (a : Args K V) (hr : r < a.x0.rows) (hdt : 0 ≤ a.dt) (hsi : a.saveInt ≠ 0) (hterms : ∀ tm ∈ a.terms, BuiltIn tm)
    (s₀ s' : St K V) (fuel : ℕ) (h0 : init env a = .ok s₀)
    (h : optimize env (consThen env (mirrorMove env gc)) fuel s₀ = .done s') :
    ∃ pos : ℕ → ℕ, (∀ c, pos c < a.x0.rows) ∧
      ∃ s₁ s₁', init (env.alone r pos ν) (a.single r) = .ok s₁ ∧
        optimize (env.alone r pos ν) (consThen (env.alone r pos ν) (mirrorMove (env.alone r pos ν) gc)) fuel s₁ = .done s₁' ∧
        SameResult r s' s₁' :=
  independent_core env r ν p (move := fun e => mirrorMove e gc) (mirrorMove_ok env gc) (mirrorMove_quiet (fun g' h => by rw [hcorr] at h; cases h) gc)
    (fun _ _ _ he => mirrorMove_kit he gc) (keeps_mirror hpm hp) (fun _ _ m h n _ => (mirrorStep_facts hpm h).1 m n)
    g ga gl gs gd hcons hcorr hnoise hpm hp hno hsched hgd a hr hdt hsi hterms s₀ s' fuel h0 h

/-- **C71, stopped runs of MirrorCBO.** Any state reached by operations with at least one step, built-in criteria without internal
state: a run that a check stops stays stopped, and its positions, energies, best values and evaluation count stay
unchanged during any number of further loop iterations. -/
theorem C71_mirror_frozen [SoundArith K] (env : Env K V) (gc p : V → V) (hcorr : env.corr = .none) (hpm : PostMap env p)
    (hp : PermOK env) (hno : NormOK env) (hsched : ∀ s q, env.sched s = .ok q → 0 ≤ s.dt → 0 ≤ q.dt)
    (a : Args K V) (s₀ s s₁ : St K V) (ops : List Op) (h0 : init env a = .ok s₀)
    (h : execAll env (consThen env (mirrorMove env gc)) ops s₀ = .ok s) (hstep : Op.step ∈ ops) (hdt : 0 ≤ s.dt)
    (hs : ∀ tm ∈ s.terms, BuiltIn tm) (h1 : selectActive env s = .ok s₁)
    (m : ℕ) (hM : m < s.M) (hna : m ∉ s₁.active) :
    ∀ (k : ℕ) (s₂ : St K V), execAll env (consThen env (mirrorMove env gc)) (further k) s₁ = .ok s₂ →
      m ∉ s₂.active ∧ SameRun m s₁ s₂ := by
  have hm := mirrorMove_ok env gc
  have hreach := execAll_induct hm hpm.ok hp (P := fun s => BestFit s)
    (fun o s s' _ hb h => bestFit_exec hno hm hpm.ok hb h) ops s₀ s (init_wf hp h0) (bestFit_init h0) h
  exact frozen_gen env _ _ hm (keeps_mirror hpm hp) (mirrorMove_quiet (fun g' h => by rw [hcorr] at h; cases h) gc) hpm.ok hp hno hsched s s₁ hreach.1 hreach.2 hdt hs h1
    m hM hna fun n _ => C33_image env gc p hpm ops s₀ s h hstep m n

/-- C71, AdamCBO: run 0 stops after one step (`energy_tol`), run 1 continues to `max_it`; run 1 alone ends at the same positions. -/
example : NoiseRows Example.env Example.nu ∧ PostMap Example.env (fun v => max (-100) (min 100 v)) ∧
    SchedLocal Example.env (fun v => 2 * v) id id id ∧ (∀ tm ∈ ({ Example.args [.energyTol (.fin 2), .maxIt (some 3)] none with aux1 := fun _ => 0, aux2 := fun _ => 0 }).terms, BuiltIn tm) ∧
    (match init Example.env ({ Example.args [.energyTol (.fin 2), .maxIt (some 3)] none with aux1 := fun _ => 0, aux2 := fun _ => 0 }), init (Example.env.alone 1 (fun c => if c ≤ 1 then 1 else 0) Example.nu) (({ Example.args [.energyTol (.fin 2), .maxIt (some 3)] none with aux1 := fun _ => 0, aux2 := fun _ => 0 }).single 1) with
      | .ok s₀, .ok s₁ =>
        match optimize Example.env (consThen Example.env (adamMove Example.env Example.adamRat (1 / 2) (3 / 4))) 5 s₀,
            optimize (Example.env.alone 1 (fun c => if c ≤ 1 then 1 else 0) Example.nu)
              (consThen (Example.env.alone 1 (fun c => if c ≤ 1 then 1 else 0) Example.nu)
                (adamMove (Example.env.alone 1 (fun c => if c ≤ 1 then 1 else 0) Example.nu) Example.adamRat (1 / 2) (3 / 4))) 5 s₁ with
        | .done s, .done s₁' => decide (s₁'.x.get 0 0 = s.x.get 1 0 ∧ s₁'.x.get 0 1 = s.x.get 1 1 ∧ s₁'.x.get 0 2 = s.x.get 1 2 ∧
            s.x.get 1 0 ≠ s₀.x.get 1 0 ∧ s.it = 3 ∧ s.nEval 0 = 6 ∧ s.nEval 1 = 12 ∧ s₁'.nEval 0 = 12)
        | _, _ => false
      | _, _ => false) = true := by
  refine ⟨?_, fun s => rfl, fun s => rfl, ?_, by decide +kernel⟩
  · intro s d hd
    refine ⟨⟨d.rows, d.cols, fun i j => if i + j = s.draws then 1 / 2 else -1 / 2⟩, ?_, rfl, rfl, fun i j => rfl⟩
    simp only [Example.env, hd]
  · intro tm htm
    simp [Example.args] at htm
    rcases htm with rfl | rfl <;> trivial

/-- C71, MirrorCBO: the same with the mirror map of the interval `[0, 4]`; the hypotheses of `C71_mirror_frozen` hold for run 0. -/
example : NoiseRows Example.env Example.nu ∧ PostMap Example.env (fun v => max (-100) (min 100 v)) ∧
    SchedLocal Example.env (fun v => 2 * v) id id id ∧ (∀ tm ∈ (Example.args [.energyTol (.fin 2), .maxIt (some 3)] none).terms, BuiltIn tm) ∧
    (match init Example.env (Example.args [.energyTol (.fin 2), .maxIt (some 3)] none), init (Example.env.alone 1 (fun c => if c ≤ 1 then 1 else 0) Example.nu) ((Example.args [.energyTol (.fin 2), .maxIt (some 3)] none).single 1) with
      | .ok s₀, .ok s₁ =>
        match optimize Example.env (consThen Example.env (mirrorMove Example.env fun v => max 0 (min 4 v))) 5 s₀,
            optimize (Example.env.alone 1 (fun c => if c ≤ 1 then 1 else 0) Example.nu)
              (consThen (Example.env.alone 1 (fun c => if c ≤ 1 then 1 else 0) Example.nu)
                (mirrorMove (Example.env.alone 1 (fun c => if c ≤ 1 then 1 else 0) Example.nu) fun v => max 0 (min 4 v))) 5 s₁ with
        | .done s, .done s₁' => decide (s₁'.x.get 0 0 = s.x.get 1 0 ∧ s₁'.x.get 0 1 = s.x.get 1 1 ∧ s₁'.x.get 0 2 = s.x.get 1 2 ∧
            s.x.get 1 0 ≠ s₀.x.get 1 0 ∧ s.it = 3 ∧ s.nEval 0 = 6 ∧ s.nEval 1 = 12 ∧ s₁'.nEval 0 = 12)
        | _, _ => false
      | _, _ => false) = true := by
  refine ⟨?_, fun s => rfl, fun s => rfl, ?_, by decide +kernel⟩
  · intro s d hd
    refine ⟨⟨d.rows, d.cols, fun i j => if i + j = s.draws then 1 / 2 else -1 / 2⟩, ?_, rfl, rfl, fun i j => rfl⟩
    simp only [Example.env, hd]
  · intro tm htm
    simp [Example.args] at htm
    rcases htm with rfl | rfl <;> trivial

end Verif
