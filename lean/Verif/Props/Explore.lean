import Verif.Proofs.Explore
import Verif.Props.Moments
import Verif.Proofs.Heap

/-! # C114: exploration: what a noisy step reaches with positive probability -/

set_option linter.unusedSectionVars false

namespace Verif

open MeasureTheory ProbabilityTheory

section
variable {Ω ι : Type} [MeasurableSpace Ω] {μ : Measure Ω} [IsProbabilityMeasure μ] [Fintype ι] [DecidableEq ι]

section
variable
    (env : Env ℝ (ι → ℝ)) (r : List (ℝ × Flt ℝ × (ι → ℝ)) → ι → ℝ) (p : (ι → ℝ) → ι → ℝ) (hcorr : env.corr = .none) (hcons : env.cons = .mean r)
    (hpm : PostMap env p) (hp : PermOK env) (a : Args ℝ (ι → ℝ)) (s₀ s : St ℝ (ι → ℝ)) (ops : List Op)
    (h0 : init env a = .ok s₀) (h : execAll env (cboInner env) ops s₀ = .ok s) (hdt : 0 < s.dt) (hsig : s.sigma ≠ 0)
    (rule : (ι → ℝ) → (ι → ℝ) → ι → ℝ) (smp : Ω → ℕ → ℕ → ℕ → ι → ℝ) (hz : StdNormalTape μ fun ω => smp ω s.draws) (s' : Ω → St ℝ (ι → ℝ))
    (hs : ∀ ω, step { env with noise := rowNoise rule (smp ω) } (cboInner { env with noise := rowNoise rule (smp ω) }) s = .ok (s' ω))

include hcorr hcons hpm hp h0 h hdt hsig hz hs

/-- **C114 (positions).** From any reachable state, one step with independent standard normal numbers (`σ ≠ 0`, `dt > 0`), any batches: choose, for any set of moved particles (of any runs) for whose drift the noise acts in every
direction (`Spreads`: constant noise; isotropic noise off the consensus point; anisotropic noise if no coordinate agrees with the consensus point), an open set each. With positive probability all these particles land in
their sets at the same time (before post processing). -/
theorem C114_reach :
    ∃ c : ℕ → ι → ℝ, (∀ ω, ∃ cm, (s' ω).cons = some cm ∧ ∀ i < s.active.length, cm.get i 0 = c i) ∧
      ∀ T : Finset (ℕ × ℕ), (∀ q ∈ T, q.1 < s.active.length ∧ (∀ ω, (s' ω).pIdx.Sel (s.active.getD q.1 0) q.2) ∧ Spreads rule (s.x.get (s.active.getD q.1 0) q.2 - c q.1)) →
        ∀ U : ℕ × ℕ → Set (ι → ℝ), (∀ q ∈ T, IsOpen (U q)) → (∀ q ∈ T, (U q).Nonempty) →
          0 < μ {ω | ∀ q ∈ T, ∃ v ∈ U q, (s' ω).x.get (s.active.getD q.1 0) q.2 = p v} := by
  obtain ⟨c, j, hc, hx⟩ := tape_step hcorr hcons hpm hp (reach_wf hpm.ok hp h0 h) hs
  refine ⟨c, hc, fun T hT U hU hne => ?_⟩
  have hg : ∀ q : ℕ × ℕ, ∃ g : ι → ℝ, q ∈ T → (∀ l, g l ≠ 0) ∧ ∀ z l, rule (s.x.get (s.active.getD q.1 0) q.2 - c q.1) z l = g l * z l := by
    intro q
    by_cases hq : q ∈ T
    · obtain ⟨g, hg⟩ := (hT q hq).2.2
      exact ⟨g, fun _ => hg⟩
    · exact ⟨0, fun h => absurd h hq⟩
  choose g hg using hg
  -- slots of the random numbers
  let e : ℕ × ℕ → ℕ × ℕ := fun q => (q.1, j q.1 q.2)
  let b : ℕ × ℕ → ℕ × ℕ := fun q => (q.1, (preStep env s).pIdx.par q.1 q.2)
  obtain ⟨ω₀⟩ : Nonempty Ω := by
    by_contra hne'
    rw [not_nonempty_iff] at hne'
    have h1 := measure_univ (μ := μ)
    rw [Set.univ_eq_empty_iff.2 hne', measure_empty] at h1
    exact zero_ne_one h1
  have hbe : ∀ q ∈ T, b (e q) = q := fun q hq => by
    obtain ⟨q1, q2, -⟩ := hT q hq
    exact Prod.ext rfl (hx ω₀ q.1 q1 q.2 (q2 ω₀)).1
  let u : ℕ × ℕ → ι → ℝ := fun q l => s.x.get (s.active.getD q.1 0) q.2 l - s.lamda * s.dt * (s.x.get (s.active.getD q.1 0) q.2 l - c q.1 l)
  have hit := normal_hits hz (T.image e) (fun q => u (b q)) (fun q l => s.sigma * Real.sqrt s.dt * g (b q) l) (fun q hq l => by
      obtain ⟨q', hq', rfl⟩ := Finset.mem_image.1 hq
      simp only [hbe q' hq']
      exact mul_ne_zero (mul_ne_zero hsig (Real.sqrt_pos.2 hdt).ne') ((hg q' hq').1 l)) (fun q => U (b q))
    (fun q hq => by
      obtain ⟨q', hq', rfl⟩ := Finset.mem_image.1 hq
      simp only [hbe q' hq']
      exact hU q' hq') (fun q hq => by
      obtain ⟨q', hq', rfl⟩ := Finset.mem_image.1 hq
      simp only [hbe q' hq']
      exact hne q' hq')
  refine hit.trans_le (measure_mono fun ω hω q hq => ?_)
  have h1 := hω (e q) (Finset.mem_image_of_mem e hq)
  simp only [hbe q hq] at h1
  refine ⟨_, h1, ?_⟩
  obtain ⟨q1, q2, -⟩ := hT q hq
  rw [(hx ω q.1 q1 q.2 (q2 ω)).2]
  congr 1
  funext l
  simp only [cboUpdate, Pi.add_apply, Pi.smul_apply, Pi.sub_apply, smul_eq_mul, (hg q hq).2, u, e]
  ring

/-- **C114 (best value).** In the same situation let the objective be finite, let `y` be a point kept by the post processing, at which objective and post processing are continuous, and let `n` be a moved particle of run
`m` for whose drift the noise acts in every direction. Then for every `ε > 0`, with positive probability, after the next step in which the particle is evaluated `best_energy` of the run is less than `f y + ε`: the chance
to find values close to the infimum of the objective is never zero. -/
theorem C114_best (f : (ι → ℝ) → ℝ) (hf : ∀ v, env.f v = .fin (f v)) (s'' : Ω → St ℝ (ι → ℝ))
    (hs' : ∀ ω, step { env with noise := rowNoise rule (smp ω) } (cboInner { env with noise := rowNoise rule (smp ω) }) (s' ω) = .ok (s'' ω)) :
    ∃ c : ℕ → ι → ℝ, (∀ ω, ∃ cm, (s' ω).cons = some cm ∧ ∀ i < s.active.length, cm.get i 0 = c i) ∧
      ∀ i < s.active.length, ∀ m, s.active.getD i 0 = m → m < s.M → ∀ n, (∀ ω, (s' ω).pIdx.Sel m n) → (∀ ω, (s'' ω).cIdx.Sel m n) → Spreads rule (s.x.get m n - c i) →
        ∀ y, p y = y → ContinuousAt f y → ContinuousAt p y → ∀ ε > 0, 0 < μ {ω | ∃ e, (s'' ω).bestE m = .fin e ∧ e < f y + ε} := by
  obtain ⟨c, hc, key⟩ := C114_reach env r p hcorr hcons hpm hp a s₀ s ops h0 h hdt hsig rule smp hz s' hs
  refine ⟨c, hc, ?_⟩
  rintro i hi m rfl hm n hsel hsel' hsp y hy hfy hpy ε hε
  have hnear : {v | f (p v) < f y + ε} ∈ nhds y := by
    have h1 : ContinuousAt (fun v => f (p v)) y := ContinuousAt.comp (f := p) (g := f) (by rw [hy]; exact hfy) hpy
    exact h1.eventually_lt continuousAt_const (by rw [hy]; linarith)
  obtain ⟨U, hU1, hU2, hU3⟩ := mem_nhds_iff.1 hnear
  have hpos := key {(i, n)} (fun q hq => by
    rw [Finset.mem_singleton] at hq
    subst hq
    exact ⟨hi, hsel, hsp⟩) (fun _ => U) (fun _ _ => hU2) (fun _ _ => ⟨y, hU3⟩)
  refine hpos.trans_le (measure_mono fun ω hω => ?_)
  obtain ⟨v, hv, hxv⟩ := hω (i, n) (Finset.mem_singleton_self _)
  simp only at hxv
  have hpo := hpm.ok
  have hw := reach_wf hpo hp h0 h
  have nn : ∀ q : St ℝ (ι → ℝ), NoNaN env.f q := fun q m v _ => by rw [hf]; simp
  have hbi : BestInv env s := by
    rw [cboInner_eq] at h
    exact bestInv_execAll (cboMove_ok env) hpo hp (init_wf hp h0) (bestInv_init h0) h (nn s)
  let envω : Env ℝ (ι → ℝ) := { env with noise := rowNoise rule (smp ω) }
  have hbω : BestInv envω s := ⟨hbi.src, hbi.best, hbi.least⟩
  have hpoω : PostOK envω := hpo
  have hpω : PermOK envω := hp
  have t1 : step envω (consThen envω (cboMove envω)) s = .ok (s' ω) := by rw [← cboInner_eq]; exact hs ω
  have t2 : step envω (consThen envω (cboMove envω)) (s' ω) = .ok (s'' ω) := by rw [← cboInner_eq]; exact hs' ω
  have w1 := step_wf (cboMove_ok envω) hpoω hpω hw t1
  have q1 := step_sum (cboMove_ok envω) hpoω t1
  have q2 := step_sum (cboMove_ok envω) hpoω t2
  have b1 : BestInv envω (s' ω) := bestInv_exec (cboMove_ok envω) hpoω hpω (o := .step) hw (nn _) hbω t1
  have b2 : BestInv envω (s'' ω) := bestInv_exec (cboMove_ok envω) hpoω hpω (o := .step) w1 (nn _) b1 t2
  have hM : s.active.getD i 0 < (s'' ω).M := by rw [q2.M, q1.M]; exact hm
  have hev : Evaluated (s'' ω) (s.active.getD i 0) ((s' ω).x.get (s.active.getD i 0) n) := (step_evaluated q2 _ _).2 (.inr ⟨n, hsel' ω, rfl⟩)
  have hle := b2.least _ hM _ hev
  have hfx : envω.f ((s' ω).x.get (s.active.getD i 0) n) = .fin (f ((s' ω).x.get (s.active.getD i 0) n)) := hf _
  rw [hfx] at hle
  rcases b2.best _ hM with hb | ⟨-, hb⟩
  · rw [hb] at hle
    simp [Flt.lt] at hle
  · have hb' : (s'' ω).bestE (s.active.getD i 0) = .fin (f ((s'' ω).bestP (s.active.getD i 0))) := by rw [← hb]; exact hf _
    refine ⟨_, hb', ?_⟩
    rw [hb'] at hle
    simp only [Flt.lt, decide_eq_false_iff_not, not_lt] at hle
    refine hle.trans_lt ?_
    rw [hxv]
    exact hU1 hv

end

/-- **C114, isotropic noise**: it acts in every direction exactly when the particle is not at the consensus point. -/
theorem C114_isotropic (d : ι → ℝ) [Nonempty ι] : Spreads isoRule d ↔ d ≠ 0 := by
  constructor
  · rintro ⟨g, h1, h2⟩ rfl
    obtain ⟨l⟩ := (inferInstance : Nonempty ι)
    have := h2 (fun _ => 1) l
    rw [isoRule_zero] at this
    simp at this
    exact h1 l this.symm
  · intro hd
    refine ⟨fun _ => euclid d, fun _ h => ?_, fun z l => mul_comm _ _⟩
    unfold euclid at h
    rw [Real.sqrt_eq_zero (Finset.sum_nonneg fun _ _ => sq_nonneg _)] at h
    refine hd (funext fun l => ?_)
    have := (Finset.sum_eq_zero_iff_of_nonneg fun l _ => sq_nonneg (d l)).1 h l (Finset.mem_univ l)
    simpa using this

/-- **C114, anisotropic noise**: it acts in every direction exactly when no coordinate of the particle agrees with the consensus point (compare `C113_anisotropic`). -/
theorem C114_anisotropic (d : ι → ℝ) : Spreads anisoRule d ↔ ∀ l, d l ≠ 0 := by
  constructor
  · rintro ⟨g, h1, h2⟩ l hl
    have := h2 (fun _ => 1) l
    simp only [anisoRule, hl, mul_zero, mul_one] at this
    exact h1 l this.symm
  · exact fun h => ⟨d, h, fun z l => mul_comm _ _⟩

/-- **C114, constant noise**: it always acts in every direction. -/
theorem C114_constant (d : ι → ℝ) : Spreads constRule d := ⟨fun _ => 1, fun _ => one_ne_zero, fun z l => by simp [constRule]⟩

end

/-- Two runs of four particles on the plane, the default clipping, any rule for the noise and independent standard normal numbers: two steps. -/
theorem Example.plane_two (rule : (Fin 2 → ℝ) → (Fin 2 → ℝ) → Fin 2 → ℝ) :
    ∃ (Ω : Type) (_ : MeasurableSpace Ω) (μ : Measure Ω) (smp : Ω → ℕ → ℕ → ℕ → Fin 2 → ℝ), IsProbabilityMeasure μ ∧ (∀ k, StdNormalTape μ fun ω => smp ω k) ∧
      let env := Example.realEnv (rowNoise rule Example.smp)
      ∃ (s₀ : St ℝ (Fin 2 → ℝ)) (s' s'' : Ω → St ℝ (Fin 2 → ℝ)), init env (Example.realArgs (fun m n => ![n, m]) 3 none) = .ok s₀ ∧ s₀.active = [0, 1] ∧ s₀.M = 2 ∧ s₀.dt = 1 / 10 ∧ s₀.sigma = 3 ∧
        (∀ m n, s₀.x.get m n = ![(n : ℝ), m]) ∧
        (∀ ω, step { env with noise := rowNoise rule (smp ω) } (cboInner { env with noise := rowNoise rule (smp ω) }) s₀ = .ok (s' ω)) ∧
        (∀ ω, step { env with noise := rowNoise rule (smp ω) } (cboInner { env with noise := rowNoise rule (smp ω) }) (s' ω) = .ok (s'' ω)) ∧
        (∀ m < 2, ∀ n < 4, ∀ ω, (s' ω).pIdx.Sel m n) ∧ ∀ m < 2, ∀ n < 4, ∀ ω, (s'' ω).cIdx.Sel m n := by
  obtain ⟨Ω, mΩ, μ, smp, hμ, hz⟩ := Example.normalTape (Fin 2)
  refine ⟨Ω, mΩ, μ, smp, hμ, hz, ?_⟩
  intro env
  have hE := Example.realEnv_standard rule
  have hp : PermOK env := hE.perm
  have h0 : ∃ s₀, init env (Example.realArgs (fun m n => ![n, m]) 3 none) = .ok s₀ ∧ s₀.active = [0, 1] ∧
      s₀.batched = false ∧ s₀.N = 4 ∧ s₀.dt = 1 / 10 ∧ s₀.sigma = 3 ∧ s₀.saveInt ≠ 0 ∧ s₀.M = 2 := by
    unfold init
    rw [if_neg (by simp [Example.realArgs])]
    exact ⟨_, rfl, rfl, rfl, rfl, rfl, rfl, show (2 : ℕ) ≠ 0 by omega, rfl⟩
  obtain ⟨s₀, h0, c1, c2, c3, c4, c5, c6, c7⟩ := h0
  have hw := init_wf hp h0
  have tot : ∀ ω (q : St ℝ (Fin 2 → ℝ)), WF q → q.saveInt ≠ 0 → q.batched = false → ∃ q', step { env with noise := rowNoise rule (smp ω) }
      (cboInner { env with noise := rowNoise rule (smp ω) }) q = .ok q' := fun ω q hq hsi hb =>
    cboStep_total_of (env := { env with noise := rowNoise rule (smp ω) }) rfl ⟨_, rfl⟩ (fun s => ⟨_, rfl, rfl, rfl⟩) hp hq hsi (fun h => by cases h)
      fun q d hd _ _ _ _ _ _ => (rowNoise_rows (env := { env with noise := rowNoise rule (smp ω) }) rfl).ok q d hd
  have fr : ∀ ω (q q' : St ℝ (Fin 2 → ℝ)), step { env with noise := rowNoise rule (smp ω) } (cboInner { env with noise := rowNoise rule (smp ω) }) q = .ok q' →
      StepFrame { env with noise := rowNoise rule (smp ω) } q q' := fun ω q q' h => step_frame (by rw [cboInner_eq]; exact consThen_frame (cboMove_ok _)) h
  have hpo : ∀ ω, PostOK { env with noise := rowNoise rule (smp ω) } := fun _ => hE.post.ok
  choose s' hs' using fun ω => tot ω s₀ hw c6 c2
  have w1 : ∀ ω, WF (s' ω) := fun ω => step_wf (env := { env with noise := rowNoise rule (smp ω) }) (cboMove_ok _) (hpo ω) hp hw (by rw [← cboInner_eq]; exact hs' ω)
  choose s'' hs'' using fun ω => tot ω (s' ω) (w1 ω) (by rw [(fr ω _ _ (hs' ω)).saveInt]; exact c6) (by rw [(fr ω _ _ (hs' ω)).batched]; exact c2)
  have sel : ∀ ω (q : St ℝ (Fin 2 → ℝ)), WF q → q.batched = false → q.active = [0, 1] → q.N = 4 → ∀ m < 2, ∀ n < 4,
      (preStep { env with noise := rowNoise rule (smp ω) } q).pIdx.Sel m n ∧ (preStep { env with noise := rowNoise rule (smp ω) } q).cIdx.Sel m n := by
    intro ω q hq hb ha hN m hm n hn
    obtain ⟨pc, pr, pcol, prun, ppar⟩ := (preStep_pIdx { env with noise := rowNoise rule (smp ω) } q hq).2.2 hb
    have : (preStep { env with noise := rowNoise rule (smp ω) } q).pIdx.Sel m n :=
      ⟨m, by rw [pr, ha]; exact hm, n, by rw [pcol, hN]; exact hn, by rw [prun m (by rw [ha]; exact hm), ha]; interval_cases m <;> rfl, ppar m n⟩
    exact ⟨this, pc ▸ this⟩
  refine ⟨s₀, s', s'', h0, c1, c7, c4, c5, fun m n => ?_, hs', hs'', fun m hm n hn ω => ?_, fun m hm n hn ω => ?_⟩
  · rw [(init_x_tracks h0).1]
    simp [Example.realArgs]
  · rw [(fr ω _ _ (hs' ω)).pIdx]
    exact (sel ω s₀ hw c2 c1 c3 m hm n hn).1
  · have f1 := fr ω _ _ (hs' ω)
    rw [(fr ω _ _ (hs'' ω)).cIdx]
    exact (sel ω (s' ω) (w1 ω) (by rw [f1.batched]; exact c2) (by rw [f1.active]; exact c1) (by rw [f1.N]; exact c3) m hm n hn).2

/-- C114: constant noise: whatever the open sets `U`, `W` of the plane, with positive probability particle 1 of run 0 lands in (the clipped) `U` and at the same time particle 2 of run 1 in (the clipped) `W`. -/
example (U W : Set (Fin 2 → ℝ)) (hU : IsOpen U) (hW : IsOpen W) (hU' : U.Nonempty) (hW' : W.Nonempty) :
    ∃ (Ω : Type) (_ : MeasurableSpace Ω) (μ : Measure Ω) (smp : Ω → ℕ → ℕ → ℕ → Fin 2 → ℝ),
      let env := Example.realEnv (rowNoise constRule Example.smp)
      ∃ (s₀ : St ℝ (Fin 2 → ℝ)) (s' : Ω → St ℝ (Fin 2 → ℝ)), init env (Example.realArgs (fun m n => ![n, m]) 3 none) = .ok s₀ ∧
        (∀ ω, step { env with noise := rowNoise constRule (smp ω) } (cboInner { env with noise := rowNoise constRule (smp ω) }) s₀ = .ok (s' ω)) ∧
        0 < μ {ω | (s' ω).x.get 0 1 ∈ clipVec 100 '' U ∧ (s' ω).x.get 1 2 ∈ clipVec 100 '' W} := by
  obtain ⟨Ω, mΩ, μ, smp, hμ, hz, s₀, s', s'', h0, c1, -, c4, c5, -, hs', -, hsel, -⟩ := Example.plane_two constRule
  refine ⟨Ω, mΩ, μ, smp, s₀, s', h0, hs', ?_⟩
  have hE := Example.realEnv_standard constRule
  obtain ⟨c, -, key⟩ := C114_reach _ _ _ hE.corr hE.cons hE.post hE.perm _ s₀ s₀ [] h0 rfl (by rw [c4]; norm_num) (by rw [c5]; norm_num) constRule smp (hz _) s' hs'
  have := key {(0, 1), (1, 2)} (by
    intro q hq
    rw [c1]
    simp only [Finset.mem_insert, Finset.mem_singleton] at hq
    rcases hq with rfl | rfl
    · exact ⟨by simp, hsel 0 (by omega) 1 (by omega), C114_constant _⟩
    · exact ⟨by simp, hsel 1 (by omega) 2 (by omega), C114_constant _⟩) (fun q => if q.1 = 0 then U else W) (by
      intro q _
      beta_reduce
      split_ifs <;> assumption) (by
      intro q _
      beta_reduce
      split_ifs <;> assumption)
  refine this.trans_le (measure_mono fun ω hω => ?_)
  obtain ⟨v, hv, e⟩ := hω (0, 1) (by simp)
  obtain ⟨w, hw, e'⟩ := hω (1, 2) (by simp)
  simp only [c1] at e e'
  exact ⟨⟨v, by simpa using hv, e.symm⟩, w, by simpa using hw, e'.symm⟩

/-- C114: isotropic noise, objective `x² + y²`: all particles of run 1 start at second coordinate 1, where the objective is at least 1, but for every `ε > 0` with positive probability `best_energy` of run 1 is less than `ε`
after two steps. -/
example : ∃ (Ω : Type) (_ : MeasurableSpace Ω) (μ : Measure Ω) (smp : Ω → ℕ → ℕ → ℕ → Fin 2 → ℝ),
    let env := Example.realEnv (rowNoise isoRule Example.smp)
    ∃ (s₀ : St ℝ (Fin 2 → ℝ)) (s' s'' : Ω → St ℝ (Fin 2 → ℝ)), init env (Example.realArgs (fun m n => ![n, m]) 3 none) = .ok s₀ ∧
      (∀ ω, step { env with noise := rowNoise isoRule (smp ω) } (cboInner { env with noise := rowNoise isoRule (smp ω) }) s₀ = .ok (s' ω)) ∧
      (∀ ω, step { env with noise := rowNoise isoRule (smp ω) } (cboInner { env with noise := rowNoise isoRule (smp ω) }) (s' ω) = .ok (s'' ω)) ∧
      ∀ ε > 0, 0 < μ {ω | ∃ e, (s'' ω).bestE 1 = .fin e ∧ e < ε} := by
  obtain ⟨Ω, mΩ, μ, smp, hμ, hz, s₀, s', s'', h0, c1, c2, c4, c5, hx, hs', hs'', hsel, hsel'⟩ := Example.plane_two isoRule
  refine ⟨Ω, mΩ, μ, smp, s₀, s', s'', h0, hs', hs'', fun ε hε => ?_⟩
  have hE := Example.realEnv_standard isoRule
  obtain ⟨c, -, key⟩ := C114_best _ _ _ hE.corr hE.cons hE.post hE.perm _ s₀ s₀ [] h0 rfl (by rw [c4]; norm_num) (by rw [c5]; norm_num) isoRule smp (hz _) s' hs' _ hE.f s'' hs''
  have hne : ∃ n < 4, s₀.x.get 1 n - c 1 ≠ 0 := by
    by_contra h
    push Not at h
    have h1 := congrFun ((h 0 (by omega)).trans (h 1 (by omega)).symm) 0
    rw [hx, hx] at h1
    simp only [Pi.sub_apply, Matrix.cons_val_zero, Nat.cast_zero, Nat.cast_one] at h1
    linarith
  obtain ⟨n, hn, hne⟩ := hne
  have hclip : Continuous (clipVec 100 : (Fin 2 → ℝ) → Fin 2 → ℝ) := by
    unfold clipVec
    fun_prop
  have := key 1 (by rw [c1]; simp) 1 (by rw [c1]; rfl) (by rw [c2]; omega) n (hsel 1 (by omega) n hn) (hsel' 1 (by omega) n hn) ((C114_isotropic _).2 hne) 0
    (by funext l; simp [clipVec]) (Continuous.continuousAt (by fun_prop)) hclip.continuousAt ε hε
  simpa using this

/-- C114: anisotropic noise acts in every direction on the drift `(1, -2)`, not on `(1, 0)`. -/
example : Spreads anisoRule ![1, -2] ∧ ¬ Spreads anisoRule (![1, 0] : Fin 2 → ℝ) := by
  rw [C114_anisotropic, C114_anisotropic]
  refine ⟨fun l => ?_, fun h => h 1 (by simp)⟩
  fin_cases l <;> simp

end Verif
