import Verif.Proofs.CovTotal

/-! Property C19: `optimize` with covariance noise never raises when the runs stop together. -/

set_option linter.unusedSectionVars false

namespace Verif

variable {ι : Type} [Fintype ι] [DecidableEq ι]

/-- **C19, `optimize` with covariance noise (partial).** CBO with covariance noise in either mode, a finite objective, no batching and no correction. If there is only one run, or all criteria
read only the iteration counter or the clock, so that all runs stop together, and one criterion is `max_it = n`, then `optimize` finishes without exception.
Missing from the full statement: criteria that stop the runs at different times and batching, where steps do raise (`C19_covariance_stopped_false`, `C19_covariance_batched_false`). -/
theorem C19_cov_optimize_partial (env : Env ℝ (ι → ℝ)) (f : (ι → ℝ) → ℝ) (p : (ι → ℝ) → ι → ℝ) (eigh : Matrix ι ι ℝ → (ι → ℝ) × Matrix ι ι ℝ) (b : Bool) (smp : ℕ → ℕ → ℕ → ι → ℝ)
    (hcorr : env.corr = .none) (hcons : env.cons = .mean consDefault) (hf : ∀ v, env.f v = .fin (f v)) (hnoise : env.noise = covNoise eigh b smp)
    (hpm : PostMap env p) (hp : PermOK env) (hs : ∀ s, ∃ q, env.sched s = .ok q) (a : Args ℝ (ι → ℝ)) (hsi : a.saveInt ≠ 0) (hb : a.batchSize = none)
    (hst : ∀ tm ∈ a.terms, Stateless tm) (hu : a.x0.rows = 1 ∨ ∀ tm ∈ a.terms, RunBlind tm) (n : ℕ) (hn : Term.maxIt (some n) ∈ a.terms)
    (s₀ : St ℝ (ι → ℝ)) (h0 : init env a = .ok s₀) (fuel : ℕ) (hfuel : n < fuel) :
    ∃ s, optimize env (cboInner env) fuel s₀ = .done s ∧ s.active = [] ∧ s.it ≤ n := by
  rw [cboInner_eq]
  obtain ⟨T, hit, -⟩ := together_init hp hsi hb h0
  have hnr := together_not_raised (cboMove_ok env) hpm.ok hp hs hst hu (Q := fun _ => True) (fun _ _ _ _ _ _ h => h) (fun _ _ h _ => h)
    (fun s hw ha hb hM hsi _ => by rw [← cboInner_eq]; exact covStep_total hcorr hcons hf hnoise hpm hp hw ha hb hM hsi) fuel s₀ T trivial
  rcases C01_max_it env _ (consThen_frame (cboMove_ok env)) n fuel s₀ (by rw [T.terms]; exact hn) (by omega) with ⟨e, he⟩ | ⟨s, h1, k, hk, q, -, -, h2, h3⟩
  · exact absurd he (hnr e)
  · exact ⟨s, h1, h3, by omega⟩

/-- **C19, MirrorCBO with covariance noise (partial).** The same for `MirrorCBO` with any mirror map. Missing: as in `C19_cov_optimize_partial`. -/
theorem C19_mirror_cov_partial (env : Env ℝ (ι → ℝ)) (gc : (ι → ℝ) → ι → ℝ) (f : (ι → ℝ) → ℝ) (p : (ι → ℝ) → ι → ℝ) (eigh : Matrix ι ι ℝ → (ι → ℝ) × Matrix ι ι ℝ) (b : Bool)
    (smp : ℕ → ℕ → ℕ → ι → ℝ) (hcorr : env.corr = .none) (hcons : ∃ r, env.cons = .mean r) (hf : ∀ v, env.f v = .fin (f v)) (hnoise : env.noise = covNoise eigh b smp)
    (hpm : PostMap env p) (hp : PermOK env) (hs : ∀ s, ∃ q, env.sched s = .ok q) (a : Args ℝ (ι → ℝ)) (hsi : a.saveInt ≠ 0) (hb : a.batchSize = none)
    (hst : ∀ tm ∈ a.terms, Stateless tm) (hu : a.x0.rows = 1 ∨ ∀ tm ∈ a.terms, RunBlind tm) (n : ℕ) (hn : Term.maxIt (some n) ∈ a.terms)
    (s₀ : St ℝ (ι → ℝ)) (h0 : init env a = .ok s₀) (fuel : ℕ) (hfuel : n < fuel) :
    ∃ s, optimize env (consThen env (mirrorMove env gc)) fuel s₀ = .done s ∧ s.active = [] ∧ s.it ≤ n := by
  obtain ⟨T, hit, ha1, -⟩ := together_init hp hsi hb h0
  have hnr := together_not_raised (mirrorMove_ok env gc) hpm.ok hp hs hst hu (Q := fun s => s.aux1.rows = s.M ∧ s.aux1.cols = s.N)
    (fun s s' e1 _ e3 e4 h => by rw [e1, e3, e4]; exact h)
    (fun s s' h hst => by
      have fr := step_frame (consThen_frame (mirrorMove_ok env gc)) hst
      obtain ⟨-, ⟨a1, a2⟩, -⟩ := mirrorStep_facts hpm hst
      rw [a1, a2, fr.M, fr.N]; exact h)
    (fun s hw ha hb hM hsi hq => step_total_of (mirrorMove_ok env gc) hcons (fun s => ⟨_, hpm s, rfl, rfl⟩) hp hw hsi (hw.full hM ha hb)
      fun c cm hc hr => mirrorMove_total gc hcorr hw hq hr (covNoise_ready hf hnoise hw ha hb hc)) fuel s₀ T ha1
  rcases C01_max_it env _ (consThen_frame (mirrorMove_ok env gc)) n fuel s₀ (by rw [T.terms]; exact hn) (by omega) with ⟨e, he⟩ | ⟨s, h1, k, hk, q, -, -, h2, h3⟩
  · exact absurd he (hnr e)
  · exact ⟨s, h1, h3, by omega⟩

/-- **C19, AdamCBO with covariance noise (partial).** The same for `AdamCBO` with `β₁, β₂` in `[0, 1)`. Missing: as in `C19_cov_optimize_partial`. -/
theorem C19_adam_cov_partial (env : Env ℝ (ι → ℝ)) (A : AdamOps (ι → ℝ)) (β1 β2 : ℝ) (hβ1 : 0 ≤ β1) (hβ1' : β1 < 1) (hβ2 : 0 ≤ β2) (hβ2' : β2 < 1)
    (f : (ι → ℝ) → ℝ) (p : (ι → ℝ) → ι → ℝ) (eigh : Matrix ι ι ℝ → (ι → ℝ) × Matrix ι ι ℝ) (b : Bool)
    (smp : ℕ → ℕ → ℕ → ι → ℝ) (hcons : ∃ r, env.cons = .mean r) (hf : ∀ v, env.f v = .fin (f v)) (hnoise : env.noise = covNoise eigh b smp)
    (hpm : PostMap env p) (hp : PermOK env) (hs : ∀ s, ∃ q, env.sched s = .ok q) (a : Args ℝ (ι → ℝ)) (hsi : a.saveInt ≠ 0) (hb : a.batchSize = none)
    (hst : ∀ tm ∈ a.terms, Stateless tm) (hu : a.x0.rows = 1 ∨ ∀ tm ∈ a.terms, RunBlind tm) (n : ℕ) (hn : Term.maxIt (some n) ∈ a.terms)
    (s₀ : St ℝ (ι → ℝ)) (h0 : init env a = .ok s₀) (fuel : ℕ) (hfuel : n < fuel) :
    ∃ s, optimize env (consThen env (adamMove env A β1 β2)) fuel s₀ = .done s ∧ s.active = [] ∧ s.it ≤ n := by
  obtain ⟨T, hit, ha1, ha2⟩ := together_init hp hsi hb h0
  have hne : ∀ β : ℝ, 0 ≤ β → β < 1 → ∀ k : ℕ, 1 - β ^ (k + 1) ≠ 0 := fun β h1 h2 k => by
    have := pow_lt_one₀ h1 h2 (Nat.succ_ne_zero k)
    exact (sub_pos.2 this).ne'
  have hnr := together_not_raised (adamMove_ok env A β1 β2) hpm.ok hp hs hst hu (Q := fun s => (s.aux1.rows = s.M ∧ s.aux1.cols = s.N) ∧ s.aux2.rows = s.M ∧ s.aux2.cols = s.N)
    (fun s s' e1 e2 e3 e4 h => by rw [e1, e2, e3, e4]; exact h)
    (fun s s' h hst => by
      have fr := step_frame (consThen_frame (adamMove_ok env A β1 β2)) hst
      obtain ⟨⟨a1, a2⟩, a3, a4⟩ := adamStep_shape hst
      rw [a1, a2, a3, a4, fr.M, fr.N]; exact h)
    (fun s hw ha hb hM hsi hq => step_total_of (adamMove_ok env A β1 β2) hcons (fun s => ⟨_, hpm s, rfl, rfl⟩) hp hw hsi (hw.full hM ha hb)
      fun c cm hc hr => adamMove_total A hw (hne β1 hβ1 hβ1' _) (hne β2 hβ2 hβ2' _) hq.1 hq.2 hr (covNoise_ready hf hnoise hw ha hb hc)) fuel s₀ T ⟨ha1, ha2⟩
  rcases C01_max_it env _ (consThen_frame (adamMove_ok env A β1 β2)) n fuel s₀ (by rw [T.terms]; exact hn) (by omega) with ⟨e, he⟩ | ⟨s, h1, k, hk, q, -, -, h2, h3⟩
  · exact absurd he (hnr e)
  · exact ⟨s, h1, h3, by omega⟩

/-- Two runs of four particles with covariance noise, at most 7 iterations. -/
noncomputable def Example.covArgs (x : ℕ → ℕ → Fin 2 → ℝ) : Args ℝ (Fin 2 → ℝ) := { Example.realArgs x 3 none with terms := [.maxIt (some 7)], aux2 := fun _ => 0 }

/-- C19: the hypotheses hold for two runs on the plane, and all three dynamics finish. -/
theorem Example.cov_done (eigh : Matrix (Fin 2) (Fin 2) ℝ → (Fin 2 → ℝ) × Matrix (Fin 2) (Fin 2) ℝ) (b : Bool) (x : ℕ → ℕ → Fin 2 → ℝ) :
    let env := Example.realEnv (covNoise eigh b Example.smp)
    ∃ s₀, init env (Example.covArgs x) = .ok s₀ ∧ (∃ s, optimize env (cboInner env) 8 s₀ = .done s) ∧
      (∃ s, optimize env (consThen env (mirrorMove env fun v => v)) 8 s₀ = .done s) ∧
      ∃ s, optimize env (consThen env (adamMove env ⟨fun v i => v i ^ 2, fun m v i => m i / (Real.sqrt (v i) + 1)⟩ (9 / 10) (99 / 100))) 8 s₀ = .done s := by
  intro env
  have h0 : ∃ s₀, init env (Example.covArgs x) = .ok s₀ := by
    unfold init
    rw [if_neg (by simp [Example.covArgs, Example.realArgs])]
    exact ⟨_, rfl⟩
  obtain ⟨s₀, h0⟩ := h0
  obtain ⟨hpm, hp⟩ := Example.covEnv_facts eigh b
  have hst : ∀ tm ∈ (Example.covArgs x).terms, Stateless tm := by
    intro tm htm
    simp [Example.covArgs] at htm
    subst htm; trivial
  have hu : ∀ tm ∈ (Example.covArgs x).terms, RunBlind tm := by
    intro tm htm
    simp [Example.covArgs] at htm
    subst htm; trivial
  have hn : Term.maxIt (some 7) ∈ (Example.covArgs x).terms := by simp [Example.covArgs]
  have hsi : (Example.covArgs x).saveInt ≠ 0 := by simp [Example.covArgs, Example.realArgs]
  obtain ⟨s1, e1, -⟩ := C19_cov_optimize_partial env (fun v => v 0 ^ 2 + v 1 ^ 2) _ eigh b Example.smp rfl rfl (fun _ => rfl) rfl hpm hp (fun s => ⟨_, rfl⟩) _ hsi rfl hst (.inr hu) 7 hn s₀ h0 8 (by omega)
  obtain ⟨s2, e2, -⟩ := C19_mirror_cov_partial env (fun v => v) (fun v => v 0 ^ 2 + v 1 ^ 2) _ eigh b Example.smp rfl ⟨_, rfl⟩ (fun _ => rfl) rfl hpm hp (fun s => ⟨_, rfl⟩) _ hsi rfl hst (.inr hu) 7 hn s₀ h0 8 (by omega)
  obtain ⟨s3, e3, -⟩ := C19_adam_cov_partial env ⟨fun v i => v i ^ 2, fun m v i => m i / (Real.sqrt (v i) + 1)⟩ (9 / 10) (99 / 100) (by norm_num) (by norm_num) (by norm_num) (by norm_num)
    (fun v => v 0 ^ 2 + v 1 ^ 2) _ eigh b Example.smp ⟨_, rfl⟩ (fun _ => rfl) rfl hpm hp (fun s => ⟨_, rfl⟩) _ hsi rfl hst (.inr hu) 7 hn s₀ h0 8 (by omega)
  exact ⟨s₀, h0, ⟨s1, e1⟩, ⟨s2, e2⟩, ⟨s3, e3⟩⟩

end Verif
