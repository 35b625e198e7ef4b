import Verif.Proofs.Endless
import Verif.Props.Hull

/-! # C122: when `energy_tol` alone never ends a run -/

set_option linter.unusedSectionVars false

namespace Verif

section
variable {V : Type} [AddCommGroup V] [Module ℝ V]
  (env : Env ℝ V) (f : V → ℝ) (ν : ℕ → ℝ → ℕ → ℕ → V → V) (p : V → V) (hE : Standard env f ν p) (hsch : ∀ s, ∃ q, env.sched s = .ok q) (a : Args ℝ V) (hb : a.batchSize ≠ some 0)
  (s₀ s : St ℝ V) (ops : List Op) (h0 : init env a = .ok s₀) (h : execAll env (cboInner env) ops s₀ = .ok s) (hsi : s.saveInt ≠ 0) (tol : ℝ) (hterms : s.terms = [.energyTol (.fin tol)])
  (m : ℕ) (hm : m < s.M) (habove : Above (.fin tol) m s)

include hE hsch hb h0 h hsi hterms hm habove

/-- **C122, collapsed run.** CBO with a noise that vanishes with the drift (isotropic, anisotropic, covariance) and `energy_tol` as the only criterion. If in a reachable state all particles of one run coincide at a point that the post
processing keeps, and neither the objective there nor the recorded energies of the run are below the tolerance, then `optimize` runs for ever, whatever the parameters, the scheduler, the other runs and the random numbers are: it does
not return and does not raise. (With constant noise it stops almost surely, C120.) -/
theorem C122_collapsed (hz : NoiseVanish env) (v : V) (hv : p v = v) (hx : ∀ n < s.N, s.x.get m n = v) (hf : tol ≤ f v) (fuel : ℕ) : optimize env (cboInner env) fuel s = .outOfFuel := by
  obtain ⟨hw, hbs⟩ := std_reach hE hb h0 h
  have hnd := never_done (cboMove_ok env) hE.post.ok hE.perm (tol := .fin tol) (m := m) (Q := fun q => 1 ≤ q.batchSize ∧ ∀ n < q.N, q.x.get m n = v)
    (fun o q q' hwq hq hx => by
      obtain ⟨e1, -, e3⟩ := exec_bs (consThen_frame (cboMove_ok env)) hx
      refine ⟨by rw [e1]; exact hq.1, ?_⟩
      rw [e3]
      by_cases ho : o = .step
      · subst ho
        rw [← cboInner_eq] at hx
        exact absorb_step hE.corr hE.cons hE.f hE.noise.ok.shape hz hE.post hE.perm hwq hq.1 hv hq.2 hx
      · rw [exec_x ho hx]; exact hq.2)
    (fun q hq n hn => by rw [hE.f, hq.2 n hn]; simpa [Flt.lt] using hf) hw hm ⟨hbs, hx⟩ habove hterms fuel
  rw [← cboInner_eq] at hnd
  have hnr := optimize_total (env := env) ⟨hE.corr, ⟨_, hE.cons⟩, hE.noise.ok, fun s => ⟨_, hE.post s, rfl, rfl⟩, hsch⟩ hE.perm fuel s hw hsi
    (fun tm htm => by rw [hterms, List.mem_singleton] at htm; subst htm; trivial) (fun _ => by omega)
  cases ho : optimize env (cboInner env) fuel s with
  | done s' => exact absurd ho (hnd s')
  | raised e => exact absurd ho (hnr e)
  | outOfFuel => rfl

/-- **C122, without noise.** With `sigma = 0` and `0 ≤ lamda*dt ≤ 1` (kept by the scheduler): if the particles of one run lie in a convex set that the post processing maps into itself and on which the objective is nowhere below the tolerance,
`optimize` with `energy_tol` alone runs for ever, even if the objective is below the tolerance elsewhere. -/
theorem C122_noise_free (hn : NoiseFree s.sigma s.lamda s.dt) (hkeep : ∀ q r, NoiseFree q.sigma q.lamda q.dt → env.sched q = .ok r → NoiseFree r.sigma r.lamda r.dt) (S : Set V) (hS : Convex ℝ S) (hpS : ∀ v ∈ S, p v ∈ S)
    (hx : ∀ n < s.N, s.x.get m n ∈ S) (hf : ∀ v ∈ S, tol ≤ f v) (fuel : ℕ) : optimize env (cboInner env) fuel s = .outOfFuel := by
  obtain ⟨hw, hbs⟩ := std_reach hE hb h0 h
  have hnd := never_done (cboMove_ok env) hE.post.ok hE.perm (tol := .fin tol) (m := m) (Q := fun q => 1 ≤ q.batchSize ∧ NoiseFree q.sigma q.lamda q.dt ∧ ∀ n < q.N, q.x.get m n ∈ S)
    (fun o q q' hwq hq hx => by
      obtain ⟨e1, -, e3⟩ := exec_bs (consThen_frame (cboMove_ok env)) hx
      refine ⟨by rw [e1]; exact hq.1, ?_, ?_⟩
      · cases o with
        | step =>
          have fr := step_frame (consThen_frame (cboMove_ok env)) hx
          rw [fr.sigma, fr.lamda, fr.dt]; exact hq.2.1
        | select => have fr := select_frame hx; rw [fr]; exact hq.2.1
        | sched =>
          simp only [exec, schedUpdate, bind_ok, pure_ok] at hx
          obtain ⟨r, hr, rfl⟩ := hx
          exact hkeep q r hq.2.1 hr
        | reset =>
          have hx : Except.ok (reset q) = Except.ok q' := hx
          injection hx with hx
          subst hx
          exact hq.2.1
      · rw [e3]
        by_cases ho : o = .step
        · subst ho
          rw [← cboInner_eq] at hx
          exact hull_step hE hwq hq.1 hq.2.1 hS hpS hq.2.2 hx
        · rw [exec_x ho hx]; exact hq.2.2)
    (fun q hq n hn => by rw [hE.f]; simpa [Flt.lt] using hf _ (hq.2.2 n hn)) hw hm ⟨hbs, hn, hx⟩ habove hterms fuel
  rw [← cboInner_eq] at hnd
  have hnr := optimize_total (env := env) ⟨hE.corr, ⟨_, hE.cons⟩, hE.noise.ok, fun s => ⟨_, hE.post s, rfl, rfl⟩, hsch⟩ hE.perm fuel s hw hsi
    (fun tm htm => by rw [hterms, List.mem_singleton] at htm; subst htm; trivial) (fun _ => by omega)
  cases ho : optimize env (cboInner env) fuel s with
  | done s' => exact absurd ho (hnd s')
  | raised e => exact absurd ho (hnr e)
  | outOfFuel => rfl

end

/-- C122: two runs of four particles on the plane with isotropic noise, the objective `|v|²`, `energy_tol = 1`; run 0 is spread out around the origin, run 1 starts at `(5, -7)`. `optimize` never ends. -/
example (fuel : ℕ) : let env := Example.realEnv (rowNoise isoRule Example.smp)
    ∃ s₀, init env { Example.realArgs (fun m n => if m = 0 then ![n, 2 - n] else ![5, -7]) 3 (some 3) with terms := [.energyTol (.fin 1)] } = .ok s₀ ∧ optimize env (cboInner env) fuel s₀ = .outOfFuel := by
  intro env
  have h0 : ∃ s₀, init env { Example.realArgs (fun m n => if m = 0 then ![(n : ℝ), 2 - n] else ![5, -7]) 3 (some 3) with terms := [.energyTol (.fin 1)] } = .ok s₀ ∧ s₀.saveInt = 2 ∧ s₀.terms = [.energyTol (.fin 1)] ∧ s₀.M = 2 ∧
      (∀ n, s₀.x.get 1 n = ![5, -7]) ∧ (∀ n, s₀.energy.get 1 n = .pinf) ∧ s₀.fMin 1 = .pinf := by
    unfold init
    rw [if_neg (by simp [Example.realArgs])]
    exact ⟨_, rfl, rfl, rfl, rfl, fun _ => rfl, fun _ => rfl, rfl⟩
  obtain ⟨s₀, h0, b1, b2, b3, b4, b5, b6⟩ := h0
  refine ⟨s₀, h0, C122_collapsed env _ _ _ (Example.realEnv_standard isoRule) (fun s => ⟨_, rfl⟩) _ (by simp [Example.realArgs]) s₀ s₀ [] h0 rfl (by omega) 1 b2 1 (by omega) ⟨fun n _ => by rw [b5]; rfl, by rw [b6]; rfl⟩
    (C23_isotropic env Example.smp rfl).2 ![5, -7] (clipVec_id 100 _ (by intro i; fin_cases i <;> norm_num)) (fun n _ => b4 n) ?_ fuel⟩
  simp
  norm_num

/-- C122: without noise, particles with first coordinate at least 1 and the objective `|v|²`, `energy_tol = 1`. -/
example (fuel : ℕ) : let env := Example.realEnv (rowNoise constRule Example.smp)
    ∃ s₀, init env { Example.realArgs (fun m n => ![n + 1, m]) 0 (some 3) with terms := [.energyTol (.fin 1)] } = .ok s₀ ∧ optimize env (cboInner env) fuel s₀ = .outOfFuel := by
  intro env
  have h0 : ∃ s₀, init env { Example.realArgs (fun m n => ![(n : ℝ) + 1, (m : ℝ)]) 0 (some 3) with terms := [.energyTol (.fin 1)] } = .ok s₀ ∧ s₀.saveInt = 2 ∧ s₀.terms = [.energyTol (.fin 1)] ∧ s₀.M = 2 ∧
      (∀ n : ℕ, s₀.x.get 1 n = ![(n : ℝ) + 1, ((1 : ℕ) : ℝ)]) ∧ (∀ n, s₀.energy.get 1 n = .pinf) ∧ s₀.fMin 1 = .pinf ∧ s₀.sigma = 0 ∧ s₀.lamda = 1 ∧ s₀.dt = 1 / 10 := by
    unfold init
    rw [if_neg (by simp [Example.realArgs])]
    exact ⟨_, rfl, rfl, rfl, rfl, fun _ => rfl, fun _ => rfl, rfl, rfl, rfl, rfl⟩
  obtain ⟨s₀, h0, b1, b2, b3, b4, b5, b6, b7, b8, b9⟩ := h0
  refine ⟨s₀, h0, C122_noise_free env _ _ _ (Example.realEnv_standard constRule) (fun s => ⟨_, rfl⟩) _ (by simp [Example.realArgs]) s₀ s₀ [] h0 rfl (by omega) 1 b2 1 (by omega) ⟨fun n _ => by rw [b5]; rfl, by rw [b6]; rfl⟩
    ⟨b7, by rw [b8, b9]; norm_num, by rw [b8, b9]; norm_num⟩ ?_ {v | 1 ≤ v 0} ?_ ?_ (fun n _ => ?_) (fun v hv => ?_) fuel⟩
  · intro q r hq hr
    injection hr with hr
    subst hr
    exact hq
  · intro u hu v hv α β hα hβ hαβ
    simp only [Set.mem_ofPred_eq, Pi.add_apply, Pi.smul_apply, smul_eq_mul] at *
    nlinarith
  · intro v hv
    have hv : 1 ≤ v 0 := hv
    show 1 ≤ min (max (v 0) (-100)) 100
    exact le_min (le_max_of_le_left hv) (by norm_num)
  · rw [b4]
    simp
  · have hv : 1 ≤ v 0 := hv
    nlinarith [sq_nonneg (v 1)]

end Verif
