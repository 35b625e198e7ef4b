import Verif.Proofs.MeanSquare
import Mathlib.Analysis.SpecificLimits.Basic

/-! Property C76: strength of the noise, dimension and collapse of the ensemble. -/

set_option linter.unusedSectionVars false

namespace Verif

open MeasureTheory Filter
open scoped ENNReal Topology

section
variable {ι : Type} [Fintype ι] [DecidableEq ι]
variable (env : Env ℝ (ι → ℝ)) (f : (ι → ℝ) → ℝ) (ν : ℕ → ℝ → ℕ → ℕ → (ι → ℝ) → ι → ℝ) (p : (ι → ℝ) → ι → ℝ) (hE : Standard env f ν p)
  (a : Args ℝ (ι → ℝ)) (hb : a.batchSize ≠ some 0) (s₀ s : St ℝ (ι → ℝ)) (ops : List Op) (h0 : init env a = .ok s₀)
  (h : execAll env (cboInner env) ops s₀ = .ok s) (m : ℕ) (hm : m ∈ s.active) (hfull : s.batched = false ∨ s.batchPartial = false) (hsi : s.saveInt ≠ 0) (hdt : 0 ≤ s.dt)

include hE hb h0 h hm hfull hsi hdt

omit [DecidableEq ι] hdt in
theorem ms_reach : MsOK m s.N s.lamda s.dt s.sigma s := by
  obtain ⟨hw, hbs⟩ := std_reach hE hb h0 h
  exact ⟨hw, hbs, hfull, hm, hsi, rfl, rfl, rfl, rfl⟩

/-- **C76, one step.** Isotropic noise: from every reachable state (whatever random numbers were drawn before), a step of an active run whose particles all move never raises, whatever it draws,
and with independent standard normal numbers the expected spread after the step is `(1 - lamda·dt)²·spread + 2(N - 1)·d·sigma²·dt·Σ_n |x_n - c|²` if post processing does nothing and at most that with clipping;
`c` is the consensus point of the run, which does not depend on the numbers drawn in the step. -/
theorem C76_step_isotropic :
    ∃ c : ι → ℝ, (∀ z, ∃ s' i cm, step (withSample env isoRule s.M s.N z) (cboInner (withSample env isoRule s.M s.N z)) s = .ok s' ∧
        s.active.getD i 0 = m ∧ s'.cons = some cm ∧ cm.get i 0 = c) ∧
      (Shrinks p → expect env isoRule 1 (fun q => ENNReal.ofReal (spread q.x q.N m)) s ≤
        ENNReal.ofReal ((1 - s.lamda * s.dt) ^ 2 * spread s.x s.N m + 2 * ((s.N : ℝ) - 1) * Fintype.card ι * s.sigma ^ 2 * s.dt * distTo s.x s.N m c)) ∧
      ((∀ v, p v = v) → expect env isoRule 1 (fun q => ENNReal.ofReal (spread q.x q.N m)) s =
        ENNReal.ofReal ((1 - s.lamda * s.dt) ^ 2 * spread s.x s.N m + 2 * ((s.N : ℝ) - 1) * Fintype.card ι * s.sigma ^ 2 * s.dt * distTo s.x s.N m c)) := by
  obtain ⟨hw, hbs⟩ := std_reach hE hb h0 h
  obtain ⟨c, -, h2, h3, h4⟩ := ms_step_bound hE iso_coeff hw hbs hfull hm hsi hdt
  exact ⟨c, h2, h3, h4⟩

/-- **C76, one step, anisotropic noise.** The same without the factor `d`: the expected spread does not depend on the dimension. -/
theorem C76_step_anisotropic :
    ∃ c : ι → ℝ, (∀ z, ∃ s' i cm, step (withSample env anisoRule s.M s.N z) (cboInner (withSample env anisoRule s.M s.N z)) s = .ok s' ∧
        s.active.getD i 0 = m ∧ s'.cons = some cm ∧ cm.get i 0 = c) ∧
      (Shrinks p → expect env anisoRule 1 (fun q => ENNReal.ofReal (spread q.x q.N m)) s ≤
        ENNReal.ofReal ((1 - s.lamda * s.dt) ^ 2 * spread s.x s.N m + 2 * ((s.N : ℝ) - 1) * s.sigma ^ 2 * s.dt * distTo s.x s.N m c)) ∧
      ((∀ v, p v = v) → expect env anisoRule 1 (fun q => ENNReal.ofReal (spread q.x q.N m)) s =
        ENNReal.ofReal ((1 - s.lamda * s.dt) ^ 2 * spread s.x s.N m + 2 * ((s.N : ℝ) - 1) * s.sigma ^ 2 * s.dt * distTo s.x s.N m c)) := by
  obtain ⟨hw, hbs⟩ := std_reach hE hb h0 h
  obtain ⟨c, -, h2, h3, h4⟩ := ms_step_bound hE aniso_coeff hw hbs hfull hm hsi hdt
  rw [mul_one] at h3 h4
  exact ⟨c, h2, h3, h4⟩

/-- **C76, decay with isotropic noise.** After `k` steps the expected spread is at most `((1 - lamda·dt)² + (N - 1)·d·sigma²·dt)^k` times the spread at the start, for every objective, every
`alpha` and every initial ensemble; the probability that it is at least `ε` is bounded accordingly, and tends to zero if the factor is below one. -/
theorem C76_decay_isotropic (hp : Shrinks p) (q : ℝ) (hq : q = (1 - s.lamda * s.dt) ^ 2 + ((s.N : ℝ) - 1) * Fintype.card ι * s.sigma ^ 2 * s.dt) :
    (∀ k, expect env isoRule k (fun q => ENNReal.ofReal (spread q.x q.N m)) s ≤ ENNReal.ofReal (q ^ k * spread s.x s.N m)) ∧
    ∀ ε > 0, (∀ k, probSpread env isoRule k m ε s ≤ ENNReal.ofReal (q ^ k * spread s.x s.N m / ε)) ∧
      (q < 1 → Tendsto (fun k => probSpread env isoRule k m ε s) atTop (𝓝 0)) := by
  have hs := ms_reach env f ν p hE a hb s₀ s ops h0 h m hm hfull hsi
  have h1 := fun k => ms_upper hE hp iso_coeff (Nat.cast_nonneg _) hdt k s hs
  rw [← hq] at h1
  exact ⟨h1, ms_tail hE isoRule hs (by rw [hq]; have := hs.wf.pos; have h2 : (1 : ℝ) ≤ (s.N : ℝ) := (by exact_mod_cast this); have h3 : (0 : ℝ) ≤ (s.N : ℝ) - 1 := (by linarith); positivity) h1⟩

/-- **C76, decay with anisotropic noise.** The same with the factor `(1 - lamda·dt)² + (N - 1)·sigma²·dt`, in every dimension. -/
theorem C76_decay_anisotropic (hp : Shrinks p) (q : ℝ) (hq : q = (1 - s.lamda * s.dt) ^ 2 + ((s.N : ℝ) - 1) * s.sigma ^ 2 * s.dt) :
    (∀ k, expect env anisoRule k (fun q => ENNReal.ofReal (spread q.x q.N m)) s ≤ ENNReal.ofReal (q ^ k * spread s.x s.N m)) ∧
    ∀ ε > 0, (∀ k, probSpread env anisoRule k m ε s ≤ ENNReal.ofReal (q ^ k * spread s.x s.N m / ε)) ∧
      (q < 1 → Tendsto (fun k => probSpread env anisoRule k m ε s) atTop (𝓝 0)) := by
  have hs := ms_reach env f ν p hE a hb s₀ s ops h0 h m hm hfull hsi
  have h1 := fun k => ms_upper hE hp aniso_coeff zero_le_one hdt k s hs
  rw [mul_one, ← hq] at h1
  exact ⟨h1, ms_tail hE anisoRule hs (by rw [hq]; have := hs.wf.pos; have h2 : (1 : ℝ) ≤ (s.N : ℝ) := (by exact_mod_cast this); have h3 : (0 : ℝ) ≤ (s.N : ℝ) - 1 := (by linarith); positivity) h1⟩

/-- **C76, growth with isotropic noise.** Without clipping the expected spread after `k` steps is at least `((1 - lamda·dt)² + (1 - 1/N)·d·sigma²·dt)^k` times the spread at the start. For two or more
particles, `sigma ≠ 0` and `dt > 0` this factor exceeds one as soon as the dimension exceeds `N/(N-1)·(2 lamda - lamda² dt)/sigma²`, and then the expectation tends to infinity unless the ensemble is collapsed. -/
theorem C76_growth_isotropic (hp : ∀ v, p v = v) (q : ℝ) (hq : q = (1 - s.lamda * s.dt) ^ 2 + (1 - 1 / (s.N : ℝ)) * Fintype.card ι * s.sigma ^ 2 * s.dt) :
    (∀ k, ENNReal.ofReal (q ^ k * spread s.x s.N m) ≤ expect env isoRule k (fun q => ENNReal.ofReal (spread q.x q.N m)) s) ∧
    (0 < s.dt → (1 < q ↔ 2 * s.lamda - s.lamda ^ 2 * s.dt < (1 - 1 / (s.N : ℝ)) * Fintype.card ι * s.sigma ^ 2)) ∧
    (1 < q → 0 < spread s.x s.N m → Tendsto (fun k => expect env isoRule k (fun q => ENNReal.ofReal (spread q.x q.N m)) s) atTop (𝓝 ⊤)) := by
  have hs := ms_reach env f ν p hE a hb s₀ s ops h0 h m hm hfull hsi
  have h1 := fun k => ms_lower hE hp iso_coeff (Nat.cast_nonneg _) hdt k s hs
  rw [← hq] at h1
  refine ⟨h1, fun hd => ?_, fun h2 h3 => ms_blowup h1 h2 h3⟩
  rw [hq]
  constructor
  · intro h4
    nlinarith
  · intro h4
    have := mul_lt_mul_of_pos_right h4 hd
    nlinarith

/-- **C76, growth with anisotropic noise.** The factor is `(1 - lamda·dt)² + (1 - 1/N)·sigma²·dt`. -/
theorem C76_growth_anisotropic (hp : ∀ v, p v = v) (q : ℝ) (hq : q = (1 - s.lamda * s.dt) ^ 2 + (1 - 1 / (s.N : ℝ)) * s.sigma ^ 2 * s.dt) :
    (∀ k, ENNReal.ofReal (q ^ k * spread s.x s.N m) ≤ expect env anisoRule k (fun q => ENNReal.ofReal (spread q.x q.N m)) s) ∧
    (1 < q → 0 < spread s.x s.N m → Tendsto (fun k => expect env anisoRule k (fun q => ENNReal.ofReal (spread q.x q.N m)) s) atTop (𝓝 ⊤)) := by
  have hs := ms_reach env f ν p hE a hb s₀ s ops h0 h m hm hfull hsi
  have h1 := fun k => ms_lower hE hp aniso_coeff zero_le_one hdt k s hs
  rw [mul_one, ← hq] at h1
  exact ⟨h1, fun h2 h3 => ms_blowup h1 h2 h3⟩

end

/-- C76: two runs of four particles on the plane, `lamda = 1`, `dt = 1/10`, `sigma = 1/2`, after any number of steps: the hypotheses of the decay theorem are met and its factor is 0.96, the run 1 collapses in probability. -/
example (k : ℕ) : let env := Example.realEnv (rowNoise isoRule Example.smp)
    ∃ s₀ s, init env (Example.realArgs (fun m n => ![n, m]) (1 / 2) none) = .ok s₀ ∧ execAll env (cboInner env) (List.replicate k .step) s₀ = .ok s ∧
      ∀ ε > 0, Tendsto (fun k => probSpread env isoRule k 1 ε s) atTop (𝓝 0) := by
  intro env
  obtain ⟨s₀, h0, h1⟩ := Example.realEnv_runs isoRule (fun m n => ![(n : ℝ), m]) (1 / 2) none
  obtain ⟨s, hs⟩ := h1 (List.replicate k .step)
  have e0 : s₀.active = [0, 1] ∧ s₀.batched = false ∧ s₀.saveInt = 2 ∧ s₀.lamda = 1 ∧ s₀.dt = 1 / 10 ∧ s₀.sigma = 1 / 2 ∧ s₀.N = 4 := by
    have h0' := h0
    unfold init at h0'
    rw [if_neg (by simp [Example.realArgs])] at h0'
    injection h0' with h0'
    rw [← h0']
    exact ⟨rfl, rfl, rfl, rfl, rfl, rfl, rfl⟩
  have e1 : ∀ k q q', execAll env (cboInner env) (List.replicate k .step) q = .ok q' →
      q'.active = q.active ∧ q'.batched = q.batched ∧ q'.saveInt = q.saveInt ∧ q'.lamda = q.lamda ∧ q'.dt = q.dt ∧ q'.sigma = q.sigma ∧ q'.N = q.N := by
    intro k
    induction k with
    | zero =>
      intro q q' h
      injection h with h
      rw [h]
      exact ⟨rfl, rfl, rfl, rfl, rfl, rfl, rfl⟩
    | succ k ih =>
      intro q q' h
      simp only [List.replicate_succ, execAll, bind_ok] at h
      obtain ⟨r, h2, h3⟩ := h
      have fr := step_frame (by rw [cboInner_eq]; exact consThen_frame (cboMove_ok _)) h2
      obtain ⟨a1, a2, a3, a4, a5, a6, a7⟩ := ih r q' h3
      exact ⟨a1.trans fr.active, a2.trans fr.batched, a3.trans fr.saveInt, a4.trans fr.lamda, a5.trans fr.dt, a6.trans fr.sigma, a7.trans fr.N⟩
  obtain ⟨a1, a2, a3, a4, a5, a6, a7⟩ := e1 k s₀ s hs
  obtain ⟨b1, b2, b3, b4, b5, b6, b7⟩ := e0
  refine ⟨s₀, s, h0, hs, fun ε hε => ?_⟩
  refine ((C76_decay_isotropic env _ _ _ (Example.realEnv_standard isoRule) _ (by simp [Example.realArgs]) s₀ s _ h0 hs 1 (by rw [a1, b1]; simp)
    (Or.inl (by rw [a2, b2])) (by rw [a3, b3]; decide) (by rw [a5, b5]; norm_num) (clip_shrinks 100) _ rfl).2 ε hε).2 ?_
  rw [a4, b4, a5, b5, a6, b6, a7, b7]
  norm_num

/-- C76: the same ensemble without clipping and with `sigma = 3`: the factor of the growth theorem is 2.16, the ensemble is not collapsed and its expected spread tends to infinity. -/
example : let env := { Example.realEnv (rowNoise isoRule Example.smp) with post := fun s => .ok s.x }
    ∃ s₀, init env (Example.realArgs (fun m n => ![n, m]) 3 none) = .ok s₀ ∧
      Tendsto (fun k => expect env isoRule k (fun q => ENNReal.ofReal (spread q.x q.N 1)) s₀) atTop (𝓝 ⊤) := by
  intro env
  have e0 : ∃ s₀, init env (Example.realArgs (fun m n => ![n, m]) 3 none) = .ok s₀ ∧
      s₀.active = [0, 1] ∧ s₀.batched = false ∧ s₀.saveInt = 2 ∧ s₀.lamda = 1 ∧ s₀.dt = 1 / 10 ∧ s₀.sigma = 3 ∧ s₀.N = 4 ∧ s₀.x.get = fun (m n : ℕ) => ![(n : ℝ), (m : ℝ)] := by
    unfold init
    rw [if_neg (by simp [Example.realArgs])]
    exact ⟨_, rfl, rfl, rfl, rfl, rfl, rfl, rfl, rfl, rfl⟩
  obtain ⟨s₀, h0, b1, b2, b3, b4, b5, b6, b7, b8⟩ := e0
  have hE := Example.realEnv_standard isoRule
  have hE' : Standard env _ _ (fun v => v) := { corr := hE.corr, cons := hE.cons, noise := rowNoise_rows rfl, post := fun s => rfl, perm := hE.perm, f := hE.f }
  refine ⟨s₀, h0, ?_⟩
  refine (C76_growth_isotropic env _ _ _ hE' _ (by simp [Example.realArgs]) s₀ s₀ [] h0 rfl 1 (by rw [b1]; simp)
    (Or.inl b2) (by rw [b3]; decide) (by rw [b5]; norm_num) (fun _ => rfl) _ rfl).2.2 ?_ ?_
  · rw [b4, b5, b6, b7]
    norm_num
  · simp only [spread, b7, b8, Finset.sum_range_succ, Finset.sum_range_zero, Fin.sum_univ_two]
    norm_num

end Verif
