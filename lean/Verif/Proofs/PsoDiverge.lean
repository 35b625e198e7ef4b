import Verif.Proofs.MemRun

/-! Helper lemmas for property C61: the swarm of a `PSO` without noise and without memory term is only scaled. -/

set_option linter.unusedSectionVars false

namespace Verif

variable {K V : Type} [Field K] [LinearOrder K] [IsStrictOrderedRing K] [AddCommGroup V] [Module K V]

/-- All differences of positions and velocities in `s` are common multiples of the differences of positions in `x₀`; `k` steps have been made. -/
structure Scaled (q : K) (x₀ : Mat V) (k : ℕ) (s : St K V) (a b : K) : Prop where
  big : (1 + q) ^ k ≤ a
  nonneg : 0 ≤ b
  x : ∀ m < s.M, ∀ i < s.N, ∀ j < s.N, s.x.get m i - s.x.get m j = a • (x₀.get m i - x₀.get m j)
  v : ∀ m < s.M, ∀ i < s.N, ∀ j < s.N, s.aux2.get m i - s.aux2.get m j = b • (x₀.get m i - x₀.get m j)

/-- One step. -/
theorem pso_scaled_step {env : Env K V} (hcorr : env.corr = .none) {g : List (K × Flt K × V) → V} (hg : env.cons = .mean g)
    {ν : ℕ → K → ℕ → ℕ → V → V} (hν : NoiseRows env ν) (hpm : PostMap env id) {p : PsoPar K} (hm : 0 < p.m) (hga : 0 ≤ p.gamma) (hl0 : p.lm = 0) (hs0 : p.sm = 0)
    {s s' : St K V} (w : MemPlain s) (hvs : VShape s) (ha : s.active ≠ []) (hlam : 0 < s.lamda) (hdt : 0 < s.dt) (hsg : s.sigma = 0)
    {x₀ : Mat V} {k : ℕ} {a b : K} (h0 : Scaled (s.lamda * s.dt ^ 2 / (p.m + p.gamma * s.dt)) x₀ k s a b) (h : psoStep env p s = .ok s') :
    ∃ a' b', Scaled (s.lamda * s.dt ^ 2 / (p.m + p.gamma * s.dt)) x₀ (k + 1) s' a' b' := by
  obtain ⟨-, r⟩ := psoStep_runs hcorr hg hν hpm w hvs ha h
  have hpos : 0 < p.m + p.gamma * s.dt := by have := mul_nonneg hga hdt.le; linarith
  have hq : 0 < s.lamda * s.dt ^ 2 / (p.m + p.gamma * s.dt) := by positivity
  have ha0 : 0 ≤ a := (pow_nonneg (by linarith) k).trans h0.big
  -- difference of the new velocities
  have hvel : ∀ m < s.M, ∀ i < s.N, ∀ j < s.N, ((s.runPar env g ν m).psoVel p (s.memRun m) i) - ((s.runPar env g ν m).psoVel p (s.memRun m) j) =
      ((p.m + p.gamma * s.dt)⁻¹ * (p.m * s.dt * b + s.lamda * s.dt * a)) • (x₀.get m i - x₀.get m j) := by
    intro m hm' i hi j hj
    simp only [RunPar.psoVel, St.runPar, St.memRun, hl0, hs0, hsg, zero_mul, zero_smul, add_zero]
    rw [← smul_sub, mul_smul (p.m + p.gamma * s.dt)⁻¹, add_smul, mul_smul (p.m * s.dt) b, ← h0.v m hm' i hi j hj, mul_smul (s.lamda * s.dt) a, ← h0.x m hm' i hi j hj]
    congr 1
    simp only [smul_sub]
    abel
  refine ⟨a + s.dt * ((p.m + p.gamma * s.dt)⁻¹ * (p.m * s.dt * b + s.lamda * s.dt * a)),
    (p.m + p.gamma * s.dt)⁻¹ * (p.m * s.dt * b + s.lamda * s.dt * a), ?_, ?_, ?_, ?_⟩
  · have e : a + s.dt * ((p.m + p.gamma * s.dt)⁻¹ * (p.m * s.dt * b + s.lamda * s.dt * a)) =
        a * (1 + s.lamda * s.dt ^ 2 / (p.m + p.gamma * s.dt)) + (p.m + p.gamma * s.dt)⁻¹ * (p.m * s.dt ^ 2 * b) := by
      rw [div_eq_mul_inv]; ring
    rw [e, pow_succ]
    have h1 := mul_le_mul_of_nonneg_right h0.big (show 0 ≤ 1 + s.lamda * s.dt ^ 2 / (p.m + p.gamma * s.dt) by linarith)
    have h2 : 0 ≤ (p.m + p.gamma * s.dt)⁻¹ * (p.m * s.dt ^ 2 * b) :=
      mul_nonneg (inv_nonneg.2 hpos.le) (mul_nonneg (by positivity) h0.nonneg)
    linarith
  · exact mul_nonneg (inv_nonneg.2 hpos.le) (add_nonneg (mul_nonneg (by positivity) h0.nonneg) (mul_nonneg (by positivity) ha0))
  · intro m hm' i hi j hj
    rw [r.frame.M] at hm'
    have hi' := hi; have hj' := hj
    rw [r.frame.N] at hi hj
    rw [(r.runs m hm').x i hi', (r.runs m hm').x j hj']
    simp only [RunPar.psoNext, RunPar.remember, id]
    rw [add_smul, mul_smul s.dt, ← hvel m hm' i hi j hj, ← h0.x m hm' i hi j hj]
    simp only [St.memRun, St.runPar, smul_sub]
    abel
  · intro m hm' i hi j hj
    rw [r.frame.M] at hm'
    have hi' := hi; have hj' := hj
    rw [r.frame.N] at hi hj
    rw [(r.runs m hm').v i hi', (r.runs m hm').v j hj']
    exact hvel m hm' i hi j hj

/-- The loop. -/
theorem pso_scaled {env : Env K V} (hcorr : env.corr = .none) {g : List (K × Flt K × V) → V} (hg : env.cons = .mean g)
    {ν : ℕ → K → ℕ → ℕ → V → V} (hν : NoiseRows env ν) (hpm : PostMap env id) {ga : K → K} (hsched : SchedLocal env ga id id id)
    {p : PsoPar K} (hm : 0 < p.m) (hga : 0 ≤ p.gamma) (hl0 : p.lm = 0) (hs0 : p.sm = 0) {la dt : K} (hlam : 0 < la) (hdt : 0 < dt) {x₀ : Mat V} :
    ∀ (fuel : ℕ) (s s' : St K V) (a b : K), MemPlain s → VShape s → s.lamda = la → s.dt = dt → s.sigma = 0 →
      Scaled (la * dt ^ 2 / (p.m + p.gamma * dt)) x₀ s.it s a b → optimizeBy env (psoStep env p) fuel s = .done s' →
      s'.M = s.M ∧ s'.N = s.N ∧ ∃ a' b', Scaled (la * dt ^ 2 / (p.m + p.gamma * dt)) x₀ s'.it s' a' b' := by
  intro fuel
  induction fuel with
  | zero => intro s s' _ _ _ _ _ _ _ _ h; exact nomatch h
  | succ fuel ih =>
    intro s s' a b w hv e1 e2 e3 h0 h
    simp only [optimizeBy] at h
    cases h1 : selectActive env s with
    | error e => simp [h1] at h
    | ok q =>
      simp only [h1] at h
      have wq := memPlain_select w h1
      have fq := select_frame h1
      have hq : Scaled (la * dt ^ 2 / (p.m + p.gamma * dt)) x₀ q.it q a b := by rw [fq]; exact ⟨h0.big, h0.nonneg, h0.x, h0.v⟩
      have vq : VShape q := by rw [fq]; exact hv
      have qM : q.M = s.M := by rw [fq]
      have qN : q.N = s.N := by rw [fq]
      have q1 : q.lamda = la := by rw [fq]; exact e1
      have q2 : q.dt = dt := by rw [fq]; exact e2
      have q3 : q.sigma = 0 := by rw [fq]; exact e3
      by_cases hz : q.active.length = 0
      · rw [if_pos hz] at h
        injection h with h
        subst h
        exact ⟨qM, qN, a, b, hq⟩
      · rw [if_neg hz] at h
        cases h2 : psoStep env p q with
        | error e => simp [h2] at h
        | ok r =>
          simp only [h2] at h
          cases h3 : schedUpdate env r with
          | error e => simp [h3] at h
          | ok c =>
            simp only [h3] at h
            have hne : q.active ≠ [] := fun hc => hz (by rw [hc]; rfl)
            obtain ⟨-, f⟩ := psoStep_runs hcorr hg hν hpm wq vq hne h2
            have fr := f.frame
            obtain ⟨a', b', hr⟩ := pso_scaled_step hcorr hg hν hpm hm hga hl0 hs0 wq vq hne (by rw [q1]; exact hlam) (by rw [q2]; exact hdt) q3
              (by rw [q1, q2]; exact hq) h2
            rw [q1, q2, ← fr.it] at hr
            have wc := memPlain_sched f.shape h3
            simp only [schedUpdate, hsched r, bind_ok, pure_ok] at h3
            obtain ⟨_, hz', rfl⟩ := h3
            injection hz' with hz'
            subst hz'
            obtain ⟨i1, i2, i3⟩ := ih _ s' a' b' wc (f.vshape vq) (by rw [← q1]; exact fr.lamda) (by rw [← q2]; exact fr.dt) (by rw [← q3]; exact fr.sigma)
              ⟨hr.big, hr.nonneg, hr.x, hr.v⟩ h
            exact ⟨i1.trans (fr.M.trans qM), i2.trans (fr.N.trans qN), i3⟩

theorem memInit_data {env : Env K V} {a : Args K V} {s : St K V} (h : memInit env a = .ok s) :
    s.lamda = a.lamda ∧ s.sigma = a.sigma ∧ s.x = a.x0 ∧ ∀ m n, s.aux2.get m n = a.aux2 (a.x0.get m n) := by
  simp only [memInit, bind_ok, pure_ok] at h
  obtain ⟨s₀, h0, rfl⟩ := h
  unfold init at h0
  split_ifs at h0
  all_goals
    injection h0 with h0
    subst h0
    exact ⟨rfl, rfl, rfl, fun _ _ => rfl⟩

end Verif
