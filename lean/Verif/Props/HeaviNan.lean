import Verif.Props.Correction
import Verif.Proofs.HeaviTotal
import Verif.Model.Post

/-! # C54: the Heaviside corrections with NaN and infinite energies -/

set_option linter.unusedSectionVars false

namespace Verif

/-- **C54, regularised, all energies.** The factor of `heavi_side_reg` is a number exactly when the gap `energy - f(consensus)` is one, i.e. unless one of the two energies is NaN or both are the same infinity; then it lies
between 0 and 1, and it is 1 when the particle's energy is `+inf` and 0 when the energy of the consensus is. -/
theorem C54_regularised_all (eps : ℝ) (he : 0 < eps) (e c : Flt ℝ) :
    (regFactorFlt eps (Flt.sub e c) = .nan ↔ e = .nan ∨ c = .nan ∨ (e = .pinf ∧ c = .pinf) ∨ (e = .ninf ∧ c = .ninf)) ∧
    (regFactorFlt eps (Flt.sub e c) ≠ .nan → ∃ r, regFactorFlt eps (Flt.sub e c) = .fin r ∧ 0 ≤ r ∧ r ≤ 1) ∧
    ((∃ r, c = .fin r) → e = .pinf → regFactorFlt eps (Flt.sub e c) = .fin 1) ∧ ((∃ r, e = .fin r) → c = .pinf → regFactorFlt eps (Flt.sub e c) = .fin 0) := by
  refine ⟨?_, ?_, ?_, ?_⟩
  · cases e <;> cases c <;> simp [Flt.sub, Flt.add, Flt.neg, regFactorFlt]
  · have key : ∀ z : Flt ℝ, z ≠ .nan → ∃ r, regFactorFlt eps z = .fin r ∧ 0 ≤ r ∧ r ≤ 1 := by
      intro z hz
      cases z with
      | nan => exact absurd rfl hz
      | ninf => exact ⟨_, rfl, by simp [regFactor], by simp [regFactor]⟩
      | pinf => exact ⟨_, rfl, by norm_num [regFactor], by norm_num [regFactor]⟩
      | fin z =>
        have h := tanh_bounds (z / eps)
        refine ⟨_, rfl, ?_, ?_⟩ <;> simp only [regFactor] <;> linarith
    intro h
    refine key _ fun h0 => h ?_
    rw [h0]
    rfl
  · rintro ⟨r, rfl⟩ rfl
    simp only [Flt.sub, Flt.add, Flt.neg, regFactorFlt, regFactor]
    norm_num
  · rintro ⟨r, rfl⟩ rfl
    simp only [Flt.sub, Flt.add, Flt.neg, regFactorFlt, regFactor]
    norm_num

section
variable {ι : Type}

/-- **C54, disagreement.** With `heavi_side_reg` and default post processing a particle whose energy gap is NaN — for instance because the objective is `+inf` both at the particle and at the consensus point — is not left where it
is: all its coordinates become NaN, which post processing replaces by `max_thresh`. -/
theorem C54_regularised_nan_false (env : Env ℝ (ι → Flt ℝ)) (eps : ℝ) (hg : env.corr = .heavi (heaviRegFlt eps)) (r : List (ℝ × Flt ℝ × (ι → Flt ℝ)) → ι → Flt ℝ) (hr : env.cons = .mean r)
    (hp : PermOK env) (big T : ℝ) (hT : 0 ≤ T) (hpost : env.post = postDefault false big T) (s s' : St ℝ (ι → Flt ℝ)) (hw : WF s) (hb : s.batched = false) (hall : s.active.length = s.M)
    (h : step env (cboInner env) s = .ok s') :
    ∃ c, s'.cons = some c ∧ ∀ m < s.M, ∀ n < s.N, Flt.sub (env.f (s.x.get m n)) (env.f (c.get m 0)) = .nan → ∀ i, s'.x.get m n i = .fin T := by
  obtain ⟨c, d, nz, h1, -, h2⟩ := heavi_ieee env _ hg r hr hp big T hpost s s' hw hb hall h
  refine ⟨c, h1, fun m hm n hn hz i => ?_⟩
  obtain ⟨k1, k2⟩ := h2 m hm n hn
  rw [k2, k1, hz]
  have e : ∀ a b : Flt ℝ, a + ((-s.lamda * s.dt) • heaviRegFlt eps .nan (s.x.get m n - c.get m 0) i + b) = .nan := by
    intro a b
    show Flt.add a (Flt.add (Flt.mul (.fin _) .nan) b) = .nan
    cases a <;> rfl
  rw [e]
  simp only [postCoord, Flt.nanToNum]
  have : ¬ T < -T := by linarith
  simp [Flt.clip, Flt.maximum, Flt.minimum, Flt.isNaN, Flt.lt, this]

/-- **C54, sharp variant, NaN gaps.** With `heavi_side` the drift of such a particle is 0 (if its distance to the consensus is finite). -/
theorem C54_heaviside_nan (env : Env ℝ (ι → Flt ℝ)) (hg : env.corr = .heavi heaviG) (r : List (ℝ × Flt ℝ × (ι → Flt ℝ)) → ι → Flt ℝ) (hr : env.cons = .mean r)
    (hp : PermOK env) (big T : ℝ) (hpost : env.post = postDefault false big T) (s s' : St ℝ (ι → Flt ℝ)) (hw : WF s) (hb : s.batched = false) (hall : s.active.length = s.M)
    (h : step env (cboInner env) s = .ok s') :
    ∃ c d, s'.cons = some c ∧ s'.drift = some d ∧ ∀ m < s.M, ∀ n < s.N, Flt.sub (env.f (s.x.get m n)) (env.f (c.get m 0)) = .nan → ∀ i a b,
      s.x.get m n i = .fin a → c.get m 0 i = .fin b → d.get m n i = .fin 0 := by
  obtain ⟨c, d, nz, h1, h1', h2⟩ := heavi_ieee env _ hg r hr hp big T hpost s s' hw hb hall h
  refine ⟨c, d, h1, h1', fun m hm n hn hz i a b ha hb => ?_⟩
  obtain ⟨k1, -⟩ := h2 m hm n hn
  rw [k1, hz]
  show Flt.mul (.fin _) (Flt.sub (s.x.get m n i) (c.get m 0 i)) = .fin 0
  rw [ha, hb]
  simp [Flt.gt, Flt.lt, Flt.sub, Flt.add, Flt.neg, Flt.mul]

end

/-- C54 with infinite energies: a line where the objective is `+inf` everywhere except near 0, one run of three particles far away, consensus in the middle of the particles, no noise. -/
noncomputable def Example.infEnv : Env ℝ (Fin 1 → Flt ℝ) where
  f v := if v 0 = .fin 0 then .fin 0 else .pinf
  cons := .mean fun l => (l.map fun p => p.2.2).getD 1 fun _ => .nan
  noise s := match s.drift with | none => .error .attribute | some d => .ok (d.map fun _ _ => .fin 0)
  corr := .heavi (heaviRegFlt (1 / 1000))
  post := postDefault false 1000000 100
  normDiff _ := .fin 0
  sqrtK := Real.sqrt
  perm N c m j := j
  sampler _ _ _ := fun _ => .fin 0
  custom _ _ _ := false
  sched s := .ok { alpha := s.alpha, lamda := s.lamda, sigma := s.sigma, dt := s.dt }

/-- Arguments of `Example.infEnv`. -/
noncomputable def Example.infArgs : Args ℝ (Fin 1 → Flt ℝ) where
  x0 := ⟨1, 3, fun _ n _ => .fin (n + 5)⟩
  alpha := 3
  lamda := 1
  sigma := 1
  dt := 1 / 10
  terms := [.maxIt (some 7)]
  tracks := []
  saveInt := 1
  batchSize := none
  batchPartial := true
  batchConcat := false
  checkF := true

/-- C54: the first step in this situation succeeds and moves all particles to the corner of the domain. -/
example : ∃ s₀ s', init Example.infEnv Example.infArgs = .ok s₀ ∧ step Example.infEnv (cboInner Example.infEnv) s₀ = .ok s' ∧
    ∀ n < 3, s₀.x.get 0 n 0 = .fin (n + 5) ∧ s'.x.get 0 n 0 = .fin 100 := by
  have hperm : PermOK Example.infEnv := fun N c m j hj => hj
  obtain ⟨s₀, h0, e1, e2, e3, e4⟩ := init_total Example.infEnv (a := Example.infArgs) (by simp [Example.infArgs])
  have hw := init_wf hperm h0
  obtain ⟨hx, hact, hbat⟩ : s₀.x = Example.infArgs.x0 ∧ s₀.active = [0] ∧ s₀.batched = false := by
    have h0' := h0
    unfold init at h0'
    rw [if_neg (by simp [Example.infArgs])] at h0'
    injection h0' with h0'
    subst h0'
    exact ⟨rfl, rfl, rfl⟩
  have hM : s₀.M = 1 := e3
  have hN : s₀.N = 3 := e4
  obtain ⟨s', h'⟩ := heaviStep_total (env := Example.infEnv) rfl ⟨_, rfl⟩ (fun s d hd => by simp only [Example.infEnv, hd]; exact ⟨_, rfl, rfl, rfl⟩)
    (fun s => ⟨_, rfl, rfl, rfl⟩) hperm hw (by rw [e1]; decide) (fun h => by cases h) (.inl hbat) (.inr hM)
  refine ⟨s₀, s', h0, h', ?_⟩
  intro n hn
  obtain ⟨c, hc, hmv⟩ := C54_regularised_nan_false Example.infEnv (1 / 1000) rfl _ rfl hperm 1000000 100 (by norm_num) rfl s₀ s' hw hbat (by rw [hact, hM]; rfl) h'
  refine ⟨by rw [hx]; rfl, hmv 0 (by omega) n (by omega) ?_ 0⟩
  have hcx : c.get 0 0 = s₀.x.get 0 1 := by
    rw [cboInner_eq] at h'
    obtain ⟨v, hv, hs⟩ := step_split.1 h'
    obtain ⟨k, hk, hmv⟩ := consThen_split.1 hv
    have mf := (cboMove_ok Example.infEnv).frame _ _ hmv
    have pf := (postStep_facts hs).frame
    have p1 := preStep_frame Example.infEnv s₀
    have ix := preStep_idx Example.infEnv hperm hw
    have pact : (preStep Example.infEnv s₀).active = s₀.active := by rw [p1]
    have px : (preStep Example.infEnv s₀).x = s₀.x := by rw [p1]
    obtain ⟨cm, hcm, -, -, hget⟩ := computeConsensus_mean (r := fun l => (l.map fun p => p.2.2).getD 1 fun _ => .nan) rfl (by rw [pact]; exact ix.cRows) hk
    have e : s'.cons = k.cons := by
      rw [pf]; simp only
      unfold MoveFrame at mf
      rw [mf]
    rw [e, hcm] at hc
    injection hc with hc
    subst hc
    obtain ⟨q1, q2, q3, q4, q5⟩ := (preStep_pIdx Example.infEnv s₀ hw).2.2 hbat
    rw [hget 0 (by rw [pact, hact]; decide)]
    unfold sampleOf
    rw [← q1, q3, q4 0 (by rw [hact]; decide), px, hN, hact]
    simp only [q5]
    rfl
  rw [hcx, hx]
  have q : ∀ k : ℕ, Example.infEnv.f (Example.infArgs.x0.get 0 k) = .pinf := by
    intro k
    have : (k : ℝ) + 5 ≠ 0 := by positivity
    simp [Example.infEnv, Example.infArgs, this]
  rw [q, q]
  rfl

end Verif
