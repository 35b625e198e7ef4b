import Verif.Proofs.MemHull

/-! Property C92: `CBOMemory` without noise: hull, absorption, and why consensus need not be reached; absorption for `PSO`. -/

set_option linter.unusedSectionVars false

namespace Verif

section
variable {V : Type} [AddCommGroup V] [Module ℝ V]

/-- **C92 (hull).** `CBOMemory` with `sigma = sigma_memory = 0`, `lamda*dt` and `lamda_memory*dt` in `[0, 1]` (kept by the scheduler), without batches: positions and historical best positions of
run `m` stay in every convex set that contains the initial ensemble of the run and is mapped into itself by the post processing, after every sequence of operations in which `step` is only
called while a run is active. -/
theorem C92_hull (env : Env ℝ V) (f : V → ℝ) (ν : ℕ → ℝ → ℕ → ℕ → V → V) (p : V → V) (hE : Standard env f ν p) (lm sm : ℝ) (a : Args ℝ V) (ha : a.aux1 = id)
    (hb : batchSizeOf a.batchSize a.x0.cols = a.x0.cols) (hn : NoiseFree a.sigma a.lamda a.dt ∧ NoiseFree sm lm a.dt)
    (hsched : ∀ q r, NoiseFree q.sigma q.lamda q.dt ∧ NoiseFree sm lm q.dt → env.sched q = .ok r → NoiseFree r.sigma r.lamda r.dt ∧ NoiseFree sm lm r.dt)
    (s₀ s : St ℝ V) (ops : List Op) (h0 : memInit env a = .ok s₀) (hl : Live env (memStep env lm sm) ops s₀) (h : execAllBy env (memStep env lm sm) ops s₀ = .ok s)
    (S : Set V) (hS : Convex ℝ S) (hpS : ∀ v ∈ S, p v ∈ S) (m : ℕ) (hm : m < a.x0.rows) (hx : ∀ n < a.x0.cols, a.x0.get m n ∈ S) :
    ∀ n < s.N, s.x.get m n ∈ S ∧ s.aux1.get m n ∈ S := by
  obtain ⟨eM, eN, es, el, ed, ex, ey, -, ee⟩ := memInit_arrays hE.f h0
  have hP : MemIn S m s₀ ∧ NoiseFree s₀.sigma s₀.lamda s₀.dt ∧ NoiseFree sm lm s₀.dt :=
    ⟨⟨by rw [eM]; exact hm, fun n _ => ⟨_, ee m n⟩, fun n hn => by rw [ex]; exact hx n (by rw [← eN]; exact hn),
      fun n hn => by rw [ey, ha]; exact hx n (by rw [← eN]; exact hn)⟩, by rw [es, el, ed]; exact hn.1, by rw [ed]; exact hn.2⟩
  obtain ⟨-, -, hi, -⟩ := mem_induct (P := fun q : St ℝ V => MemIn S m q ∧ NoiseFree q.sigma q.lamda q.dt ∧ NoiseFree sm lm q.dt)
    (fun q q' w v hact hq hst => by
      obtain ⟨h1, h2⟩ := memIn_step hE w hact hpS hq.1
        (fun n hn => memMove_mem hq.2.1 hq.2.2 hS (hq.1.point w hS) (hq.1.x n hn) (hq.1.y n hn)) hst
      exact ⟨h2.shape, h2.vshape v, h1, by rw [h2.frame.sigma, h2.frame.lamda, h2.frame.dt]; exact hq.2.1, by rw [h2.frame.dt]; exact hq.2.2⟩)
    (fun q q' sa pf hq => by
      refine ⟨hq.1.same sa, ?_⟩
      rcases pf with ⟨-, e1, e2, e3⟩ | ⟨r, hr, -, e1, e2, e3⟩
      · rw [e1, e2, e3]; exact hq.2
      · rw [e1, e2, e3]; exact hsched q r hq.2 hr)
    hl (memInit_plain hb h0) (memInit_facts h0).1 hP h
  exact fun n hn => ⟨hi.x n hn, hi.y n hn⟩

/-- **C92 (absorption).** `CBOMemory` and `PSO` without batches, with a noise that vanishes with the drift, any `sigma`, `lamda`, `dt` and any scheduler: if in a reachable state all
particles of run `m` and all their historical best positions are at one point that the post processing keeps (and, for `PSO`, all velocities are zero), this remains so for ever, whatever the
random numbers. -/
theorem C92_absorbing (env : Env ℝ V) (f : V → ℝ) (ν : ℕ → ℝ → ℕ → ℕ → V → V) (p : V → V) (hE : Standard env f ν p) (hz : ∀ c dt i j, ν c dt i j 0 = 0) (lm sm : ℝ)
    (pp : PsoPar ℝ) (a : Args ℝ V) (hb : batchSizeOf a.batchSize a.x0.cols = a.x0.cols) (s₀ s s' : St ℝ V) (ops ops' : List Op) (h0 : memInit env a = .ok s₀)
    (m : ℕ) (hm : m < a.x0.rows) (c : V) (hc : p c = c) (hx : ∀ n < s.N, s.x.get m n = c ∧ s.aux1.get m n = c) :
    (Live env (memStep env lm sm) ops s₀ → execAllBy env (memStep env lm sm) ops s₀ = .ok s → Live env (memStep env lm sm) ops' s →
      execAllBy env (memStep env lm sm) ops' s = .ok s' → ∀ n < s.N, s'.x.get m n = c ∧ s'.aux1.get m n = c) ∧
    (Live env (psoStep env pp) ops s₀ → execAllBy env (psoStep env pp) ops s₀ = .ok s → (∀ n < s.N, s.aux2.get m n = 0) → Live env (psoStep env pp) ops' s →
      execAllBy env (psoStep env pp) ops' s = .ok s' → ∀ n < s.N, s'.x.get m n = c ∧ s'.aux1.get m n = c ∧ s'.aux2.get m n = 0) := by
  obtain ⟨eM, -, -, -, -, -, -, -, ee⟩ := memInit_arrays hE.f h0
  have hpS : ∀ v ∈ ({c} : Set V), p v ∈ ({c} : Set V) := fun v hv => by rw [Set.mem_singleton_iff] at hv ⊢; rw [hv, hc]
  have hsing := convex_singleton (𝕜 := ℝ) c
  have hI0 : MemIn (V := V) Set.univ m s₀ := ⟨by rw [eM]; exact hm, fun n _ => ⟨_, ee m n⟩, fun _ _ => trivial, fun _ _ => trivial⟩
  constructor
  · intro hl1 h1 hl2 h2
    obtain ⟨w, v, hi⟩ := mem_induct (P := MemIn (V := V) Set.univ m)
      (fun q q' w v hact hq hst => by
        obtain ⟨h1, h2⟩ := memIn_step (S := Set.univ) hE w hact (fun _ _ => trivial) hq (fun _ _ => trivial) hst
        exact ⟨h2.shape, h2.vshape v, h1⟩) (fun q q' sa _ hq => hq.same sa) hl1 (memInit_plain hb h0) (memInit_facts h0).1 hI0 h1
    obtain ⟨-, -, hi', hN⟩ := mem_induct (P := fun q : St ℝ V => MemIn {c} m q ∧ q.N = s.N)
      (fun q q' w v hact hq hst => by
        obtain ⟨h1, h2⟩ := memIn_step hE w hact hpS hq.1 (fun n hn => by
          have hp := Set.mem_singleton_iff.1 (hq.1.point (env := env) (ν := ν) w hsing)
          have e1 := Set.mem_singleton_iff.1 (hq.1.x n hn)
          have e2 := Set.mem_singleton_iff.1 (hq.1.y n hn)
          rw [Set.mem_singleton_iff]
          simp only [RunPar.memMove, hp]
          simp only [St.memRun, St.runPar, e1, e2, sub_self, hz, smul_zero, add_zero]) hst
        exact ⟨h2.shape, h2.vshape v, h1, by rw [h2.frame.N]; exact hq.2⟩) (fun q q' sa _ hq => ⟨hq.1.same sa, by rw [sa.N]; exact hq.2⟩) hl2 w v
      ⟨⟨hi.lt, hi.e, fun n hn => (hx n hn).1, fun n hn => (hx n hn).2⟩, rfl⟩ h2
    exact fun n hn => ⟨hi'.x n (by rw [hN]; exact hn), hi'.y n (by rw [hN]; exact hn)⟩
  · intro hl1 h1 hv0 hl2 h2
    obtain ⟨w, v, hi⟩ := mem_induct (P := MemIn (V := V) Set.univ m)
      (fun q q' w v hact hq hst => by
        obtain ⟨h1, h2⟩ := psoIn_step (S := Set.univ) hE w v hact (fun _ _ => trivial) hq (fun _ _ => trivial) hst
        exact ⟨h2.shape, h2.vshape v, h1⟩) (fun q q' sa _ hq => hq.same sa) hl1 (memInit_plain hb h0) (memInit_facts h0).1 hI0 h1
    obtain ⟨-, -, hi', hvl, hN⟩ := mem_induct (P := fun q : St ℝ V => MemIn {c} m q ∧ (∀ n < q.N, q.aux2.get m n = 0) ∧ q.N = s.N)
      (fun q q' w v hact hq hst => by
        have hvel : ∀ n < q.N, (q.runPar env consDefault ν m).psoVel pp (q.memRun m) n = 0 := fun n hn => by
          have hp := Set.mem_singleton_iff.1 (hq.1.point (env := env) (ν := ν) w hsing)
          have e1 := Set.mem_singleton_iff.1 (hq.1.x n hn)
          have e2 := Set.mem_singleton_iff.1 (hq.1.y n hn)
          simp only [RunPar.psoVel, hp]
          simp only [St.memRun, St.runPar, e1, e2, hq.2.1 n hn, sub_self, hz, smul_zero, add_zero]
        obtain ⟨h1, h2⟩ := psoIn_step hE w v hact hpS hq.1 (fun n hn => by
          rw [hvel n hn, smul_zero, add_zero]; exact hq.1.x n hn) hst
        refine ⟨h2.shape, h2.vshape v, h1, ?_, by rw [h2.frame.N]; exact hq.2.2⟩
        rw [h2.frame.N]
        intro n hn
        rw [(h2.runs m hq.1.lt).v n (by rw [h2.frame.N]; exact hn)]
        exact hvel n hn)
      (fun q q' sa _ hq => ⟨hq.1.same sa, by rw [sa.N, sa.v]; exact hq.2.1, by rw [sa.N]; exact hq.2.2⟩) hl2 w v
      ⟨⟨hi.lt, hi.e, fun n hn => (hx n hn).1, fun n hn => (hx n hn).2⟩, hv0, rfl⟩ h2
    exact fun n hn => ⟨hi'.x n (by rw [hN]; exact hn), hi'.y n (by rw [hN]; exact hn), hvl n (by rw [hN]; exact hn)⟩

/-- **C92 (no consensus).** Full claim (C24 for `CBO`): without noise the differences between the particles of a run shrink by a fixed factor in every step. For `CBOMemory` this is false as soon as
`lamda_memory*dt > 0`: if all particles of run `m` start at minimisers of the objective, then after any number of steps all differences of positions are the initial ones times one factor `θ ≥ lamda_memory*dt`, which
tends to `lamda_memory*dt / (1 - (1 - lamda*dt)(1 - lamda_memory*dt))`, and the historical best positions are the initial positions. -/
theorem C92_contract_false (env : Env ℝ V) (f : V → ℝ) (ν : ℕ → ℝ → ℕ → ℕ → V → V) (p : V → V) (hE : Standard env f ν p) (lm sm : ℝ) (a : Args ℝ V) (ha : a.aux1 = id)
    (hb : batchSizeOf a.batchSize a.x0.cols = a.x0.cols) (hn : NoiseFree a.sigma a.lamda a.dt) (hn' : NoiseFree sm lm a.dt)
    (S : Set V) (hS : Convex ℝ S) (hpS : ∀ v ∈ S, p v = v) (m : ℕ) (hm : m < a.x0.rows) (hx : ∀ n < a.x0.cols, a.x0.get m n ∈ S)
    (hmin : ∀ n < a.x0.cols, ∀ v, f (a.x0.get m n) ≤ f v) (k : ℕ) (s₀ s : St ℝ V) (h0 : memInit env a = .ok s₀)
    (hl : Live env (memStep env lm sm) (List.replicate k .step) s₀) (h : execAllBy env (memStep env lm sm) (List.replicate k .step) s₀ = .ok s) :
    ∃ θ : ℝ, lm * a.dt ≤ θ ∧ θ ≤ 1 ∧
      θ * (1 - (1 - a.lamda * a.dt) * (1 - lm * a.dt)) = lm * a.dt + ((1 - a.lamda * a.dt) * (1 - lm * a.dt)) ^ k * (1 - (1 - a.lamda * a.dt) * (1 - lm * a.dt) - lm * a.dt) ∧
      ∀ n < s.N, s.aux1.get m n = a.x0.get m n ∧ ∀ n' < s.N, s.x.get m n - s.x.get m n' = θ • (a.x0.get m n - a.x0.get m n') := by
  obtain ⟨eM, eN, es, el, ed, ex, ey, -, ee⟩ := memInit_arrays hE.f h0
  have hst : Stuck f (a.x0.get m) S m 1 s₀ := ⟨by rw [eM]; exact hm, fun n hn => by rw [ex]; exact hx n (by rw [← eN]; exact hn), fun n _ => by rw [ey, ha]; rfl, fun n _ => ee m n,
    fun n _ n' _ => by rw [ex, ex, one_smul]⟩
  rw [← el, ← ed]
  rw [← es, ← el, ← ed] at hn
  rw [← ed] at hn'
  rw [← eN] at hx hmin
  have w := memInit_plain hb h0
  clear h0 ee ex ey es el ed eM eN hb ha
  set A := (1 - s₀.lamda * s₀.dt) * (1 - lm * s₀.dt) with hA
  have hA0 : 0 ≤ A := mul_nonneg (by linarith [hn.2.2]) (by linarith [hn'.2.2])
  have hA1 : A + lm * s₀.dt ≤ 1 := by
    have : A ≤ 1 * (1 - lm * s₀.dt) := mul_le_mul_of_nonneg_right (by linarith [hn.2.1]) (by linarith [hn'.2.2])
    linarith
  suffices ∀ (k j : ℕ) (θ : ℝ) (q : St ℝ V), lm * s₀.dt ≤ θ → θ ≤ 1 → θ * (1 - A) = lm * s₀.dt + A ^ j * (1 - A - lm * s₀.dt) → MemPlain q → Stuck f (a.x0.get m) S m θ q →
      q.sigma = s₀.sigma → q.lamda = s₀.lamda → q.dt = s₀.dt → q.N = s₀.N → Live env (memStep env lm sm) (List.replicate k .step) q →
      execAllBy env (memStep env lm sm) (List.replicate k .step) q = .ok s →
      ∃ θ : ℝ, lm * s₀.dt ≤ θ ∧ θ ≤ 1 ∧ θ * (1 - A) = lm * s₀.dt + A ^ (j + k) * (1 - A - lm * s₀.dt) ∧
      ∀ n < s.N, s.aux1.get m n = a.x0.get m n ∧ ∀ n' < s.N, s.x.get m n - s.x.get m n' = θ • (a.x0.get m n - a.x0.get m n') by
    have := this k 0 1 s₀ hn'.2.2 le_rfl (by ring) w hst rfl rfl rfl rfl hl h
    rwa [Nat.zero_add] at this
  intro k
  induction k with
  | zero =>
    intro j θ q h1 h2 h3 _ hq _ _ _ _ _ h
    simp only [List.replicate_zero, execAllBy] at h
    injection h with h
    subst h
    exact ⟨θ, h1, h2, h3, fun n hn => ⟨hq.y n hn, fun n' hn' => hq.diff n hn n' hn'⟩⟩
  | succ k ih =>
    intro j θ q h1 h2 h3 w hq e1 e2 e3 e4 hl h
    simp only [List.replicate_succ, execAllBy, bind_ok] at h
    obtain ⟨q', hq', h⟩ := h
    rw [List.replicate_succ] at hl
    obtain ⟨l1, l2⟩ := hl
    obtain ⟨i1, i2, i3⟩ := stuck_step hE w (l1 rfl) (by rw [e1, e2, e3]; exact hn) (by rw [e3]; exact hn') hS hpS (by rw [e4]; exact hx) (by rw [e4]; exact hmin) hq hq'
    rw [e2, e3, ← hA] at i1
    have hθ0 : 0 ≤ θ := hn'.2.1.trans h1
    have hAθ : A * θ ≤ A := mul_le_of_le_one_right hA0 h2
    have := ih (j + 1) (A * θ + lm * s₀.dt) q' (by linarith [mul_nonneg hA0 hθ0]) (by linarith) (by rw [pow_succ]; linear_combination A * h3) i2 i1 (by rw [i3.sigma, e1])
      (by rw [i3.lamda, e2]) (by rw [i3.dt, e3]) (by rw [i3.N, e4]) (l2 q' hq') h
    rwa [show j + 1 + k = j + (k + 1) by omega] at this

end

/-- Objective `(v₀² - 1)²` on the plane, with two lines of minimisers. -/
noncomputable def Example.valleyEnv : Env ℝ (Fin 2 → ℝ) := { Example.realEnv (rowNoise isoRule Example.smp) with f := fun v => .fin ((v 0 ^ 2 - 1) ^ 2) }

theorem Example.valley_standard : Standard Example.valleyEnv (fun v => (v 0 ^ 2 - 1) ^ 2) (fun c dt i j d => Real.sqrt dt • isoRule d (Example.smp c i j)) (clipVec 100) where
  corr := rfl
  cons := rfl
  noise := by
    intro s d hd
    simp only [Example.valleyEnv, Example.realEnv, rowNoise, hd]
    exact ⟨_, rfl, rfl, rfl, fun _ _ => rfl⟩
  post _ := rfl
  perm := Example.perm_ok (rowNoise isoRule Example.smp)
  f _ := rfl

theorem Example.valley_ok : EnvOK Example.valleyEnv := ⟨rfl, ⟨_, rfl⟩, Example.valley_standard.noise.ok, fun s => ⟨_, rfl, rfl, rfl⟩, fun s => ⟨_, rfl⟩⟩

/-- C92 (hull): two runs of four particles in the unit square, no noise, any number of steps; all steps succeed and all particles and memories stay in the square. -/
example (k : ℕ) : ∃ s₀ s, memInit Example.valleyEnv (Example.realArgs (fun m n => ![1 / ((n : ℝ) + m + 1), 1 / (n + 1)]) 0 none) = .ok s₀ ∧
    execAllBy Example.valleyEnv (memStep Example.valleyEnv (1 / 2) 0) (List.replicate k .step) s₀ = .ok s ∧
    ∀ n < s.N, ∀ i, (0 ≤ s.x.get 1 n i ∧ s.x.get 1 n i ≤ 1) ∧ 0 ≤ s.aux1.get 1 n i ∧ s.aux1.get 1 n i ≤ 1 := by
  set a := Example.realArgs (fun m n => ![1 / ((n : ℝ) + m + 1), 1 / (n + 1)]) 0 none with ha
  obtain ⟨s₀, s, h0, hl, h, hsN⟩ := memSteps_total Example.valley_ok (1 / 2) 0 (a := a) rfl (by simp [a, Example.realArgs]) (by simp [a, Example.realArgs]) (by simp [a, Example.realArgs]) k
  have hnf : NoiseFree a.sigma a.lamda a.dt ∧ NoiseFree (0 : ℝ) (1 / 2) a.dt := by
    constructor <;> simp only [NoiseFree, a, Example.realArgs] <;> norm_num
  have := C92_hull Example.valleyEnv _ _ _ Example.valley_standard (1 / 2) 0 a rfl rfl hnf (fun q r h hr => by
      simp only [Example.valleyEnv, Example.realEnv, Except.ok.injEq] at hr
      subst hr
      exact h) s₀ s _ h0 hl h (Set.Icc 0 1) (convex_Icc _ _) (fun v hv => by
      rw [clipVec_id]
      · exact hv
      · intro i
        have h1 := hv.1 i
        have h2 := hv.2 i
        simp only [Pi.zero_apply, Pi.one_apply] at h1 h2
        constructor <;> linarith) 1 (by simp [a, Example.realArgs]) (fun n _ => by
      have hn : (0 : ℝ) ≤ n := Nat.cast_nonneg n
      constructor
      · intro i; fin_cases i <;> simp [a, Example.realArgs] <;> positivity
      · intro i
        fin_cases i
        · simp only [a, Example.realArgs]
          show 1 / ((n : ℝ) + (1 : ℕ) + 1) ≤ 1
          rw [div_le_one (by positivity)]; push_cast; linarith
        · simp only [a, Example.realArgs]
          show 1 / ((n : ℝ) + 1) ≤ 1
          rw [div_le_one (by positivity)]; linarith)
  exact ⟨s₀, s, h0, h, fun n hn i => ⟨⟨(this n hn).1.1 i, (this n hn).1.2 i⟩, (this n hn).2.1 i, (this n hn).2.2 i⟩⟩

/-- C92 (absorption): with strong noise in both terms, run 1 starts at `(5, -7)` and stays there; run 0 is spread out. -/
example (k : ℕ) : ∃ s₀ s, memInit Example.valleyEnv (Example.realArgs (fun m n => if m = 0 then ![n, 2 - n] else ![5, -7]) 3 none) = .ok s₀ ∧
    execAllBy Example.valleyEnv (memStep Example.valleyEnv (1 / 2) 4) (List.replicate k .step) s₀ = .ok s ∧ ∀ n < 4, s.x.get 1 n = ![5, -7] ∧ s.aux1.get 1 n = ![5, -7] := by
  set a := Example.realArgs (fun m n => if m = 0 then ![(n : ℝ), 2 - n] else ![5, -7]) 3 none with ha
  obtain ⟨s₀, s, h0, hl, h, hsN⟩ := memSteps_total Example.valley_ok (1 / 2) 4 (a := a) rfl (by simp [a, Example.realArgs]) (by simp [a, Example.realArgs]) (by simp [a, Example.realArgs]) k
  obtain ⟨-, eN, -, -, -, ex, ey, -⟩ := memInit_arrays Example.valley_standard.f h0
  have := (C92_absorbing Example.valleyEnv _ _ _ Example.valley_standard (fun c dt i j => by rw [isoRule_zero, smul_zero]) (1 / 2) 4 ⟨1, 1, 1, 1⟩ a rfl s₀ s₀ s [] _ h0 1
    (by simp [a, Example.realArgs]) ![5, -7] (clipVec_id 100 _ (by intro i; fin_cases i <;> norm_num)) (fun n _ => ⟨ex 1 n, ey 1 n⟩)).1 trivial rfl hl h
  rw [eN] at this
  exact ⟨s₀, s, h0, h, this⟩

/-- C92 (no consensus): two groups of particles at the two lines of minimisers; after any number of steps without noise they are still at least `1/10` apart. -/
example (k : ℕ) : ∃ s₀ s, memInit Example.valleyEnv (Example.realArgs (fun _ n => ![(-1) ^ n, n]) 0 none) = .ok s₀ ∧
    execAllBy Example.valleyEnv (memStep Example.valleyEnv (1 / 2) 0) (List.replicate k .step) s₀ = .ok s ∧ 1 / 10 ≤ s.x.get 0 0 0 - s.x.get 0 1 0 := by
  set a := Example.realArgs (fun _ n => ![(-1) ^ n, n]) 0 none with ha
  obtain ⟨s₀, s, h0, hl, h, hsN⟩ := memSteps_total Example.valley_ok (1 / 2) 0 (a := a) rfl (by simp [a, Example.realArgs]) (by simp [a, Example.realArgs]) (by simp [a, Example.realArgs]) k
  have h4 : ∀ v : Fin 2 → ℝ, v ∈ Set.Icc (fun _ => (-100 : ℝ)) (fun _ => 100) → clipVec 100 v = v := fun v hv => clipVec_id 100 v fun i => ⟨hv.1 i, hv.2 i⟩
  obtain ⟨θ, h1, -, -, h3⟩ := C92_contract_false Example.valleyEnv _ _ _ Example.valley_standard (1 / 2) 0 a rfl rfl (by simp only [NoiseFree, a, Example.realArgs]; norm_num)
    (by simp only [NoiseFree, a, Example.realArgs]; norm_num) _ (convex_Icc _ _) h4 0 (by simp [a, Example.realArgs]) (fun n hn => by
      have hn : n < 4 := hn
      constructor <;> intro i <;> interval_cases n <;> fin_cases i <;> simp [a, Example.realArgs] <;> norm_num) (fun n hn v => by
      have hn : n < 4 := hn
      have : (((-1 : ℝ) ^ n) ^ 2 - 1) ^ 2 = 0 := by rw [← pow_mul, mul_comm, pow_mul]; norm_num
      show (((-1 : ℝ) ^ n) ^ 2 - 1) ^ 2 ≤ _
      rw [this]; positivity) k s₀ s h0 hl h
  refine ⟨s₀, s, h0, h, ?_⟩
  have hsN : s.N = 4 := hsN
  have e := congrFun ((h3 0 (by rw [hsN]; norm_num)).2 1 (by rw [hsN]; norm_num)) 0
  have e' : s.x.get 0 0 0 - s.x.get 0 1 0 = θ * 2 := by
    rw [Pi.sub_apply] at e
    rw [e]
    simp only [a, Example.realArgs, Pi.smul_apply, Pi.sub_apply, smul_eq_mul]
    norm_num
  have h1 : (1 / 2 : ℝ) * (1 / 10) ≤ θ := h1
  rw [e']
  linarith

end Verif
