import Verif.Proofs.Cbs
import Verif.Props.Termination

/-! Property C64: consensus-based sampling. -/

set_option linter.unusedSectionVars false

namespace Verif

section
variable {K V : Type} [Zero K] [One K] [Neg K] [Add K] [Sub K] [Mul K] [Inv K] [Div K] [NatCast K] [Pow K ℕ] [LinearOrder K] [Add V] [Sub V] [SMul K V]

/-- **C64 (construction).** `CBS` refuses exactly the batched ensembles and the particles with several axes (and ensembles without particles);
otherwise the object has `sigma = 1` whatever was passed, no batches, all runs active: it is the `CBO` object constructed with `sigma = 1`. -/
theorem C64_construct (env : Env K V) (trail : ℕ) (tr : Option (List Track × ℕ)) (a : Args K V) :
    ((∃ e, cbsInit env trail tr a = .error e) ↔ a.x0.cols = 0 ∨ (∃ b, a.batchSize = some b ∧ b < a.x0.cols) ∨ 1 < trail) ∧
    (∀ σ, cbsInit env trail tr { a with sigma := σ } = cbsInit env trail tr a) ∧
    ∀ s, cbsInit env trail tr a = .ok s → s.sigma = 1 ∧ s.batched = false ∧ s.active = List.range s.M ∧ s.x = a.x0 ∧ s.M = a.x0.rows ∧
      s.terms = a.terms ∧ s.it = 0 ∧ init env { a with sigma := 1, tracks := (tr.getD ([], 1)).1, saveInt := (tr.getD ([], 1)).2 } = .ok s := by
  have hb : (batchSizeOf a.batchSize a.x0.cols ≠ a.x0.cols) ↔ ∃ b, a.batchSize = some b ∧ b < a.x0.cols := by
    cases h : a.batchSize with
    | none => simp [batchSizeOf]
    | some b =>
      simp only [batchSizeOf, Option.some.injEq, exists_eq_left']
      omega
  refine ⟨?_, ?_, ?_⟩
  · by_cases h0 : a.x0.cols = 0
    · simp [cbsInit, init, h0, bind, Except.bind]
    · by_cases h1 : batchSizeOf a.batchSize a.x0.cols = a.x0.cols
      · have h1' : ¬ ∃ b, a.batchSize = some b ∧ b < a.x0.cols := fun h => hb.2 h h1
        simp only [h0, h1', false_or]
        by_cases hc : a.checkF <;> by_cases ht : 1 < trail <;>
          simp [cbsInit, init, h0, bind, Except.bind, cbsCheck, initBatch, initHistory, checkFDims, callF, baseSt, h1, hc, ht]
      · have h1' := hb.1 h1
        simp only [h1', true_or, or_true, iff_true]
        by_cases hc : a.checkF <;>
          simp [cbsInit, init, h0, bind, Except.bind, cbsCheck, initBatch, initHistory, checkFDims, callF, baseSt, h1, hc]
  · intro σ
    by_cases h0 : a.x0.cols = 0
    · simp [cbsInit, init, h0, bind, Except.bind]
    · by_cases hc : a.checkF <;>
        simp [cbsInit, init, h0, bind, Except.bind, cbsCheck, initBatch, initHistory, checkFDims, callF, baseSt, hc, trackInit_eq]
  · intro s h
    by_cases h0 : a.x0.cols = 0
    · simp [cbsInit, init, h0, bind, Except.bind] at h
    · simp only [cbsInit, bind_ok] at h
      obtain ⟨s₀, h1, h2⟩ := h
      unfold cbsCheck at h2
      split_ifs at h2 with g1 g2
      injection h2 with h2
      have h3 : s₀.x = a.x0 ∧ s₀.M = a.x0.rows ∧ s₀.terms = a.terms ∧ s₀.it = 0 ∧ s₀.active = List.range a.x0.rows := by
        unfold init at h1
        split_ifs at h1 <;> (injection h1 with h1; rw [← h1]; exact ⟨rfl, rfl, rfl, rfl, rfl⟩)
      obtain ⟨k1, k2, k3, k4, k5⟩ := h3
      rw [← h2]
      refine ⟨rfl, by simpa using g1, by rw [k2]; exact k5, k1, k2, k3, k4, ?_⟩
      simp only [init, h0, if_false, Except.ok.injEq] at h1 ⊢
      rw [← h1]
      by_cases hc : a.checkF <;> simp [initBatch, initHistory, checkFDims, callF, baseSt, hc, trackInit_eq, cbsTracks]

end

section
variable {ι : Type} [Fintype ι] [DecidableEq ι]

open Matrix

/-- **C64 (run).** A `CBS` object with covariance noise (either mode, any `eigh`, any random outcomes), finite objective and stateless criteria
among them `max_it = n`: if there is a single run, or if all criteria treat the runs alike (`max_it`, `max_time`), then `run` ends after at most
`n` steps without an exception; with `max_it` as only criterion after exactly `n` steps. -/
theorem C64_run (env : Env ℝ (ι → ℝ)) (f : (ι → ℝ) → ℝ) (p : (ι → ℝ) → ι → ℝ) (eigh : Matrix ι ι ℝ → (ι → ℝ) × Matrix ι ι ℝ)
    (mode : String) (smp : ℕ → ℕ → ℕ → ι → ℝ) (hcorr : env.corr = .none) (hcons : env.cons = .mean consDefault)
    (hf : ∀ v, env.f v = .fin (f v)) (hnoise : env.noise = cbsNoise eigh mode smp) (hpm : PostMap env p) (hp : PermOK env)
    (hs : ∀ s, ∃ q, env.sched s = .ok q) (trail : ℕ) (tr : Option (List Track × ℕ)) (htr : (tr.getD ([], 1)).2 ≠ 0) (a : Args ℝ (ι → ℝ))
    (s₀ : St ℝ (ι → ℝ)) (h0 : cbsInit env trail tr a = .ok s₀) (n : ℕ) (hn : Term.maxIt (some n) ∈ a.terms)
    (hst : ∀ tm ∈ a.terms, Stateless tm) (hu : a.x0.rows = 1 ∨ ∀ tm ∈ a.terms, RunBlind tm) :
    ∃ s, cbsRun env (n + 1) s₀ = .done s ∧ s.it ≤ n ∧ s.active = [] ∧
      (a.terms = [.maxIt (some n)] → 0 < a.x0.rows → s.it = n) := by
  obtain ⟨-, -, hc⟩ := C64_construct env trail tr a
  obtain ⟨c1, c2, c3, c4, c5, c6, c7, hq⟩ := hc s₀ h0
  have hw : WF s₀ := init_wf hp hq
  have hsi : s₀.saveInt ≠ 0 := by
    have : s₀.saveInt = (tr.getD ([], 1)).2 := by
      unfold init at hq
      split_ifs at hq <;> (injection hq with hq; rw [← hq]; rfl)
    rw [this]; exact htr
  have hnr := cbsRun_not_raised hcorr hcons hf hnoise hpm hp hs hst hu (n + 1) s₀ ⟨hw, c5, c6, c2, hsi⟩
  have hi : InnerFrame (cboInner env) := by rw [cboInner_eq]; exact consThen_frame (cboMove_ok env)
  rcases C01_max_it env (cboInner env) hi n (n + 1) s₀ (by rw [c6]; exact hn) (by omega) with ⟨e, he⟩ | ⟨s, hd, k, hk, r, -, -, h1, h2⟩
  · exact absurd he (hnr e)
  · refine ⟨s, hd, by omega, h2, fun ht hM => ?_⟩
    obtain ⟨-, -, -, h3⟩ := C01_max_it_exact env (cboInner env) hi n (n + 1) s₀ s (by rw [c6]; exact ht) (by omega) hd
    omega

/-- **C64 (step, modes).** A `CBS` object with the scheduler of `CBS`, finite objective, without correction: in every step from every reachable state with all runs active, all particles of run `m`
move by `x ↦ p(x - lamda·dt·(x - c) + F ξ)`, without a factor `sigma`, where `ξ` is the sample vector of the particle and `F Fᵀ` is the weighted covariance of the ensemble around the consensus
point `c`, times `2·dt·(1 + alpha)` in the mode 'sampling' and times `2·dt` in every other mode. -/
theorem C64_step (env : Env ℝ (ι → ℝ)) (f : (ι → ℝ) → ℝ) (p : (ι → ℝ) → ι → ℝ) (eigh : Matrix ι ι ℝ → (ι → ℝ) × Matrix ι ι ℝ) (he : EighOK eigh)
    (mode : String) (smp : ℕ → ℕ → ℕ → ι → ℝ) (hcorr : env.corr = .none) (hcons : env.cons = .mean consDefault)
    (hf : ∀ v, env.f v = .fin (f v)) (hnoise : env.noise = cbsNoise eigh mode smp) (hsched : env.sched = cbsDefaultSched) (hpm : PostMap env p) (hp : PermOK env)
    (trail : ℕ) (tr : Option (List Track × ℕ)) (a : Args ℝ (ι → ℝ)) (s₀ s s' : St ℝ (ι → ℝ)) (ops : List Op) (h0 : cbsInit env trail tr a = .ok s₀)
    (h : execAll env (cboInner env) ops s₀ = .ok s) (hact : s.active = List.range s.M) (hs : step env (cboInner env) s = .ok s')
    (m : ℕ) (hm : m < s.M) (k : ℝ) (hk : k = if mode = "sampling" then 1 + a.alpha else 1) (hdt : 0 ≤ a.dt * k) :
    ∃ (c : ι → ℝ) (F : Matrix ι ι ℝ), (∃ cm, s'.cons = some cm ∧ cm.get m 0 = c) ∧
      F * Fᵀ = (2 * a.dt * k) • weightedCov (a.alpha) s.N (fun n => f (s.x.get m n)) (s.x.get m) c ∧
      ∀ n < s.N, s'.x.get m n = p (s.x.get m n - (a.lamda * a.dt) • (s.x.get m n - c) + F *ᵥ smp s.draws m n) := by
  obtain ⟨-, -, hc⟩ := C64_construct env trail tr a
  obtain ⟨c1, c2, c3, c4, c5, c6, c7, hq⟩ := hc s₀ h0
  have hi : InnerFrame (cboInner env) := by rw [cboInner_eq]; exact consThen_frame (cboMove_ok env)
  have h00 : s₀.alpha = (fun _ => a.alpha) ∧ s₀.lamda = a.lamda ∧ s₀.dt = a.dt := by
    unfold init at hq
    split_ifs at hq <;> (injection hq with hq; rw [← hq]; exact ⟨rfl, rfl, rfl⟩)
  have hpar : s.sigma = 1 ∧ s.batched = false ∧ s.alpha = (fun _ => a.alpha) ∧ s.lamda = a.lamda ∧ s.dt = a.dt := by
    have h' := h
    rw [cboInner_eq] at h'
    refine (execAll_induct (cboMove_ok env) hpm.ok hp (P := fun q => q.sigma = 1 ∧ q.batched = false ∧ q.alpha = (fun _ => a.alpha) ∧ q.lamda = a.lamda ∧ q.dt = a.dt) ?_ ops s₀ s
      (init_wf hp hq) ⟨c1, c2, h00⟩ h').2
    rintro o q q' - hq1 hx
    cases o with
    | step =>
      have fr := step_frame (consThen_frame (cboMove_ok env)) hx
      rw [fr.sigma, fr.batched, fr.alpha, fr.lamda, fr.dt]; exact hq1
    | select => rw [select_frame hx]; exact hq1
    | sched =>
      simp only [exec, schedUpdate, bind_ok, pure_ok, hsched, cbsDefaultSched] at hx
      obtain ⟨pp, h1, h2⟩ := hx
      injection h1 with h1
      rw [← h2, ← h1]; exact hq1
    | reset =>
      simp only [exec] at hx
      injection hx with hx
      rw [← hx]; exact hq1
  obtain ⟨q1, q2, q3, q4, q5⟩ := hpar
  have hk' : k = if decide (mode = "sampling") = true then 1 + s.alpha m else 1 := by
    rw [hk, q3]
    by_cases hmd : mode = "sampling" <;> simp [hmd]
  obtain ⟨c, F, r1, r2, r3⟩ := C52_step env f p eigh he _ smp hcorr hcons hf hnoise hpm hp _ s₀ s s' ops hq h hact q2 hs m hm (by rw [← hk', q5]; exact hdt)
  rw [← hk'] at r2
  rw [q3, q5] at r2
  refine ⟨c, F, r1, r2, fun n hn => ?_⟩
  rw [r3 n hn, q1, q4, q5, one_smul]

/-- **C64 does not hold with criteria that stop single runs.** As soon as the check of the criteria leaves some but not all runs of a `CBS` object
active, `run` raises. -/
theorem C64_stopped_false (env : Env ℝ (ι → ℝ)) (p : (ι → ℝ) → ι → ℝ) (eigh : Matrix ι ι ℝ → (ι → ℝ) × Matrix ι ι ℝ)
    (mode : String) (smp : ℕ → ℕ → ℕ → ι → ℝ) (hcorr : env.corr = .none) (hcons : env.cons = .mean consDefault)
    (hnoise : env.noise = cbsNoise eigh mode smp) (hpm : PostMap env p) (hp : PermOK env) (trail : ℕ) (tr : Option (List Track × ℕ))
    (a : Args ℝ (ι → ℝ)) (s₀ s q : St ℝ (ι → ℝ)) (h0 : cbsInit env trail tr a = .ok s₀) (ops : List Op)
    (h : execAll env (cboInner env) ops s₀ = .ok s) (hsel : selectActive env s = .ok q) (hk : 0 < q.active.length) (hM : q.active.length < q.M)
    (fuel : ℕ) : ∃ e, cbsRun env (fuel + 1) s = .raised e := by
  obtain ⟨-, -, hc⟩ := C64_construct env trail tr a
  obtain ⟨c1, c2, c3, c4, c5, c6, c7, hq⟩ := hc s₀ h0
  have hex : execAll env (cboInner env) (ops ++ [.select]) s₀ = .ok q := by
    rw [execAll_append]
    refine ⟨s, h, ?_⟩
    simp only [execAll, bind_ok]
    exact ⟨q, hsel, rfl⟩
  have hno := C19_covariance_stopped_false env p eigh _ smp hcorr hcons hnoise hpm hp _ s₀ q _ hq hex hk hM
  simp only [cbsRun, optimize, hsel]
  rw [if_neg (by omega)]
  cases hst : step env (cboInner env) q with
  | error e => exact ⟨e, rfl⟩
  | ok s' => exact absurd hst (hno s')

end

/-- C64: two runs of four particles on the plane, `max_it = 7`, argument `sigma = 3`: the constructor succeeds and the hypotheses of `C64_run` are met. -/
example (eigh : Matrix (Fin 2) (Fin 2) ℝ → (Fin 2 → ℝ) × Matrix (Fin 2) (Fin 2) ℝ) :
    let env := Example.realEnv (cbsNoise eigh "optimization" Example.smp)
    ∃ s₀ s, cbsInit env 1 none { Example.realArgs (fun m n => ![n, m]) 3 none with terms := [.maxIt (some 7)] } = .ok s₀ ∧ s₀.M = 2 ∧
      cbsRun env 8 s₀ = .done s ∧ s.it = 7 := by
  intro env
  have h0 : ∃ s₀, cbsInit env 1 none { Example.realArgs (fun m n => ![n, m]) 3 none with terms := [.maxIt (some 7)] } = .ok s₀ ∧ s₀.M = 2 := by
    unfold cbsInit init
    rw [if_neg (by simp [Example.realArgs])]
    exact ⟨_, rfl, rfl⟩
  obtain ⟨s₀, h0, hM⟩ := h0
  obtain ⟨hpm, hp⟩ := Example.covEnv_facts eigh (decide ("optimization" = "sampling"))
  obtain ⟨s, hs, -, -, hi⟩ := C64_run env (fun v => v 0 ^ 2 + v 1 ^ 2) (clipVec 100) eigh "optimization" Example.smp rfl rfl (fun _ => rfl) rfl hpm hp
    (fun s => ⟨_, rfl⟩) 1 none (by decide) _ s₀ h0 7 (by simp) (by simp [Stateless]) (Or.inr (by simp [RunBlind]))
  exact ⟨s₀, s, h0, hM, hs, hi rfl (by simp [Example.realArgs])⟩

/-- C64: the hypotheses of `C64_step` are met by the first step of two runs of four particles on the plane in either mode, with a correct `eigh`. -/
example (mode : String) : ∃ eigh : Matrix (Fin 2) (Fin 2) ℝ → (Fin 2 → ℝ) × Matrix (Fin 2) (Fin 2) ℝ, EighOK eigh ∧
    let env := { Example.realEnv (cbsNoise eigh mode Example.smp) with sched := cbsDefaultSched }
    ∃ s₀ s', cbsInit env 1 none (Example.realArgs (fun m n => ![n, m]) 3 none) = .ok s₀ ∧ s₀.M = 2 ∧ s₀.active = List.range s₀.M ∧
      step env (cboInner env) s₀ = .ok s' := by
  obtain ⟨eigh, he⟩ := eigh_exists (ι := Fin 2)
  refine ⟨eigh, he, ?_⟩
  intro env
  have h0 : ∃ s₀, cbsInit env 1 none (Example.realArgs (fun m n => ![n, m]) 3 none) = .ok s₀ ∧ s₀.M = 2 ∧ s₀.saveInt ≠ 0 := by
    unfold cbsInit init
    rw [if_neg (by simp [Example.realArgs])]
    exact ⟨_, rfl, rfl, show (1 : ℕ) ≠ 0 by omega⟩
  obtain ⟨s₀, h0, hM, hsi⟩ := h0
  obtain ⟨c1, c2, c3, -, -, -, -, hq⟩ := (C64_construct env 1 none _).2.2 s₀ h0
  obtain ⟨s', hs⟩ := C19_covariance_partial env (fun v => v 0 ^ 2 + v 1 ^ 2) (clipVec 100) eigh _ Example.smp rfl rfl
    (fun _ => rfl) rfl (fun _ => rfl) (Example.perm_ok (cbsNoise eigh mode Example.smp)) _ s₀ s₀ [] hq rfl (by omega) c3 c2 hsi
  exact ⟨s₀, s', h0, hM, c3, hs⟩

/-- C64: two runs with energy tolerance 1, run 0 at the origin: after one step exactly run 1 is active, so the hypotheses of `C64_stopped_false` are met. -/
example (eigh : Matrix (Fin 2) (Fin 2) ℝ → (Fin 2 → ℝ) × Matrix (Fin 2) (Fin 2) ℝ) :
    let env := Example.realEnv (cbsNoise eigh "sampling" Example.smp)
    ∃ s₀ s e, cbsInit env 1 (some ([.x, .energy], 2)) { Example.realArgs (fun m n => ![5 * m, n * m]) 3 none with terms := [.energyTol (.fin 1)] } = .ok s₀ ∧
      execAll env (cboInner env) [.step] s₀ = .ok s ∧ cbsRun env 1 s = .raised e := by
  intro env
  obtain ⟨s₀, q, h0, hM0, hM, hex, hact, -⟩ := Example.covStopped eigh 1
  obtain ⟨hpm, hp⟩ := Example.covEnv_facts eigh true
  have hc : cbsInit env 1 (some ([.x, .energy], 2)) { Example.realArgs (fun m n => ![5 * m, n * m]) 3 none with terms := [.energyTol (.fin 1)] } = .ok s₀ := by
    have : ∃ s, cbsInit env 1 (some ([.x, .energy], 2)) { Example.realArgs (fun m n => ![5 * m, n * m]) 3 none with terms := [.energyTol (.fin 1)] } = .ok s := by
      unfold cbsInit init
      rw [if_neg (by simp [Example.realArgs])]
      exact ⟨_, rfl⟩
    obtain ⟨s, hs⟩ := this
    have := ((C64_construct env 1 _ _).2.2 s hs).2.2.2.2.2.2.2
    rw [hs, ← this, ← h0]
    rfl
  simp only [execAll, bind_ok] at hex
  obtain ⟨s, h1, q', h2, h3⟩ := hex
  injection h3 with h3
  subst h3
  have hs : execAll env (cboInner env) [.step] s₀ = .ok s := by
    simp only [execAll, bind_ok]
    exact ⟨s, h1, rfl⟩
  obtain ⟨e, he⟩ := C64_stopped_false env (clipVec 100) eigh "sampling" Example.smp rfl rfl rfl hpm hp 1 _ _ s₀ s q' hc [.step] hs h2
    (by rw [hact]; decide) (by rw [hact, hM]; decide) 0
  exact ⟨s₀, s, e, hc, hs, he⟩

end Verif
