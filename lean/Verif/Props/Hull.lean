import Verif.Proofs.Noise
import Verif.Props.Consensus
import Verif.Spec.ExampleReal

/-! Properties C23 (consensus is absorbing) and C24 (noise-free dynamics stays in the hull and contracts). -/

set_option linter.unusedSectionVars false

namespace Verif

section
variable {V : Type} [AddCommGroup V] [Module ℝ V]

theorem exec_x {env : Env ℝ V} {inner : St ℝ V → Except Err (St ℝ V)} {o : Op} {s s' : St ℝ V} (ho : o ≠ .step)
    (h : exec env inner o s = .ok s') : s'.x = s.x := by
  cases o with
  | step => exact absurd rfl ho
  | select => have f := select_frame h; rw [f]
  | sched => have f := sched_frame h; rw [f]
  | reset =>
    simp only [exec] at h
    injection h with h
    subst h
    rfl

theorem absorb_step {env : Env ℝ V} {f : V → ℝ} {p : V → V} (hcorr : env.corr = .none) (hcons : env.cons = .mean consDefault)
    (hf : ∀ v, env.f v = .fin (f v)) (hsh : NoiseShape env) (hz : NoiseVanish env) (hpm : PostMap env p) (hp : PermOK env)
    {s s' : St ℝ V} (hw : WF s) (hb : 1 ≤ s.batchSize) {m : ℕ} {v : V} (hv : p v = v)
    (hx : ∀ n < s.N, s.x.get m n = v) (h : step env (cboInner env) s = .ok s') :
    ∀ n < s.N, s'.x.get m n = v := by
  intro k hk
  obtain ⟨c, d, n, xm, cs⟩ := cboStep_facts hcorr hsh hcons hp hw h
  have fr := step_frame (by rw [cboInner_eq]; exact consThen_frame (cboMove_ok env)) h
  have hix := preStep_idx env hp hw
  have hpost : s'.x.get m k = p (xm.get m k) := by
    obtain ⟨q, hq1, hq2⟩ := cs.post
    rw [hpm q, hq1] at hq2
    injection hq2 with hq2
    rw [← hq2]; rfl
  rw [hpost]
  suffices xm.get m k = v by rw [this, hv]
  by_cases hsel : s'.pIdx.Sel m k
  · obtain ⟨i, hi, j, hj, e1, e2, e3⟩ := cs.sel m k hsel
    have hmi : s.active.getD i 0 = m := by
      rw [← e1, fr.pIdx, hix.pRun i hi]
    have hcv : c.get i 0 = v := by
      rw [cs.cget i hi]
      have hl : sampleOf env { s with cIdx := s'.cIdx } i =
          finSample (s.alpha m) ((List.range s'.cIdx.cols).map fun j =>
            (f (s.x.get (s'.cIdx.run i) (s'.cIdx.par i j)), s.x.get (s'.cIdx.run i) (s'.cIdx.par i j))) := by
        simp only [sampleOf, finSample, List.map_map, hmi]
        apply List.map_congr_left
        intro j _
        simp only [Function.comp_apply, hf]
      rw [hl]
      have := C20_convex (s.alpha m) ((List.range s'.cIdx.cols).map fun j =>
            (f (s.x.get (s'.cIdx.run i) (s'.cIdx.par i j)), s.x.get (s'.cIdx.run i) (s'.cIdx.par i j)))
        (by
          intro h0
          have := congrArg List.length h0
          simp only [List.length_map, List.length_range, List.length_nil] at this
          rw [fr.cIdx, hix.cCols] at this
          omega) {v} (convex_singleton v) (by
          intro q hq
          simp only [List.mem_map, List.mem_range] at hq
          obtain ⟨j, hj, rfl⟩ := hq
          rw [Set.mem_singleton_iff]
          simp only
          have hin := hix.cIn i (by rw [hix.cRows]; exact hi) j (by rw [← fr.cIdx]; exact hj)
          rw [fr.cIdx, hix.cRun i hi, hmi]
          exact hx _ hin.2)
      exact Set.mem_singleton_iff.1 this
    have hd0 : ∀ j < d.cols, d.get i j = 0 := by
      intro j hj
      rw [cs.dc] at hj
      rw [cs.dget i hi j hj, hcv]
      have hin := hix.pIn i (by rw [hix.pRows]; exact hi) j (by rw [← fr.pIdx]; exact hj)
      rw [fr.pIdx, hix.pRun i hi, hmi, hx _ hin.2, sub_self]
    obtain ⟨q, q1, q2, -⟩ := cs.noise
    have hn0 := hz q d n q2 q1 (by rw [cs.nr, cs.dr]) i (by rw [cs.dr]; exact hi) hd0 j (by rw [cs.dc]; exact hj)
    rw [e3, hn0, hd0 j (by rw [cs.dc]; exact hj), hx k hk]
    simp [cboUpdate]
  · rw [cs.unsel m k hsel, hx k hk]

/-- **C23.** CBO with the default consensus rule, no correction, a finite objective and a noise model that vanishes with the
drift: if at some time all particles of run `m` coincide at a point `v` that the post processing keeps (for the default
clipping: a point in the allowed box), then they coincide at `v` after every further sequence of steps, checks, scheduler
updates and resets, for every outcome of the random number generators (these are arbitrary in `env`). -/
theorem C23_absorbing (env : Env ℝ V) (f : V → ℝ) (p : V → V) (hcorr : env.corr = .none)
    (hcons : env.cons = .mean consDefault) (hf : ∀ v, env.f v = .fin (f v)) (hsh : NoiseShape env) (hz : NoiseVanish env)
    (hpm : PostMap env p) (hp : PermOK env) (a : Args ℝ V) (hb : a.batchSize ≠ some 0) (s₀ s s' : St ℝ V)
    (ops ops' : List Op) (h0 : init env a = .ok s₀) (h1 : execAll env (cboInner env) ops s₀ = .ok s) (m : ℕ) (v : V)
    (hv : p v = v) (hx : ∀ n < s.N, s.x.get m n = v) (h2 : execAll env (cboInner env) ops' s = .ok s') :
    ∀ n < s.N, s'.x.get m n = v := by
  rw [cboInner_eq] at h1 h2
  obtain ⟨hw, hbs⟩ := execAll_induct (cboMove_ok env) hpm.ok hp (P := fun s => 1 ≤ s.batchSize)
    (fun o s s' _ hs h => by rw [(exec_bs (consThen_frame (cboMove_ok env)) h).1]; exact hs) ops s₀ s (init_wf hp h0)
    (init_bs hb h0) h1
  obtain ⟨-, -, hN, hx'⟩ := execAll_induct (cboMove_ok env) hpm.ok hp
    (P := fun q => 1 ≤ q.batchSize ∧ q.N = s.N ∧ ∀ n < q.N, q.x.get m n = v)
    (fun o q q' hwq hq h => by
      obtain ⟨e1, -, e3⟩ := exec_bs (consThen_frame (cboMove_ok env)) h
      refine ⟨by rw [e1]; exact hq.1, by rw [e3]; exact hq.2.1, ?_⟩
      rw [e3]
      by_cases ho : o = .step
      · subst ho
        rw [← cboInner_eq] at h
        exact absorb_step hcorr hcons hf hsh hz hpm hp hwq hq.1 hv hq.2.2 h
      · rw [exec_x ho h]; exact hq.2.2) ops' s s' hw ⟨hbs, rfl, hx⟩ h2
  rw [← hN]; exact hx'

/-- The noise is switched off and the drift step does not overshoot. -/
def NoiseFree (sigma lamda dt : ℝ) : Prop := sigma = 0 ∧ 0 ≤ lamda * dt ∧ lamda * dt ≤ 1

theorem hull_step {env : Env ℝ V} {f : V → ℝ} {ν : ℕ → ℝ → ℕ → ℕ → V → V} {p : V → V} (hE : Standard env f ν p)
    {s s' : St ℝ V} (hw : WF s) (hb : 1 ≤ s.batchSize) (hn : NoiseFree s.sigma s.lamda s.dt) {S : Set V} (hS : Convex ℝ S)
    (hpS : ∀ v ∈ S, p v ∈ S) {m : ℕ} (hx : ∀ n < s.N, s.x.get m n ∈ S) (h : step env (cboInner env) s = .ok s') :
    ∀ n < s.N, s'.x.get m n ∈ S := by
  intro k hk
  have fr := step_frame (by rw [cboInner_eq]; exact consThen_frame (cboMove_ok env)) h
  by_cases hm : m ∈ s.active
  · obtain ⟨i, c, r⟩ := runStep hE hw hb h m hm
    by_cases hsel : s'.pIdx.Sel m k
    · obtain ⟨j, -, hj⟩ := r.moved k hk hsel
      rw [hj]
      apply hpS
      have hc : c ∈ S := by
        rw [r.pairs, ← consDefault_fin]
        refine C20_convex _ _ r.ne S hS fun q hq => ?_
        obtain ⟨l, hl, rfl⟩ := r.mem q hq
        exact hx l hl
      have : s.x.get m k + cboUpdate s.lamda s.dt s.sigma (s.x.get m k - c) (ν s.draws s.dt i j (s.x.get m k - c)) =
          (1 - s.lamda * s.dt) • s.x.get m k + (s.lamda * s.dt) • c := by
        simp only [cboUpdate, hn.1, zero_smul, add_zero]
        module
      rw [this]
      exact hS (hx k hk) hc (by linarith [hn.2.2]) hn.2.1 (by ring)
    · rw [r.still k hk hsel]; exact hpS _ (hx k hk)
  · have hns : ¬ s'.pIdx.Sel m k := by
      rw [fr.pIdx]
      exact fun hs => hm (pSel_active hE.perm hw hs).1
    rw [step_unsel (cboMove_ok env) (cboMove_local env) hE.post (by rw [← cboInner_eq]; exact h) m k hns]
    exact hpS _ (hx k hk)

/-- **C24, hull.** With `sigma = 0` and `0 ≤ lamda*dt ≤ 1` (kept by the scheduler), the ensemble of run `m` stays in every
convex set `S` that contains the initial ensemble of that run and is mapped into itself by the post processing, for all times:
after every sequence of steps, checks, scheduler updates and resets. -/
theorem C24_hull (env : Env ℝ V) (f : V → ℝ) (ν : ℕ → ℝ → ℕ → ℕ → V → V) (p : V → V) (hE : Standard env f ν p) (a : Args ℝ V)
    (hb : a.batchSize ≠ some 0) (s₀ s : St ℝ V) (ops : List Op) (h0 : init env a = .ok s₀)
    (hn : NoiseFree a.sigma a.lamda a.dt)
    (hsched : ∀ q r, NoiseFree q.sigma q.lamda q.dt → env.sched q = .ok r → NoiseFree r.sigma r.lamda r.dt)
    (h : execAll env (cboInner env) ops s₀ = .ok s) (S : Set V) (hS : Convex ℝ S) (hpS : ∀ v ∈ S, p v ∈ S) (m : ℕ)
    (hx : ∀ n < a.x0.cols, a.x0.get m n ∈ S) : ∀ n < a.x0.cols, s.x.get m n ∈ S := by
  have e0 : s₀.x = a.x0 ∧ s₀.N = a.x0.cols ∧ s₀.sigma = a.sigma ∧ s₀.lamda = a.lamda ∧ s₀.dt = a.dt := by
    unfold init at h0
    split_ifs at h0
    all_goals
      injection h0 with h0
      subst h0
      exact ⟨rfl, rfl, rfl, rfl, rfl⟩
  obtain ⟨e1, e2, e3, e4, e5⟩ := e0
  rw [cboInner_eq] at h
  obtain ⟨-, -, -, hN, hx'⟩ := execAll_induct (cboMove_ok env) hE.post.ok hE.perm
    (P := fun q => 1 ≤ q.batchSize ∧ NoiseFree q.sigma q.lamda q.dt ∧ q.N = a.x0.cols ∧ ∀ n < q.N, q.x.get m n ∈ S)
    (fun o q q' hwq hq h => by
      obtain ⟨b1, -, b3⟩ := exec_bs (consThen_frame (cboMove_ok env)) h
      refine ⟨by rw [b1]; exact hq.1, ?_, by rw [b3]; exact hq.2.2.1, ?_⟩
      · cases o with
        | step =>
          have fr := step_frame (consThen_frame (cboMove_ok env)) h
          rw [fr.sigma, fr.lamda, fr.dt]; exact hq.2.1
        | select => have fr := select_frame h; rw [fr]; exact hq.2.1
        | sched =>
          simp only [exec, schedUpdate, bind_ok, pure_ok] at h
          obtain ⟨r, hr, rfl⟩ := h
          exact hsched q r hq.2.1 hr
        | reset =>
          simp only [exec] at h
          injection h with h
          subst h
          exact hq.2.1
      · rw [b3]
        by_cases ho : o = .step
        · subst ho
          rw [← cboInner_eq] at h
          exact hull_step hE hwq hq.1 hq.2.1 hS hpS hq.2.2.2 h
        · rw [exec_x ho h]; exact hq.2.2.2) ops s₀ s (init_wf hE.perm h0)
    ⟨init_bs hb h0, by rw [e3, e4, e5]; exact hn, e2, by rw [e1, e2]; exact hx⟩ h
  rw [← hN]; exact hx'

theorem contract_step {env : Env ℝ V} {f : V → ℝ} {ν : ℕ → ℝ → ℕ → ℕ → V → V} {p : V → V} (hE : Standard env f ν p)
    {s s' : St ℝ V} (hw : WF s) (hb : 1 ≤ s.batchSize) (hn : NoiseFree s.sigma s.lamda s.dt) {S : Set V} (hS : Convex ℝ S)
    (hpS : ∀ v ∈ S, p v = v) {m : ℕ} (hm : m ∈ s.active) (hx : ∀ n < s.N, s.x.get m n ∈ S)
    (hfull : s.batched = false ∨ s.batchPartial = false) (h : step env (cboInner env) s = .ok s') :
    ∀ n < s.N, ∀ n' < s.N, s'.x.get m n - s'.x.get m n' = (1 - s.lamda * s.dt) • (s.x.get m n - s.x.get m n') := by
  have fr := step_frame (by rw [cboInner_eq]; exact consThen_frame (cboMove_ok env)) h
  obtain ⟨i, c, r⟩ := runStep hE hw hb h m hm
  have hsel : ∀ n < s.N, s'.pIdx.Sel m n := by
    intro n hnN
    rw [fr.pIdx, preStep_pSel hE.perm hw]
    refine ⟨hm, hnN, fun h1 h2 => ?_⟩
    rcases hfull with h3 | h3
    · rw [h1] at h3; cases h3
    · rw [h2] at h3; cases h3
  have key : ∀ n < s.N, s'.x.get m n = (1 - s.lamda * s.dt) • s.x.get m n + (s.lamda * s.dt) • c := by
    intro k hk
    obtain ⟨j, -, hj⟩ := r.moved k hk (hsel k hk)
    have hc : c ∈ S := by
      rw [r.pairs, ← consDefault_fin]
      refine C20_convex _ _ r.ne S hS fun q hq => ?_
      obtain ⟨l, hl, rfl⟩ := r.mem q hq
      exact hx l hl
    have e : s.x.get m k + cboUpdate s.lamda s.dt s.sigma (s.x.get m k - c) (ν s.draws s.dt i j (s.x.get m k - c)) =
        (1 - s.lamda * s.dt) • s.x.get m k + (s.lamda * s.dt) • c := by
      simp only [cboUpdate, hn.1, zero_smul, add_zero]
      module
    rw [hj, e]
    exact hpS _ (hS (hx k hk) hc (by linarith [hn.2.2]) hn.2.1 (by ring))
  intro n hn1 n' hn2
  rw [key n hn1, key n' hn2]
  module

theorem contract_steps {env : Env ℝ V} {f : V → ℝ} {ν : ℕ → ℝ → ℕ → ℕ → V → V} {p : V → V} (hE : Standard env f ν p)
    {S : Set V} (hS : Convex ℝ S) (hpS : ∀ v ∈ S, p v = v) {m : ℕ} (k : ℕ) :
    ∀ {s s' : St ℝ V}, WF s → 1 ≤ s.batchSize → NoiseFree s.sigma s.lamda s.dt → m ∈ s.active →
    (∀ n < s.N, s.x.get m n ∈ S) → (s.batched = false ∨ s.batchPartial = false) →
    execAll env (cboInner env) (List.replicate k .step) s = .ok s' →
    ∀ n < s.N, ∀ n' < s.N, s'.x.get m n - s'.x.get m n' = (1 - s.lamda * s.dt) ^ k • (s.x.get m n - s.x.get m n') := by
  induction k with
  | zero =>
    intro s s' _ _ _ _ _ _ h n _ n' _
    simp only [List.replicate_zero, execAll] at h
    injection h with h
    subst h
    simp
  | succ k ih =>
    intro s s' hw hb hn hm hx hfull h n h1 n' h2
    simp only [List.replicate_succ, execAll, bind_ok] at h
    obtain ⟨q, hq, hl⟩ := h
    have fr := step_frame (by rw [cboInner_eq]; exact consThen_frame (cboMove_ok env)) hq
    have hw' := step_wf (cboMove_ok env) hE.post.ok hE.perm hw (by rw [← cboInner_eq]; exact hq)
    have := ih hw' (by rw [fr.batchSize]; exact hb) (by rw [fr.sigma, fr.lamda, fr.dt]; exact hn) (by rw [fr.active]; exact hm)
      (by rw [fr.N]; exact hull_step hE hw hb hn hS (fun v hv => by rw [hpS v hv]; exact hv) hx hq)
      (by rw [fr.batched, fr.batchPartial]; exact hfull) hl n (by rw [fr.N]; exact h1) n' (by rw [fr.N]; exact h2)
    rw [this, fr.lamda, fr.dt, contract_step hE hw hb hn hS hpS hm hx hfull hq n h1 n' h2, smul_smul, pow_succ]

/-- **C24, contraction.** With `sigma = 0` and `0 ≤ lamda*dt ≤ 1`, without batching (or with `partial=False`) and as long as the
ensemble lies in a convex set on which the post processing does nothing (for the default clipping: the box
`[-max_thresh, max_thresh]^d`): from any reachable state, `k` steps shrink all differences between particles of an active run by
exactly `(1 - lamda*dt)^k`. -/
theorem C24_contract (env : Env ℝ V) (f : V → ℝ) (ν : ℕ → ℝ → ℕ → ℕ → V → V) (p : V → V) (hE : Standard env f ν p)
    (a : Args ℝ V) (hb : a.batchSize ≠ some 0) (s₀ s s' : St ℝ V) (ops : List Op) (k : ℕ) (h0 : init env a = .ok s₀)
    (h : execAll env (cboInner env) ops s₀ = .ok s) (hn : NoiseFree s.sigma s.lamda s.dt) (m : ℕ) (hm : m ∈ s.active)
    (hfull : s.batched = false ∨ s.batchPartial = false) (S : Set V) (hS : Convex ℝ S) (hpS : ∀ v ∈ S, p v = v)
    (hx : ∀ n < s.N, s.x.get m n ∈ S)
    (hs : execAll env (cboInner env) (List.replicate k .step) s = .ok s') :
    ∀ n < s.N, ∀ n' < s.N, s'.x.get m n - s'.x.get m n' = (1 - s.lamda * s.dt) ^ k • (s.x.get m n - s.x.get m n') := by
  obtain ⟨hw, hbs⟩ := std_reach hE hb h0 h
  exact contract_steps hE hS hpS k hw hbs hn hm hx hfull hs

/-- **C24, ranges.** Under the same conditions the range of every coordinate (more generally of every linear functional `φ`) of
the ensemble is multiplied by exactly `(1 - lamda*dt)^k`. -/
theorem C24_range (env : Env ℝ V) (f : V → ℝ) (ν : ℕ → ℝ → ℕ → ℕ → V → V) (p : V → V) (hE : Standard env f ν p)
    (a : Args ℝ V) (hb : a.batchSize ≠ some 0) (s₀ s s' : St ℝ V) (ops : List Op) (k : ℕ) (h0 : init env a = .ok s₀)
    (h : execAll env (cboInner env) ops s₀ = .ok s) (hn : NoiseFree s.sigma s.lamda s.dt) (m : ℕ) (hm : m ∈ s.active)
    (hfull : s.batched = false ∨ s.batchPartial = false) (S : Set V) (hS : Convex ℝ S) (hpS : ∀ v ∈ S, p v = v)
    (hx : ∀ n < s.N, s.x.get m n ∈ S) (hs : execAll env (cboInner env) (List.replicate k .step) s = .ok s')
    (φ : V →ₗ[ℝ] ℝ) (w : ℝ)
    (hw : IsGreatest {r | ∃ n < s.N, ∃ n' < s.N, r = φ (s.x.get m n) - φ (s.x.get m n')} w) :
    IsGreatest {r | ∃ n < s.N, ∃ n' < s.N, r = φ (s'.x.get m n) - φ (s'.x.get m n')} ((1 - s.lamda * s.dt) ^ k * w) := by
  have key := C24_contract env f ν p hE a hb s₀ s s' ops k h0 h hn m hm hfull S hS hpS hx hs
  have hk : 0 ≤ (1 - s.lamda * s.dt) ^ k := pow_nonneg (by linarith [hn.2.2]) k
  have e : ∀ n < s.N, ∀ n' < s.N, φ (s'.x.get m n) - φ (s'.x.get m n') =
      (1 - s.lamda * s.dt) ^ k * (φ (s.x.get m n) - φ (s.x.get m n')) := fun n h1 n' h2 => by
    rw [← map_sub, key n h1 n' h2, map_smul, map_sub, smul_eq_mul]
  obtain ⟨⟨n, h1, n', h2, hw1⟩, hw2⟩ := hw
  refine ⟨⟨n, h1, n', h2, by rw [e n h1 n' h2, ← hw1]⟩, ?_⟩
  rintro r ⟨i, hi, j, hj, rfl⟩
  rw [e i hi j hj]
  exact mul_le_mul_of_nonneg_left (hw2 ⟨i, hi, j, hj, rfl⟩) hk

end

section
variable {ι : Type} [Fintype ι]

/-- **C23 for isotropic noise.** -/
theorem C23_isotropic (env : Env ℝ (ι → ℝ)) (smp : ℕ → ℕ → ℕ → ι → ℝ) (h : env.noise = rowNoise isoRule smp) :
    NoiseShape env ∧ NoiseVanish env := ⟨(rowNoise_rows h).ok.shape, rowNoise_vanish h isoRule_zero⟩

/-- **C23 for anisotropic noise.** -/
theorem C23_anisotropic (env : Env ℝ (ι → ℝ)) (smp : ℕ → ℕ → ℕ → ι → ℝ) (h : env.noise = rowNoise anisoRule smp) :
    NoiseShape env ∧ NoiseVanish env := ⟨(rowNoise_rows h).ok.shape, rowNoise_vanish h anisoRule_zero⟩

/-- **C23 for covariance noise** (both modes), given a correct `eigh`. -/
theorem C23_covariance [DecidableEq ι] (env : Env ℝ (ι → ℝ)) (eigh : Matrix ι ι ℝ → (ι → ℝ) × Matrix ι ι ℝ) (he : EighOK eigh)
    (b : Bool) (smp : ℕ → ℕ → ℕ → ι → ℝ) (h : env.noise = covNoise eigh b smp) : NoiseShape env ∧ NoiseVanish env :=
  ⟨covNoise_shape h, covNoise_vanish he h⟩

theorem clipVec_id (t : ℝ) (v : ι → ℝ) (h : ∀ i, -t ≤ v i ∧ v i ≤ t) : clipVec t v = v := by
  funext i
  simp only [clipVec]
  rw [max_eq_left (h i).1, min_eq_left (h i).2]

end

/-- C23: two runs on the plane, batches of 3 of 4 particles; run 1 starts with all particles at `(5, -7)`, run 0 spread out.
Every sequence of operations succeeds and leaves run 1 where it is. -/
example (ops : List Op) :
    let env := Example.realEnv (rowNoise isoRule Example.smp)
    let a := Example.realArgs (fun m n => if m = 0 then ![n, 2 - n] else ![5, -7]) 3 (some 3)
    ∃ s₀ s, init env a = .ok s₀ ∧ execAll env (cboInner env) ops s₀ = .ok s ∧ ∀ n < 4, s.x.get 1 n = ![5, -7] := by
  intro env a
  obtain ⟨s₀, h0, h1⟩ := Example.realEnv_runs isoRule (fun m n => if m = 0 then ![(n : ℝ), 2 - n] else ![5, -7]) 3 (some 3)
  obtain ⟨s, hs⟩ := h1 ops
  refine ⟨s₀, s, h0, hs, ?_⟩
  have hE := Example.realEnv_standard isoRule
  obtain ⟨n1, n2⟩ := C23_isotropic env Example.smp rfl
  have e0 : s₀.x = a.x0 ∧ s₀.N = 4 := by
    have h0' := h0
    unfold init at h0'
    split_ifs at h0'
    all_goals
      injection h0' with h0'
      subst h0'
      exact ⟨rfl, rfl⟩
  have := C23_absorbing env _ _ hE.corr hE.cons hE.f n1 n2 hE.post hE.perm a (by simp [a, Example.realArgs]) s₀ s₀ s [] ops h0 rfl 1
    ![5, -7] (clipVec_id 100 _ (by intro i; fin_cases i <;> norm_num)) (by rw [e0.1]; intro n _; rfl) hs
  rw [e0.2] at this
  exact this

/-- C24: an ensemble on the plane inside the unit square, no noise: stays there for all times. -/
example (ops : List Op) :
    let env := Example.realEnv (rowNoise constRule Example.smp)
    let a := Example.realArgs (fun m n => ![1 / (n + m + 1), 1 / (n + 1)]) 0 (some 3)
    ∃ s₀ s, init env a = .ok s₀ ∧ execAll env (cboInner env) ops s₀ = .ok s ∧
      ∀ m, ∀ n < 4, s.x.get m n ∈ Set.Icc (0 : Fin 2 → ℝ) 1 := by
  intro env a
  obtain ⟨s₀, h0, h1⟩ := Example.realEnv_runs constRule (fun m n => ![1 / ((n : ℝ) + m + 1), 1 / (n + 1)]) 0 (some 3)
  obtain ⟨s, hs⟩ := h1 ops
  refine ⟨s₀, s, h0, hs, ?_⟩
  intro m
  have hbox : ∀ v ∈ Set.Icc (0 : Fin 2 → ℝ) 1, clipVec 100 v = v := by
    intro v hv
    refine clipVec_id 100 v fun i => ⟨?_, ?_⟩
    · have := hv.1 i; simp only [Pi.zero_apply] at this; linarith
    · have := hv.2 i; simp only [Pi.one_apply] at this; linarith
  refine C24_hull env _ _ _ (Example.realEnv_standard constRule) a (by simp [a, Example.realArgs]) s₀ s ops h0
    ⟨rfl, by simp [a, Example.realArgs], by simp only [a, Example.realArgs]; norm_num⟩ ?_ hs (Set.Icc 0 1) (convex_Icc 0 1)
    (fun v hv => by rw [hbox v hv]; exact hv) m ?_
  · intro q r hq hr
    simp only [env, Example.realEnv] at hr
    injection hr with hr
    subst hr
    exact hq
  · intro n _
    have h1 : (0 : ℝ) < n + m + 1 := by positivity
    have h2 : (0 : ℝ) < n + 1 := by positivity
    have h3 : (1 : ℝ) ≤ n + m + 1 := by have := Nat.cast_nonneg (α := ℝ) n; have := Nat.cast_nonneg (α := ℝ) m; linarith
    have h4 : (1 : ℝ) ≤ n + 1 := by have := Nat.cast_nonneg (α := ℝ) n; linarith
    constructor <;> intro i <;> fin_cases i <;> simp [a, Example.realArgs]
    · positivity
    · positivity
    · exact inv_le_one_of_one_le₀ h3
    · exact inv_le_one_of_one_le₀ h4

end Verif
