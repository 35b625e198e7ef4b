import Verif.Proofs.PolarFree
import Verif.Proofs.Noise
import Mathlib.Tactic.IntervalCases

/-! Property C95: `PolarCBO` without noise stays in the hull of its particles, and with the constant kernel groups of particles that are further apart
than `kappa` do not see each other. -/

set_option linter.unusedSectionVars false

namespace Verif

variable {ι : Type} [Fintype ι]

/-- What the constructor does with the arguments. -/
theorem init_args {env : Env ℝ (ι → ℝ)} {a : Args ℝ (ι → ℝ)} {s₀ : St ℝ (ι → ℝ)} (h0 : init env a = .ok s₀) :
    s₀.x = a.x0 ∧ s₀.N = a.x0.cols ∧ s₀.sigma = a.sigma ∧ s₀.lamda = a.lamda ∧ s₀.dt = a.dt ∧ s₀.alpha = fun _ => a.alpha := by
  unfold init at h0
  split_ifs at h0
  all_goals
    injection h0 with h0
    subst h0
    exact ⟨rfl, rfl, rfl, rfl, rfl, rfl⟩

/-- **C95, hull.** `PolarCBO` (every kernel but Taz, `kappa > 0`) with `sigma = 0`, `0 ≤ lamda*dt ≤ 1` and a positive kernel factor (all kept by the
scheduler): the particles of run `m` stay in every convex set `S` that contains their initial positions and is mapped into itself by the
post processing, after every sequence of steps, checks, scheduler updates and resets, with or without batches. -/
theorem C95_hull (env : Env ℝ (ι → ℝ)) (k : Kernel) (hk : k ≠ .taz) (kappa : ℝ) (hkap : 0 < kappa) (mode : KernelMode) (f : (ι → ℝ) → ℝ)
    (ν : ℕ → ℝ → ℕ → ℕ → (ι → ℝ) → ι → ℝ) (p : (ι → ℝ) → ι → ℝ) (hE : PolarStd env k kappa mode f ν p) (a : Args ℝ (ι → ℝ)) (s₀ s : St ℝ (ι → ℝ)) (ops : List Op)
    (h0 : init env a = .ok s₀) (hn : NoiseFree a.sigma a.lamda a.dt) (hq : FactorPos mode fun _ => a.alpha)
    (hsched : ∀ q r, (NoiseFree q.sigma q.lamda q.dt ∧ FactorPos mode q.alpha) → env.sched q = .ok r → NoiseFree r.sigma r.lamda r.dt ∧ FactorPos mode r.alpha)
    (h : execAll env (cboInner env) ops s₀ = .ok s) (S : Set (ι → ℝ)) (hS : Convex ℝ S) (hpS : ∀ v ∈ S, p v ∈ S) (m : ℕ)
    (hx : ∀ n < a.x0.cols, a.x0.get m n ∈ S) : ∀ n < a.x0.cols, s.x.get m n ∈ S := by
  obtain ⟨e1, e2, e3, e4, e5, e6⟩ := init_args h0
  rw [cboInner_eq] at h
  obtain ⟨-, -, hN, hx'⟩ := execAll_induct (cboMove_ok env) hE.post.ok hE.perm
    (P := fun q => (NoiseFree q.sigma q.lamda q.dt ∧ FactorPos mode q.alpha) ∧ q.N = a.x0.cols ∧ ∀ n < q.N, q.x.get m n ∈ S)
    (fun o q q' hwq hq h => by
      obtain ⟨-, -, b3⟩ := exec_bs (consThen_frame (cboMove_ok env)) h
      refine ⟨exec_params (consThen_frame (cboMove_ok env)) (Q := fun al si la dt => NoiseFree si la dt ∧ FactorPos mode al) hsched hq.1 h,
        by rw [b3]; exact hq.2.1, ?_⟩
      rw [b3]
      by_cases ho : o = .step
      · subst ho
        rw [← cboInner_eq] at h
        exact polar_hull_step hk hkap hE hwq hq.1.1 hq.1.2 hS hpS hq.2.2 h
      · rw [exec_x ho h]; exact hq.2.2) ops s₀ s (init_wf hE.perm h0)
    ⟨⟨by rw [e3, e4, e5]; exact hn, by rw [e6]; exact hq⟩, e2, by rw [e1, e2]; exact hx⟩ h
  rw [← hN]; exact hx'

/-- **C95, absorption.** `PolarCBO` (every kernel but Taz) with a noise model that vanishes with the drift, any `sigma` and step size: once all
particles of run `m` are at a point `v` kept by the post processing, they stay there. -/
theorem C95_absorbing (env : Env ℝ (ι → ℝ)) (k : Kernel) (hk : k ≠ .taz) (kappa : ℝ) (hkap : 0 < kappa) (mode : KernelMode) (f : (ι → ℝ) → ℝ)
    (ν : ℕ → ℝ → ℕ → ℕ → (ι → ℝ) → ι → ℝ) (p : (ι → ℝ) → ι → ℝ) (hE : PolarStd env k kappa mode f ν p) (hz : ∀ c dt i j, ν c dt i j 0 = 0)
    (a : Args ℝ (ι → ℝ)) (s₀ s s' : St ℝ (ι → ℝ)) (ops ops' : List Op) (h0 : init env a = .ok s₀) (hq : FactorPos mode fun _ => a.alpha)
    (hsched : ∀ q r, FactorPos mode q.alpha → env.sched q = .ok r → FactorPos mode r.alpha)
    (h1 : execAll env (cboInner env) ops s₀ = .ok s) (m : ℕ) (v : ι → ℝ) (hv : p v = v) (hx : ∀ n < s.N, s.x.get m n = v)
    (h2 : execAll env (cboInner env) ops' s = .ok s') : ∀ n < s.N, s'.x.get m n = v := by
  obtain ⟨e1, e2, e3, e4, e5, e6⟩ := init_args h0
  rw [cboInner_eq] at h1 h2
  obtain ⟨hw, hf⟩ := execAll_induct (cboMove_ok env) hE.post.ok hE.perm (P := fun q => FactorPos mode q.alpha)
    (fun o q q' hwq hq h => exec_params (consThen_frame (cboMove_ok env)) (Q := fun al _ _ _ => FactorPos mode al) hsched hq h) ops s₀ s
    (init_wf hE.perm h0) (by rw [e6]; exact hq) h1
  obtain ⟨-, -, hN, hx'⟩ := execAll_induct (cboMove_ok env) hE.post.ok hE.perm
    (P := fun q => FactorPos mode q.alpha ∧ q.N = s.N ∧ ∀ n < q.N, q.x.get m n = v)
    (fun o q q' hwq hq h => by
      obtain ⟨-, -, b3⟩ := exec_bs (consThen_frame (cboMove_ok env)) h
      refine ⟨exec_params (consThen_frame (cboMove_ok env)) (Q := fun al _ _ _ => FactorPos mode al) hsched hq.1 h, by rw [b3]; exact hq.2.1, ?_⟩
      rw [b3]
      by_cases ho : o = .step
      · subst ho
        rw [← cboInner_eq] at h
        intro l hl
        by_cases hm : m ∈ q.active
        · obtain ⟨kv, hkv⟩ := exists_kv (ι := ι) k hk hkap
          obtain ⟨t, ht1, ht2⟩ := hq.1.get m
          obtain ⟨i, c, r⟩ := polar_run hk hkap hE hwq h kv hkv hm ht1 ht2
          by_cases hsel : q'.pIdx.Sel m l
          · obtain ⟨j, -, hj, -, e⟩ := r.moved l hl hsel
            have hc := Set.mem_singleton_iff.1 (r.conv _ hj {v} (convex_singleton v) fun n hn => Set.mem_singleton_iff.2 (hq.2.2 n hn))
            rw [e, hc, hq.2.2 l hl, sub_self, hz]
            simp only [cboUpdate, smul_zero, sub_self, add_zero]
            exact hv
          · rw [r.still l hl hsel, hq.2.2 l hl, hv]
        · rw [polar_unsel hE hwq h hm, hq.2.2 l hl, hv]
      · rw [exec_x ho h]; exact hq.2.2) ops' s s' hw ⟨hf, rfl, hx⟩ h2
  rw [← hN]; exact hx'

/-- **C95, groups stay apart.** `PolarCBO` with the constant kernel, `sigma = 0` and `0 ≤ lamda*dt ≤ 1`: if the particles of run `m` start in convex sets `C a` that
are pairwise more than `kappa` apart (particle `n` in `C (g n)`) and are mapped into themselves by the post processing, then every particle
stays in its own set for all times. So the ensemble does not gather at one point. (Not for `batch_partial=False`.) -/
theorem C95_clusters {κ : Type} (env : Env ℝ (ι → ℝ)) (kappa : ℝ) (hkap : 0 < kappa) (mode : KernelMode) (f : (ι → ℝ) → ℝ)
    (ν : ℕ → ℝ → ℕ → ℕ → (ι → ℝ) → ι → ℝ) (p : (ι → ℝ) → ι → ℝ) (hE : PolarStd env .constant kappa mode f ν p) (a : Args ℝ (ι → ℝ)) (s₀ s : St ℝ (ι → ℝ)) (ops : List Op)
    (h0 : init env a = .ok s₀) (hfull : s₀.batched = false ∨ s₀.batchPartial = true) (hn : NoiseFree a.sigma a.lamda a.dt) (hq : FactorPos mode fun _ => a.alpha)
    (hsched : ∀ q r, (NoiseFree q.sigma q.lamda q.dt ∧ FactorPos mode q.alpha) → env.sched q = .ok r → NoiseFree r.sigma r.lamda r.dt ∧ FactorPos mode r.alpha)
    (h : execAll env (cboInner env) ops s₀ = .ok s) (C : κ → Set (ι → ℝ)) (hC : ∀ b, Convex ℝ (C b)) (hap : Apart kappa C)
    (hpC : ∀ b, ∀ v ∈ C b, p v ∈ C b) (m : ℕ) (g : ℕ → κ) (hx : ∀ n < a.x0.cols, a.x0.get m n ∈ C (g n)) :
    ∀ n < a.x0.cols, s.x.get m n ∈ C (g n) := by
  obtain ⟨e1, e2, e3, e4, e5, e6⟩ := init_args h0
  rw [cboInner_eq] at h
  obtain ⟨-, -, -, hN, hx'⟩ := execAll_induct (cboMove_ok env) hE.post.ok hE.perm
    (P := fun q => (NoiseFree q.sigma q.lamda q.dt ∧ FactorPos mode q.alpha) ∧ (q.batched = false ∨ q.batchPartial = true) ∧ q.N = a.x0.cols ∧
      ∀ n < q.N, q.x.get m n ∈ C (g n))
    (fun o q q' hwq hq h => by
      obtain ⟨-, -, b3⟩ := exec_bs (consThen_frame (cboMove_ok env)) h
      obtain ⟨b4, b5⟩ := exec_batched (consThen_frame (cboMove_ok env)) h
      refine ⟨exec_params (consThen_frame (cboMove_ok env)) (Q := fun al si la dt => NoiseFree si la dt ∧ FactorPos mode al) hsched hq.1 h,
        by rw [b4, b5]; exact hq.2.1, by rw [b3]; exact hq.2.2.1, ?_⟩
      rw [b3]
      by_cases ho : o = .step
      · subst ho
        rw [← cboInner_eq] at h
        exact polar_cluster_step hkap hE hwq hq.1.1 hq.1.2 hq.2.1 hC hap hpC g hq.2.2.2 h
      · rw [exec_x ho h]; exact hq.2.2.2) ops s₀ s (init_wf hE.perm h0)
    ⟨⟨by rw [e3, e4, e5]; exact hn, by rw [e6]; exact hq⟩, hfull, e2, by rw [e1, e2]; exact hx⟩ h
  rw [← hN]; exact hx'

/-- **C95, each group is a CBO ensemble.** If moreover the sets have diameter less than `kappa`, post processing does nothing on them and there are no batches, a step from
any reachable state moves every particle of an active run towards the Gibbs mean of the particles of its own group, with the parameters of CBO. -/
theorem C95_group {κ : Type} [DecidableEq κ] (env : Env ℝ (ι → ℝ)) (kappa : ℝ) (hkap : 0 < kappa) (mode : KernelMode) (f : (ι → ℝ) → ℝ)
    (ν : ℕ → ℝ → ℕ → ℕ → (ι → ℝ) → ι → ℝ) (p : (ι → ℝ) → ι → ℝ) (hE : PolarStd env .constant kappa mode f ν p) (a : Args ℝ (ι → ℝ)) (s₀ s s' : St ℝ (ι → ℝ)) (ops : List Op)
    (h0 : init env a = .ok s₀) (h : execAll env (cboInner env) ops s₀ = .ok s) (hfull : s.batched = false) (hn : NoiseFree s.sigma s.lamda s.dt)
    (hq : FactorPos mode s.alpha) (C : κ → Set (ι → ℝ)) (hC : ∀ b, Convex ℝ (C b)) (hap : Apart kappa C) (hna : Narrow kappa C)
    (hpC : ∀ b, ∀ v ∈ C b, p v = v) (m : ℕ) (hm : m ∈ s.active) (g : ℕ → κ) (hx : ∀ n < s.N, s.x.get m n ∈ C (g n))
    (hs : step env (cboInner env) s = .ok s') : ∀ n < s.N, s'.x.get m n = (1 - s.lamda * s.dt) • s.x.get m n + (s.lamda * s.dt) •
      gibbs (s.alpha m) (((List.range s.N).filter fun l => decide (g l = g n)).map fun l => (f (s.x.get m l), s.x.get m l)) := by
  rw [cboInner_eq] at h
  have hw := (execAll_induct (cboMove_ok env) hE.post.ok hE.perm (P := fun _ => True) (fun _ _ _ _ _ _ => trivial) ops s₀ s (init_wf hE.perm h0) trivial h).1
  exact fun n hnN => polar_cluster_mean hkap hE hw hn hq hfull hC hap hna hpC hm g hx hs n hnN

/-- **C95, each group gathers.** Under the conditions of `C95_group`, `k` steps shrink the differences of particles in the same group by exactly
`(1 - lamda*dt)^k`. -/
theorem C95_contract {κ : Type} [DecidableEq κ] (env : Env ℝ (ι → ℝ)) (kappa : ℝ) (hkap : 0 < kappa) (mode : KernelMode) (f : (ι → ℝ) → ℝ)
    (ν : ℕ → ℝ → ℕ → ℕ → (ι → ℝ) → ι → ℝ) (p : (ι → ℝ) → ι → ℝ) (hE : PolarStd env .constant kappa mode f ν p) (a : Args ℝ (ι → ℝ)) (s₀ s s' : St ℝ (ι → ℝ)) (ops : List Op)
    (k : ℕ) (h0 : init env a = .ok s₀) (h : execAll env (cboInner env) ops s₀ = .ok s) (hfull : s.batched = false) (hn : NoiseFree s.sigma s.lamda s.dt)
    (hq : FactorPos mode s.alpha) (C : κ → Set (ι → ℝ)) (hC : ∀ b, Convex ℝ (C b)) (hap : Apart kappa C) (hna : Narrow kappa C)
    (hpC : ∀ b, ∀ v ∈ C b, p v = v) (m : ℕ) (hm : m ∈ s.active) (g : ℕ → κ) (hx : ∀ n < s.N, s.x.get m n ∈ C (g n))
    (hs : execAll env (cboInner env) (List.replicate k .step) s = .ok s') (n n' : ℕ) (hn1 : n < s.N) (hn2 : n' < s.N) (hg : g n = g n') :
    s'.x.get m n - s'.x.get m n' = (1 - s.lamda * s.dt) ^ k • (s.x.get m n - s.x.get m n') := by
  rw [cboInner_eq] at h
  have hw := (execAll_induct (cboMove_ok env) hE.post.ok hE.perm (P := fun _ => True) (fun _ _ _ _ _ _ => trivial) ops s₀ s (init_wf hE.perm h0) trivial h).1
  clear h h0
  induction k generalizing s with
  | zero =>
    simp only [List.replicate_zero, execAll] at hs
    injection hs with hs
    subst hs
    simp
  | succ k ih =>
    simp only [List.replicate_succ, execAll, bind_ok] at hs
    obtain ⟨q, hqs, hl⟩ := hs
    have fr := step_frame (by rw [cboInner_eq]; exact consThen_frame (cboMove_ok env)) hqs
    have hw' := step_wf (cboMove_ok env) hE.post.ok hE.perm hw (by rw [← cboInner_eq]; exact hqs)
    have hx' : ∀ n < q.N, q.x.get m n ∈ C (g n) := by
      rw [fr.N]
      exact polar_cluster_step hkap hE hw hn hq (Or.inl hfull) hC hap (fun b v hv => by rw [hpC b v hv]; exact hv) g hx hqs
    have := ih q (by rw [fr.batched]; exact hfull) (by rw [fr.sigma, fr.lamda, fr.dt]; exact hn) (by rw [fr.alpha]; exact hq) (by rw [fr.active]; exact hm) hx' hl
      (by rw [fr.N]; exact hn1) (by rw [fr.N]; exact hn2) hw'
    rw [this, fr.lamda, fr.dt, polar_cluster_mean hkap hE hw hn hq hfull hC hap hna hpC hm g hx hqs n hn1,
      polar_cluster_mean hkap hE hw hn hq hfull hC hap hna hpC hm g hx hqs n' hn2, hg]
    rw [pow_succ, mul_smul ((1 - s.lamda * s.dt) ^ k)]
    congr 1
    module

namespace Example

/-- The example dynamic on the plane with the constant kernel, `kappa = 1`. -/
noncomputable def groupEnv : Env ℝ (Fin 2 → ℝ) := { realEnv (rowNoise isoRule smp) with cons := polarCons .constant 1 .const }

theorem groupEnv_std : PolarStd groupEnv .constant 1 .const (fun v => v 0 ^ 2 + v 1 ^ 2) (fun c dt i j d => Real.sqrt dt • isoRule d (smp c i j)) (clipVec 100) where
  corr := rfl
  cons := rfl
  noise := by
    intro s d hd
    simp only [groupEnv, realEnv, rowNoise, hd]
    exact ⟨_, rfl, rfl, rfl, fun _ _ => rfl⟩
  post _ := rfl
  perm := perm_ok (rowNoise isoRule smp)
  f _ := rfl

theorem groupEnv_runs (x : ℕ → ℕ → Fin 2 → ℝ) (sigma : ℝ) (b : Option ℕ) :
    ∃ s₀, init groupEnv (realArgs x sigma b) = .ok s₀ ∧ ∀ ops : List Op, ∃ s, execAll groupEnv (cboInner groupEnv) ops s₀ = .ok s := by
  obtain ⟨s₀, h0, h1⟩ := C50_never_raises groupEnv rfl ⟨_, rfl⟩ groupEnv_std.noise.ok (fun s => ⟨_, rfl, rfl, rfl⟩) (fun s => ⟨_, rfl⟩) groupEnv_std.perm
    (realArgs x sigma b) (by simp [realArgs]) (by simp [realArgs]) (by
      intro tm ht
      simp only [realArgs, List.mem_cons, List.not_mem_nil, or_false] at ht
      rcases ht with rfl | rfl <;> trivial) (Or.inr rfl) (fun h => by cases h)
  exact ⟨s₀, h0, fun ops => let ⟨s, h, _⟩ := h1 ops (fun h => by cases h); ⟨s, h⟩⟩

/-- Two small boxes, around the origin and around (5, 5). -/
def boxes : Bool → Set (Fin 2 → ℝ) := fun b => Set.Icc (fun _ => if b then 5 else 0) (fun _ => if b then 5.5 else 0.5)

theorem boxes_apart : Apart 1 boxes := by
  have key : ∀ u ∈ boxes false, ∀ v ∈ boxes true, (1 : ℝ) < (u 0 - v 0) ^ 2 := by
    intro u hu v hv
    have h1 := hu.2 0
    have h2 := hv.1 0
    simp only [if_true, Bool.false_eq_true, if_false] at h1 h2
    nlinarith
  intro a b hab u hu v hv
  have h : (1 : ℝ) < ∑ i, (u i - v i) ^ 2 := by
    rw [Fin.sum_univ_two]
    cases a <;> cases b <;> first | exact absurd rfl hab | skip
    · have := key u hu v hv
      have := sq_nonneg (u 1 - v 1)
      linarith
    · have := key v hv u hu
      have := sq_nonneg (u 1 - v 1)
      have : (u 0 - v 0) ^ 2 = (v 0 - u 0) ^ 2 := by ring
      linarith
  calc (1 : ℝ) = √1 := Real.sqrt_one.symm
    _ < _ := Real.sqrt_lt_sqrt zero_le_one h

theorem boxes_narrow : Narrow 1 boxes := by
  intro b u hu v hv
  have key : ∀ i, (u i - v i) ^ 2 ≤ 1 / 4 := by
    intro i
    have h1 := hu.1 i
    have h2 := hu.2 i
    have h3 := hv.1 i
    have h4 := hv.2 i
    rw [show (1 / 4 : ℝ) = (1 / 2) ^ 2 by norm_num]
    apply sq_le_sq'
    all_goals
      cases b
      all_goals
        simp only [if_true, Bool.false_eq_true, if_false] at h1 h2 h3 h4
        linarith
  rw [Real.sqrt_lt' one_pos, Fin.sum_univ_two]
  have := key 0
  have := key 1
  linarith

theorem boxes_clip (b : Bool) (v : Fin 2 → ℝ) (hv : v ∈ boxes b) : clipVec 100 v = v := by
  refine clipVec_id 100 v fun i => ?_
  have h1 := hv.1 i
  have h2 := hv.2 i
  cases b
  all_goals
    simp only [if_true, Bool.false_eq_true, if_false] at h1 h2
    constructor <;> linarith

/-- Particles 0 and 2 near the origin, 1 and 3 near (5, 5). -/
noncomputable def twoGroups (_m n : ℕ) : Fin 2 → ℝ := fun _ => if n % 2 = 1 then 5 + 1 / (2 * n) else n / 4

theorem twoGroups_mem (m n : ℕ) (hn : n < 4) : twoGroups m n ∈ boxes (decide (n % 2 = 1)) := by
  interval_cases n
  all_goals
    constructor <;> intro i <;> simp [twoGroups] <;> norm_num

end Example

/-- **C95, consensus is not reached.** The claim of C24 for CBO (all differences shrink by `(1 - lamda*dt)^k`) is false for `PolarCBO`: here is a dynamic with two runs of four
particles, no noise and `lamda*dt = 1/10`, in which two particles of a run stay more than 1 apart after every sequence of operations. -/
theorem C95_consensus_false : ∃ s₀, init Example.groupEnv (Example.realArgs Example.twoGroups 0 none) = .ok s₀ ∧
    ∀ ops : List Op, ∃ s, execAll Example.groupEnv (cboInner Example.groupEnv) ops s₀ = .ok s ∧
      ∀ m, 1 < √(∑ i, (s.x.get m 0 i - s.x.get m 1 i) ^ 2) := by
  obtain ⟨s₀, h0, h1⟩ := Example.groupEnv_runs Example.twoGroups 0 none
  refine ⟨s₀, h0, fun ops => ?_⟩
  obtain ⟨s, hs⟩ := h1 ops
  refine ⟨s, hs, fun m => ?_⟩
  have hpart : s₀.batchPartial = true := by
    have h0' := h0
    unfold init at h0'
    split_ifs at h0'
    all_goals
      injection h0' with h0'
      subst h0'
      rfl
  have key := C95_clusters Example.groupEnv 1 one_pos .const _ _ _ Example.groupEnv_std (Example.realArgs Example.twoGroups 0 none) s₀ s ops h0 (Or.inr hpart)
    ⟨rfl, by simp [Example.realArgs], by simp only [Example.realArgs]; norm_num⟩ (Or.inl rfl)
    (fun q r hq hr => by
      simp only [Example.groupEnv, Example.realEnv] at hr
      injection hr with hr
      subst hr
      exact ⟨hq.1, Or.inl rfl⟩) hs Example.boxes (fun b => convex_Icc _ _) Example.boxes_apart
    (fun b v hv => by rw [Example.boxes_clip b v hv]; exact hv) m (fun n => decide (n % 2 = 1)) (fun n hn => Example.twoGroups_mem m n hn)
  exact Example.boxes_apart _ _ (by decide) _ (key 0 (by simp [Example.realArgs])) _ (key 1 (by simp [Example.realArgs]))

/-- C95: the hypotheses of `C95_contract` hold in the same example, for the first three steps. -/
example : ∃ s₀ s', init Example.groupEnv (Example.realArgs Example.twoGroups 0 none) = .ok s₀ ∧
    execAll Example.groupEnv (cboInner Example.groupEnv) (List.replicate 3 .step) s₀ = .ok s' ∧
    s'.x.get 1 0 - s'.x.get 1 2 = (9 / 10 : ℝ) ^ 3 • (fun _ => -1 / 2) := by
  obtain ⟨s₀, h0, h1⟩ := Example.groupEnv_runs Example.twoGroups 0 none
  obtain ⟨s', hs⟩ := h1 (List.replicate 3 .step)
  refine ⟨s₀, s', h0, hs, ?_⟩
  have e0 : s₀.batched = false ∧ s₀.active = [0, 1] := by
    have h0' := h0
    unfold init at h0'
    split_ifs at h0'
    all_goals
      injection h0' with h0'
      subst h0'
      exact ⟨rfl, rfl⟩
  obtain ⟨e1, e2, e3, e4, e5, e6⟩ := init_args h0
  have e2' : s₀.N = 4 := e2
  have := C95_contract Example.groupEnv 1 one_pos .const _ _ _ Example.groupEnv_std _ s₀ s₀ s' [] 3 h0 rfl e0.1
    (by rw [e3, e4, e5]; exact ⟨rfl, by simp [Example.realArgs], by simp only [Example.realArgs]; norm_num⟩) (Or.inl rfl) Example.boxes
    (fun b => convex_Icc _ _) Example.boxes_apart Example.boxes_narrow Example.boxes_clip 1 (by rw [e0.2]; simp) (fun n => decide (n % 2 = 1))
    (fun n hn => by rw [e1]; exact Example.twoGroups_mem 1 n (by omega)) hs 0 2 (by omega) (by omega) (by decide)
  rw [this, e1, e4, e5]
  simp only [Example.realArgs]
  congr 1
  · norm_num
  · funext i
    simp [Example.twoGroups]
    norm_num

/-- C95: the hypotheses of `C95_absorbing` hold with noise: a collapsed run stays where it is. -/
example (ops : List Op) : ∃ s₀ s, init Example.groupEnv (Example.realArgs (fun _ _ => ![5, -7]) 3 (some 3)) = .ok s₀ ∧
    execAll Example.groupEnv (cboInner Example.groupEnv) ops s₀ = .ok s ∧ ∀ n < 4, s.x.get 1 n = ![5, -7] := by
  obtain ⟨s₀, h0, h1⟩ := Example.groupEnv_runs (fun _ _ => ![5, -7]) 3 (some 3)
  obtain ⟨s, hs⟩ := h1 ops
  refine ⟨s₀, s, h0, hs, ?_⟩
  obtain ⟨e1, e2, -⟩ := init_args h0
  have e2' : s₀.N = 4 := e2
  have := C95_absorbing Example.groupEnv .constant (by simp) 1 one_pos .const _ _ _ Example.groupEnv_std (fun c dt i j => by
      rw [isoRule_zero, smul_zero]) _ s₀ s₀ s [] ops h0 (Or.inl rfl) (fun _ _ _ _ => Or.inl rfl) rfl 1 ![5, -7]
    (clipVec_id 100 _ (by intro i; fin_cases i <;> norm_num)) (by rw [e1]; intro n _; rfl) hs
  rw [e2'] at this
  exact this

end Verif
