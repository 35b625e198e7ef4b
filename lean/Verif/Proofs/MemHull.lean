import Verif.Props.Hull
import Verif.Proofs.MemRun

/-! Helper lemmas for C92: `CBOMemory` and `PSO` without noise. -/

set_option linter.unusedSectionVars false

namespace Verif

section
variable {K V : Type} [Zero K] [One K] [Neg K] [Add K] [Sub K] [Mul K] [Inv K] [Div K] [NatCast K] [Pow K ℕ] [LinearOrder K] [Add V] [Sub V] [SMul K V]

/-- The arrays of a memory dynamic are the same in both states. -/
structure SameArrays (s s' : St K V) : Prop where
  M : s'.M = s.M
  N : s'.N = s.N
  x : s'.x = s.x
  y : s'.aux1 = s.aux1
  v : s'.aux2 = s.aux2
  e : s'.energy = s.energy
  batched : s'.batched = s.batched
  batchSize : s'.batchSize = s.batchSize
  indices : s'.indices = s.indices

/-- The parameters are kept or come from the scheduler. -/
def ParamsFrom (env : Env K V) (s s' : St K V) : Prop :=
  (s'.alpha = s.alpha ∧ s'.lamda = s.lamda ∧ s'.sigma = s.sigma ∧ s'.dt = s.dt) ∨
    ∃ r, env.sched s = .ok r ∧ s'.alpha = r.alpha ∧ s'.lamda = r.lamda ∧ s'.sigma = r.sigma ∧ s'.dt = r.dt

theorem MemPlain.same {s s' : St K V} (w : MemPlain s) (q : SameArrays s s') (ha : s'.active.Sublist (List.range s'.M)) : MemPlain s' where
  xr := by rw [q.x, q.M, w.xr]
  xc := by rw [q.x, q.N, w.xc]
  er := by rw [q.e, q.M, w.er]
  ec := by rw [q.e, q.N, w.ec]
  yr := by rw [q.y, q.M, w.yr]
  yc := by rw [q.y, q.N, w.yc]
  act := ha
  pool := ⟨fun _ => by rw [q.batchSize, q.N]; exact w.pool.1 w.nob, fun h => absurd h (by rw [q.batched, w.nob]; simp)⟩
  pos := by rw [q.N]; exact w.pos
  nob := by rw [q.batched, w.nob]

/-- Operations other than a step leave the arrays alone. -/
theorem execBy_same {env : Env K V} {stp : St K V → Except Err (St K V)} {o : Op} (ho : o ≠ .step) {s s' : St K V} (w : MemPlain s)
    (h : execBy env stp o s = .ok s') : SameArrays s s' ∧ ParamsFrom env s s' ∧ s'.active.Sublist (List.range s'.M) := by
  cases o with
  | step => exact absurd rfl ho
  | select =>
    have h' : selectActive env s = .ok s' := h
    have f := select_frame h'
    obtain ⟨bs, l, q, _, _, ha, _⟩ := select_active h'
    have hs : s'.active.Sublist (List.range s.M) := by rw [ha]; exact List.filter_sublist
    have hM : s'.M = s.M := by rw [f]
    refine ⟨?_, Or.inl ?_, by rw [hM]; exact hs⟩
    · rw [f]; exact ⟨rfl, rfl, rfl, rfl, rfl, rfl, rfl, rfl, rfl⟩
    · rw [f]; exact ⟨rfl, rfl, rfl, rfl⟩
  | sched =>
    have h' : schedUpdate env s = .ok s' := h
    simp only [schedUpdate, bind_ok, pure_ok] at h'
    obtain ⟨r, hr, rfl⟩ := h'
    exact ⟨⟨rfl, rfl, rfl, rfl, rfl, rfl, rfl, rfl, rfl⟩, Or.inr ⟨r, hr, rfl, rfl, rfl, rfl⟩, w.act⟩
  | reset =>
    simp only [execBy] at h
    injection h with h
    subst h
    exact ⟨⟨rfl, rfl, rfl, rfl, rfl, rfl, rfl, rfl, rfl⟩, Or.inl ⟨rfl, rfl, rfl, rfl⟩, w.act⟩

/-- Induction over the operations on a memory dynamic without batches. -/
theorem mem_induct {env : Env K V} {stp : St K V → Except Err (St K V)} {P : St K V → Prop}
    (hstep : ∀ s s', MemPlain s → VShape s → s.active ≠ [] → P s → stp s = .ok s' → MemPlain s' ∧ VShape s' ∧ P s')
    (hsame : ∀ s s', SameArrays s s' → ParamsFrom env s s' → P s → P s') :
    ∀ {l : List Op} {s s' : St K V}, Live env stp l s → MemPlain s → VShape s → P s → execAllBy env stp l s = .ok s' → MemPlain s' ∧ VShape s' ∧ P s'
  | [], s, s', _, w, v, hP, h => by
    simp only [execAllBy] at h
    injection h with h
    subst h
    exact ⟨w, v, hP⟩
  | o :: l, s, s', hl, w, v, hP, h => by
    simp only [execAllBy, bind_ok] at h
    obtain ⟨q, hq, h⟩ := h
    obtain ⟨l1, l2⟩ := hl
    by_cases ho : o = .step
    · subst ho
      obtain ⟨w', v', hP'⟩ := hstep s q w v (l1 rfl) hP hq
      exact mem_induct hstep hsame (l2 q hq) w' v' hP' h
    · obtain ⟨sa, pf, ha⟩ := execBy_same ho w hq
      exact mem_induct hstep hsame (l2 q hq) (w.same sa ha) ⟨by rw [sa.v, sa.M]; exact v.1, by rw [sa.v, sa.N]; exact v.2⟩ (hsame s q sa pf hP) h

end

section
variable {V : Type} [AddCommGroup V] [Module ℝ V]

/-- The consensus point of the historical best positions lies in every convex set that contains them. -/
theorem point_mem {q : RunPar ℝ V} (hq : q.cons = consDefault) (hN : 0 < q.N) {R : MemRun ℝ V} (he : ∀ n < q.N, ∃ e, R.e n = .fin e) {S : Set V} (hS : Convex ℝ S)
    (hy : ∀ n < q.N, R.y n ∈ S) : q.point R ∈ S := by
  choose! e he using he
  have hl : (List.range q.N).map (fun j => (q.alpha, R.e j, R.y j)) = finSample q.alpha ((List.range q.N).map fun j => (e j, R.y j)) := by
    simp only [finSample, List.map_map]
    refine List.map_congr_left fun j hj => ?_
    simp only [Function.comp_apply, he j (List.mem_range.1 hj)]
  unfold RunPar.point
  rw [hq, hl]
  refine C20_convex _ _ ?_ S hS fun p hp => ?_
  · intro h0
    have := congrArg List.length h0
    simp at this
    omega
  · simp only [List.mem_map, List.mem_range] at hp
    obtain ⟨j, hj, rfl⟩ := hp
    exact hy j hj

theorem fin_minimum {a b : Flt ℝ} (ha : ∃ e, a = .fin e) (hb : ∃ e, b = .fin e) : ∃ e, Flt.minimum a b = .fin e := by
  obtain ⟨x, rfl⟩ := ha
  obtain ⟨y, rfl⟩ := hb
  unfold Flt.minimum
  split_ifs
  all_goals first | exact ⟨_, rfl⟩ | simp_all [Flt.isNaN]

/-- Energies are finite and positions and memories of run `m` lie in `S`. -/
structure MemIn (S : Set V) (m : ℕ) (s : St ℝ V) : Prop where
  lt : m < s.M
  e : ∀ n < s.N, ∃ e, s.energy.get m n = .fin e
  x : ∀ n < s.N, s.x.get m n ∈ S
  y : ∀ n < s.N, s.aux1.get m n ∈ S

theorem MemIn.same {S : Set V} {m : ℕ} {s s' : St ℝ V} (h : MemIn S m s) (q : SameArrays s s') : MemIn S m s' where
  lt := by rw [q.M]; exact h.lt
  e := by rw [q.N, q.e]; exact h.e
  x := by rw [q.N, q.x]; exact h.x
  y := by rw [q.N, q.y]; exact h.y

theorem remember_cases (q : RunPar ℝ V) (R : MemRun ℝ V) (X v : ℕ → V) (n : ℕ) :
    (q.remember R X v).y n = if Flt.gt (R.e n) (q.f (X n)) then X n else R.y n := by
  show R.y n + _ = _
  split_ifs <;> simp

theorem memMove_eq {q : RunPar ℝ V} {lm sm : ℝ} (hs : q.sigma = 0) (hsm : sm = 0) (R : MemRun ℝ V) (n : ℕ) :
    q.memMove lm sm R n = (1 - lm * q.dt) • ((1 - q.lamda * q.dt) • R.x n + (q.lamda * q.dt) • q.point R) + (lm * q.dt) • R.y n := by
  simp only [RunPar.memMove, hs, hsm, zero_smul, add_zero]
  module

theorem memMove_mem {q : RunPar ℝ V} {lm sm : ℝ} (hn : NoiseFree q.sigma q.lamda q.dt) (hm : NoiseFree sm lm q.dt) {R : MemRun ℝ V} {S : Set V} (hS : Convex ℝ S)
    (hc : q.point R ∈ S) {n : ℕ} (hx : R.x n ∈ S) (hy : R.y n ∈ S) : q.memMove lm sm R n ∈ S := by
  rw [memMove_eq hn.1 hm.1]
  refine hS (hS hx hc ?_ hn.2.1 ?_) hy ?_ hm.2.1 ?_
  · linarith [hn.2.2]
  · ring
  · linarith [hm.2.2]
  · ring

theorem memInit_arrays {env : Env ℝ V} {f : V → ℝ} (hf : ∀ v, env.f v = .fin (f v)) {a : Args ℝ V} {s : St ℝ V} (h : memInit env a = .ok s) :
    s.M = a.x0.rows ∧ s.N = a.x0.cols ∧ s.sigma = a.sigma ∧ s.lamda = a.lamda ∧ s.dt = a.dt ∧ (∀ m n, s.x.get m n = a.x0.get m n) ∧
      (∀ m n, s.aux1.get m n = a.aux1 (a.x0.get m n)) ∧ (∀ m n, s.aux2.get m n = a.aux2 (a.x0.get m n)) ∧ ∀ m n, s.energy.get m n = .fin (f (a.x0.get m n)) := by
  simp only [memInit, bind_ok, pure_ok] at h
  obtain ⟨s₀, h0, rfl⟩ := h
  unfold init at h0
  split_ifs at h0
  all_goals
    injection h0 with h0
    subst h0
    exact ⟨rfl, rfl, rfl, rfl, rfl, fun _ _ => rfl, fun _ _ => rfl, fun _ _ => rfl, fun m n => hf _⟩

/-- One step of `CBOMemory` without noise. -/
theorem memIn_step {env : Env ℝ V} {f : V → ℝ} {ν : ℕ → ℝ → ℕ → ℕ → V → V} {p : V → V} (hE : Standard env f ν p) {lm sm : ℝ} {s s' : St ℝ V} (w : MemPlain s)
    (ha : s.active ≠ []) {S : Set V} (hpS : ∀ v ∈ S, p v ∈ S) {m : ℕ} (hi : MemIn S m s)
    (hmv : ∀ n < s.N, (s.runPar env consDefault ν m).memMove lm sm (s.memRun m) n ∈ S)
    (h : memStep env lm sm s = .ok s') : MemIn S m s' ∧ StepRuns env p true s s' fun m => (s.runPar env consDefault ν m).memNext lm sm (s.memRun m) := by
  have q := memStep_runs hE.corr hE.cons hE.noise hE.post w ha h
  have r := q.runs m hi.lt
  have eN := q.frame.N
  refine ⟨⟨by rw [q.frame.M]; exact hi.lt, ?_, ?_, ?_⟩, q⟩
  · rw [eN]; intro n hn
    rw [r.e n (by rw [eN]; exact hn)]
    exact fin_minimum (hi.e n hn) ⟨_, hE.f _⟩
  · rw [eN]; intro n hn
    rw [r.x n (by rw [eN]; exact hn)]
    exact hpS _ (hmv n hn)
  · rw [eN]; intro n hn
    rw [r.y n (by rw [eN]; exact hn)]
    show (RunPar.remember _ _ _ _).y n ∈ S
    rw [remember_cases]
    split_ifs
    · exact hmv n hn
    · exact hi.y n hn

/-- One step of `PSO`, given where the particles go. -/
theorem psoIn_step {env : Env ℝ V} {f : V → ℝ} {ν : ℕ → ℝ → ℕ → ℕ → V → V} {p : V → V} (hE : Standard env f ν p) {pp : PsoPar ℝ} {s s' : St ℝ V} (w : MemPlain s)
    (hv : VShape s) (ha : s.active ≠ []) {S : Set V} (hpS : ∀ v ∈ S, p v ∈ S) {m : ℕ} (hi : MemIn S m s)
    (hmv : ∀ n < s.N, s.x.get m n + s.dt • (s.runPar env consDefault ν m).psoVel pp (s.memRun m) n ∈ S)
    (h : psoStep env pp s = .ok s') : MemIn S m s' ∧ StepRuns env p false s s' fun m => (s.runPar env consDefault ν m).psoNext pp (s.memRun m) := by
  obtain ⟨-, q⟩ := psoStep_runs hE.corr hE.cons hE.noise hE.post w hv ha h
  have r := q.runs m hi.lt
  have eN := q.frame.N
  refine ⟨⟨by rw [q.frame.M]; exact hi.lt, ?_, ?_, ?_⟩, q⟩
  · rw [eN]; intro n hn
    rw [r.e n (by rw [eN]; exact hn)]
    exact fin_minimum (hi.e n hn) ⟨_, hE.f _⟩
  · rw [eN]; intro n hn
    rw [r.x n (by rw [eN]; exact hn)]
    exact hpS _ (hmv n hn)
  · rw [eN]; intro n hn
    rw [r.y n (by rw [eN]; exact hn)]
    show (RunPar.remember _ _ _ _).y n ∈ S
    rw [remember_cases]
    split_ifs
    · exact hmv n hn
    · exact hi.y n hn

theorem MemIn.point {env : Env ℝ V} {ν : ℕ → ℝ → ℕ → ℕ → V → V} {s : St ℝ V} (w : MemPlain s) {S : Set V} (hS : Convex ℝ S) {m : ℕ} (hi : MemIn S m s) :
    (s.runPar env consDefault ν m).point (s.memRun m) ∈ S := point_mem rfl w.pos hi.e hS hi.y

/-- The state after `k` steps from an ensemble of minimisers. -/
structure Stuck (f : V → ℝ) (x0 : ℕ → V) (S : Set V) (m : ℕ) (θ : ℝ) (s : St ℝ V) : Prop where
  lt : m < s.M
  x : ∀ n < s.N, s.x.get m n ∈ S
  y : ∀ n < s.N, s.aux1.get m n = x0 n
  e : ∀ n < s.N, s.energy.get m n = .fin (f (x0 n))
  diff : ∀ n < s.N, ∀ n' < s.N, s.x.get m n - s.x.get m n' = θ • (x0 n - x0 n')

theorem stuck_step {env : Env ℝ V} {f : V → ℝ} {ν : ℕ → ℝ → ℕ → ℕ → V → V} {p : V → V} (hE : Standard env f ν p) {lm sm : ℝ} {s s' : St ℝ V} (w : MemPlain s)
    (ha : s.active ≠ []) (hn : NoiseFree s.sigma s.lamda s.dt) (hm : NoiseFree sm lm s.dt) {x0 : ℕ → V} {S : Set V} (hS : Convex ℝ S) (hpS : ∀ v ∈ S, p v = v) {m : ℕ}
    (h0 : ∀ n < s.N, x0 n ∈ S) (hmin : ∀ n < s.N, ∀ v, f (x0 n) ≤ f v) {θ : ℝ} (hi : Stuck f x0 S m θ s) (h : memStep env lm sm s = .ok s') :
    Stuck f x0 S m ((1 - s.lamda * s.dt) * (1 - lm * s.dt) * θ + lm * s.dt) s' ∧ MemPlain s' ∧ StepFrame env s s' := by
  have hI : MemIn S m s := ⟨hi.lt, fun n hn => ⟨_, hi.e n hn⟩, hi.x, fun n hn => by rw [hi.y n hn]; exact h0 n hn⟩
  have hmv := fun n (h1 : n < s.N) => memMove_mem (q := s.runPar env consDefault ν m) (lm := lm) (sm := sm) (R := s.memRun m) (n := n) hn hm hS (hI.point w hS) (hI.x n h1) (hI.y n h1)
  obtain ⟨h1, q⟩ := memIn_step hE w ha (fun v hv => by rw [hpS v hv]; exact hv) hI hmv h
  have r := q.runs m hi.lt
  have eN := q.frame.N
  have hx' : ∀ n < s.N, s'.x.get m n = (s.runPar env consDefault ν m).memMove lm sm (s.memRun m) n := fun n h1 => by
    rw [r.x n (by rw [eN]; exact h1)]
    exact hpS _ (hmv n h1)
  have hng : ∀ n < s.N, ∀ v, Flt.gt (s.energy.get m n) (env.f v) = false := fun n h1 v => by
    rw [hi.e n h1, hE.f]
    simp only [Flt.gt, Flt.lt, decide_eq_false_iff_not, not_lt]
    exact hmin n h1 v
  refine ⟨⟨h1.lt, h1.x, ?_, ?_, ?_⟩, q.shape, q.frame⟩
  · rw [eN]; intro n h1
    rw [r.y n (by rw [eN]; exact h1)]
    show (RunPar.remember _ _ _ _).y n = _
    rw [remember_cases, ← hi.y n h1]
    exact if_neg (by rw [Bool.not_eq_true]; exact hng n h1 _)
  · rw [eN]; intro n h1
    rw [r.e n (by rw [eN]; exact h1), ← hi.e n h1]
    show Flt.minimum (s.energy.get m n) (env.f _) = _
    rw [hi.e n h1, hE.f]
    have := hmin n h1 ((s.runPar env consDefault ν m).memMove lm sm (s.memRun m) n)
    simp only [Flt.minimum, Flt.isNaN, Flt.lt, decide_eq_true_eq, Bool.false_eq_true, if_false]
    split_ifs with hlt
    · exact absurd hlt (not_lt.2 this)
    · rfl
  · rw [eN]; intro n h1 n' h2
    rw [hx' n h1, hx' n' h2, memMove_eq hn.1 hm.1, memMove_eq hn.1 hm.1]
    have e1 : (s.memRun m).y n = x0 n := hi.y n h1
    have e2 : (s.memRun m).y n' = x0 n' := hi.y n' h2
    have e3 : (s.memRun m).x n = (s.memRun m).x n' + θ • (x0 n - x0 n') := by
      rw [← hi.diff n h1 n' h2]; show s.x.get m n = s.x.get m n' + (s.x.get m n - s.x.get m n'); abel
    rw [e1, e2, e3]
    show (1 - lm * s.dt) • ((1 - s.lamda * s.dt) • _ + (s.lamda * s.dt) • _) + (lm * s.dt) • _ - ((1 - lm * s.dt) • ((1 - s.lamda * s.dt) • _ + (s.lamda * s.dt) • _) + (lm * s.dt) • _) = _
    module

theorem memSteps_from {env : Env ℝ V} (he : EnvOK env) {lm sm : ℝ} : ∀ (k : ℕ) {s : St ℝ V}, MemPlain s → s.active.length = s.M → 0 < s.M → s.saveInt ≠ 0 →
    Live env (memStep env lm sm) (List.replicate k .step) s ∧ ∃ s', execAllBy env (memStep env lm sm) (List.replicate k .step) s = .ok s' ∧ s'.N = s.N ∧ s'.M = s.M
  | 0, s, _, _, _, _ => ⟨trivial, s, rfl, rfl, rfl⟩
  | k + 1, s, w, hf, hM, hsi => by
    have ha : s.active ≠ [] := fun h => by rw [h] at hf; simp at hf; omega
    have key : ∀ s', memStep env lm sm s = .ok s' → MemPlain s' ∧ s'.active.length = s'.M ∧ s'.M = s.M ∧ s'.saveInt ≠ 0 ∧ s'.N = s.N := fun s' h => by
      obtain ⟨X, hX⟩ := mem_histStep_plain he.postOK w ha h
      have fr := memStep_frame h
      exact ⟨⟨hX.shape, by rw [fr.batched]; exact w.nob⟩, by rw [fr.active, fr.M]; exact hf, fr.M, by rw [fr.saveInt]; exact hsi, fr.N⟩
    obtain ⟨s', h'⟩ := memStep_total he lm sm w hf hsi
    refine ⟨⟨fun _ => ha, fun q hq => ?_⟩, ?_⟩
    · obtain ⟨a, b, c, d, -⟩ := key q hq
      exact (memSteps_from he k a b (by rw [c]; exact hM) d).1
    · obtain ⟨a, b, c, d, e⟩ := key s' h'
      obtain ⟨-, s'', h2, h3, h4⟩ := memSteps_from he k a b (by rw [c]; exact hM) d
      refine ⟨s'', ?_, h3.trans e, h4.trans c⟩
      simp only [List.replicate_succ, execAllBy, bind_ok]
      exact ⟨s', h', h2⟩

theorem memSteps_total {env : Env ℝ V} (he : EnvOK env) (lm sm : ℝ) {a : Args ℝ V} (hb : batchSizeOf a.batchSize a.x0.cols = a.x0.cols) (hN : 0 < a.x0.cols) (hM : 0 < a.x0.rows)
    (hsi : a.saveInt ≠ 0) (k : ℕ) : ∃ s₀ s, memInit env a = .ok s₀ ∧ Live env (memStep env lm sm) (List.replicate k .step) s₀ ∧
      execAllBy env (memStep env lm sm) (List.replicate k .step) s₀ = .ok s ∧ s.N = a.x0.cols := by
  obtain ⟨s, h0, -⟩ := init_total env (a := a) hN
  have h : ∃ s', memInit env a = .ok s' ∧ s'.active = s.active := by
    unfold memInit
    rw [h0]
    exact ⟨_, rfl, rfl⟩
  obtain ⟨s', h, hact⟩ := h
  have w := memInit_plain hb h
  obtain ⟨e1, e2, -⟩ := memInit_nEval h
  have hf : s'.active.length = s'.M := by
    rw [hact, e1]
    unfold init at h0
    split_ifs at h0
    all_goals
      injection h0 with h0
      subst h0
      exact List.length_range
  obtain ⟨h1, s'', h2, h3, -⟩ := memSteps_from (lm := lm) (sm := sm) he k w hf (by rw [e1]; exact hM) (by rw [(memInit_facts h).2.1]; exact hsi)
  exact ⟨s', s'', h, h1, h2, h3.trans e2⟩

end

end Verif
