import Verif.Proofs.Descent
import Verif.Props.MemHull
import Mathlib.Tactic.IntervalCases

/-! Property C93: noise-free CBO improves convex objectives. -/

set_option linter.unusedSectionVars false

namespace Verif

open Filter
open scoped Topology

section
variable {V : Type} [AddCommGroup V] [Module ℝ V]

/-- **C93 (consensus point).** CBO, any noise, any batches: after a step from a reachable state, the recorded consensus point `c` of an active run satisfies, if the objective is convex on a convex set that contains
the particles of the run: `f(c) ≤ f(x_n) + log(batch_size)/alpha` for every particle of the batch (`alpha > 0`), and without batches `f(c) ≤` the mean of `f(x_n)` over all particles (`alpha ≥ 0`). -/
theorem C93_consensus (env : Env ℝ V) (f : V → ℝ) (ν : ℕ → ℝ → ℕ → ℕ → V → V) (p : V → V) (hE : Standard env f ν p) (a : Args ℝ V) (hb : a.batchSize ≠ some 0)
    (s₀ s s' : St ℝ V) (ops : List Op) (h0 : init env a = .ok s₀) (h : execAll env (cboInner env) ops s₀ = .ok s) (h' : step env (cboInner env) s = .ok s')
    (S : Set V) (hf : ConvexOn ℝ S f) (m : ℕ) (hm : m ∈ s.active) (hx : ∀ n < s.N, s.x.get m n ∈ S) :
    ∃ i cm, s.active.getD i 0 = m ∧ s'.cons = some cm ∧
      (0 < s.alpha m → ∀ j < s'.cIdx.cols, f (cm.get i 0) ≤ f (s.x.get m (s'.cIdx.par i j)) + Real.log s'.cIdx.cols / s.alpha m) ∧
      (s.batched = false → 0 ≤ s.alpha m → f (cm.get i 0) ≤ (∑ n ∈ Finset.range s.N, f (s.x.get m n)) / s.N) := by
  obtain ⟨hw, hbs⟩ := std_reach hE hb h0 h
  obtain ⟨i, c, r⟩ := runStep hE hw hbs h' m hm
  have fr := step_frame (by rw [cboInner_eq]; exact consThen_frame (cboMove_ok env)) h'
  obtain ⟨cm, h1, h2⟩ := r.cons
  have hrun : s'.cIdx.run i = m := by rw [fr.cIdx, (preStep_idx env hE.perm hw).cRun i r.pos, r.act]
  refine ⟨i, cm, r.act, h1, fun ha j hj => ?_, fun hnb ha => ?_⟩
  · rw [h2, r.pairs]
    have e : batchPairs f s s' i = ((List.range s'.cIdx.cols).map fun j => s.x.get m (s'.cIdx.par i j)).map fun x => (f x, x) := by
      unfold batchPairs
      rw [hrun, List.map_map]
      rfl
    have hmem : ∀ x ∈ (List.range s'.cIdx.cols).map fun j => s.x.get m (s'.cIdx.par i j), x ∈ S := fun x hx' => by
      have hq : (f x, x) ∈ batchPairs f s s' i := by rw [e]; exact List.mem_map_of_mem hx'
      obtain ⟨n, hn, hq⟩ := r.mem _ hq
      rw [(Prod.mk.inj hq).2]
      exact hx n hn
    rw [e]
    refine (gibbs_jensen hf _ (fun h0 => ?_) hmem).trans ?_
    · rw [List.map_eq_nil_iff, List.range_eq_nil] at h0
      omega
    · have := gibbsEnergy_le (s.alpha m) ha (l := ((List.range s'.cIdx.cols).map fun j => s.x.get m (s'.cIdx.par i j)).map f) (e := f (s.x.get m (s'.cIdx.par i j)))
        (by rw [List.map_map]; exact List.mem_map_of_mem (f := f ∘ fun j => s.x.get m (s'.cIdx.par i j)) (List.mem_range.2 hj))
      simpa using this
  · rw [h2]
    exact cons_mean (env := env) hw hnb fr.cIdx r ha hf hx

/-- **C93 (descent).** CBO without noise (`sigma = 0`, `0 ≤ lamda*dt ≤ 1`), without batches, `alpha ≥ 0` (all kept by the scheduler), an objective that is convex on a convex set on which post processing does nothing and which
contains the initial ensemble of run `m`: after every sequence of steps, checks, scheduler updates and resets the mean of the objective over the particles of the run is at most its initial value. -/
theorem C93_mean (env : Env ℝ V) (f : V → ℝ) (ν : ℕ → ℝ → ℕ → ℕ → V → V) (p : V → V) (hE : Standard env f ν p) (a : Args ℝ V)
    (hb : batchSizeOf a.batchSize a.x0.cols = a.x0.cols) (m : ℕ) (hn : NoiseFree a.sigma a.lamda a.dt ∧ 0 ≤ a.alpha)
    (hsched : ∀ q r, NoiseFree q.sigma q.lamda q.dt ∧ 0 ≤ q.alpha m → env.sched q = .ok r → NoiseFree r.sigma r.lamda r.dt ∧ 0 ≤ r.alpha m)
    (s₀ s : St ℝ V) (ops : List Op) (h0 : init env a = .ok s₀) (h : execAll env (cboInner env) ops s₀ = .ok s) (S : Set V) (hf : ConvexOn ℝ S f) (hpS : ∀ v ∈ S, p v = v)
    (hx : ∀ n < a.x0.cols, a.x0.get m n ∈ S) :
    (∑ n ∈ Finset.range a.x0.cols, f (s.x.get m n)) / a.x0.cols ≤ (∑ n ∈ Finset.range a.x0.cols, f (a.x0.get m n)) / a.x0.cols := by
  have e0 : s₀.x = a.x0 ∧ s₀.N = a.x0.cols ∧ s₀.sigma = a.sigma ∧ s₀.lamda = a.lamda ∧ s₀.dt = a.dt ∧ s₀.batched = false ∧ s₀.alpha m = a.alpha ∧ 1 ≤ s₀.batchSize := by
    unfold init at h0
    split_ifs at h0
    all_goals
      injection h0 with h0
      subst h0
      refine ⟨rfl, rfl, rfl, rfl, rfl, by simp [initBatch, initHistory, checkFDims, callF, baseSt, hb], rfl, ?_⟩
      simp only [initBatch, initHistory, checkFDims, callF, baseSt, hb]
      omega
  obtain ⟨e1, e2, e3, e4, e5, e6, e7, e8⟩ := e0
  rw [cboInner_eq] at h
  obtain ⟨-, -, -, -, -, -, hs⟩ := execAll_induct (cboMove_ok env) hE.post.ok hE.perm
    (P := fun q => 1 ≤ q.batchSize ∧ (NoiseFree q.sigma q.lamda q.dt ∧ 0 ≤ q.alpha m) ∧ q.N = a.x0.cols ∧ q.batched = false ∧ (∀ n < q.N, q.x.get m n ∈ S) ∧
      ∑ n ∈ Finset.range a.x0.cols, f (q.x.get m n) ≤ ∑ n ∈ Finset.range a.x0.cols, f (a.x0.get m n))
    (fun o q q' hwq hq h => by
      obtain ⟨b1, -, b3⟩ := exec_bs (consThen_frame (cboMove_ok env)) h
      obtain ⟨q1, q2, q3, q4, q5, q6⟩ := hq
      cases o with
      | step =>
        have fr := step_frame (consThen_frame (cboMove_ok env)) h
        rw [← cboInner_eq] at h
        refine ⟨by rw [b1]; exact q1, by rw [fr.sigma, fr.lamda, fr.dt, fr.alpha]; exact q2, by rw [b3]; exact q3, by rw [fr.batched]; exact q4, ?_, ?_⟩
        · rw [b3]
          exact hull_step hE hwq q1 q2.1 hf.1 (fun v hv => by rw [hpS v hv]; exact hv) q5 h
        · have := descent_step hE hwq q1 q2.1 hf hpS q5 q4 q2.2 h
          rw [q3] at this
          exact this.trans q6
      | select => have fr := select_frame h; rw [fr]; exact ⟨q1, q2, q3, q4, q5, q6⟩
      | sched =>
        simp only [exec, schedUpdate, bind_ok, pure_ok] at h
        obtain ⟨r, hr, rfl⟩ := h
        exact ⟨q1, hsched q r q2 hr, q3, q4, q5, q6⟩
      | reset =>
        simp only [exec] at h
        injection h with h
        subst h
        exact ⟨q1, q2, q3, q4, q5, q6⟩) ops s₀ s (init_wf hE.perm h0)
    ⟨e8, by rw [e3, e4, e5, e7]; exact hn, e2, e6, by rw [e1, e2]; exact hx, by rw [e1]⟩ h
  exact div_le_div_of_nonneg_right hs (Nat.cast_nonneg _)

/-- **C93 (worst particle).** The same with or without batches, for every `alpha` and every quasi-convex objective: no particle of the run ever has a larger objective value than the worst of the initial ensemble. -/
theorem C93_worst (env : Env ℝ V) (f : V → ℝ) (ν : ℕ → ℝ → ℕ → ℕ → V → V) (p : V → V) (hE : Standard env f ν p) (a : Args ℝ V)
    (hb : a.batchSize ≠ some 0) (s₀ s : St ℝ V) (ops : List Op) (h0 : init env a = .ok s₀) (hn : NoiseFree a.sigma a.lamda a.dt)
    (hsched : ∀ q r, NoiseFree q.sigma q.lamda q.dt → env.sched q = .ok r → NoiseFree r.sigma r.lamda r.dt)
    (h : execAll env (cboInner env) ops s₀ = .ok s) (S : Set V) (hf : QuasiconvexOn ℝ S f) (hpS : ∀ v ∈ S, p v = v) (m : ℕ)
    (hx : ∀ n < a.x0.cols, a.x0.get m n ∈ S) (B : ℝ) (hB : ∀ n < a.x0.cols, f (a.x0.get m n) ≤ B) : ∀ n < a.x0.cols, f (s.x.get m n) ≤ B := fun n hn' =>
  (C24_hull env f ν p hE a hb s₀ s ops h0 hn hsched h {v ∈ S | f v ≤ B} (hf B) (fun v hv => by rw [hpS v hv.1]; exact hv) m
    (fun k hk => ⟨hx k hk, hB k hk⟩) n hn').2

end

section
variable {V : Type} [NormedAddCommGroup V] [NormedSpace ℝ V] [CompleteSpace V]

/-- **C93 (limit).** CBO without noise, `0 < lamda*dt ≤ 1`, without batches, `alpha ≥ 0`, from any reachable state with run `m` active; `f` convex and continuous on a closed convex set that contains the particles of the run and on which
post processing does nothing. If steps are made for ever, all particles of the run converge to one point `z`, at the rate `(1 - lamda*dt)^k`, and `f(z)` is at most the mean of the objective over the particles at the start. -/
theorem C93_limit (env : Env ℝ V) (f : V → ℝ) (ν : ℕ → ℝ → ℕ → ℕ → V → V) (p : V → V) (hE : Standard env f ν p) (a : Args ℝ V) (hb : a.batchSize ≠ some 0) (s₀ : St ℝ V)
    (ops : List Op) (h0 : init env a = .ok s₀) (s : ℕ → St ℝ V) (h : execAll env (cboInner env) ops s₀ = .ok (s 0)) (hs : ∀ k, step env (cboInner env) (s k) = .ok (s (k + 1)))
    (hn : NoiseFree (s 0).sigma (s 0).lamda (s 0).dt) (hl : 0 < (s 0).lamda * (s 0).dt) (hnb : (s 0).batched = false) (m : ℕ) (hm : m ∈ (s 0).active) (ha : 0 ≤ (s 0).alpha m)
    (S : Set V) (hSc : IsClosed S) (hf : ConvexOn ℝ S f) (hcont : ContinuousOn f S) (hpS : ∀ v ∈ S, p v = v) (hx : ∀ n < (s 0).N, (s 0).x.get m n ∈ S) :
    ∃ z ∈ S, (∀ n < (s 0).N, Tendsto (fun k => (s k).x.get m n) atTop (𝓝 z)) ∧
      (∃ C, ∀ n < (s 0).N, ∀ k, ‖(s k).x.get m n - z‖ ≤ C * (1 - (s 0).lamda * (s 0).dt) ^ k) ∧
      f z ≤ (∑ n ∈ Finset.range (s 0).N, f ((s 0).x.get m n)) / (s 0).N := by
  obtain ⟨hw, hbs⟩ := std_reach hE hb h0 h
  set ρ := 1 - (s 0).lamda * (s 0).dt with hρ
  have hρ0 : 0 ≤ ρ := by linarith [hn.2.2]
  have hρ1 : ρ < 1 := by linarith
  have inv := free_run hE hw hbs hs hn hnb m hm ha hf hpS hx
  let D : ℝ := ∑ n ∈ Finset.range (s 0).N, ∑ n' ∈ Finset.range (s 0).N, ‖(s 0).x.get m n - (s 0).x.get m n'‖
  have hD : ∀ n < (s 0).N, ∀ n' < (s 0).N, ‖(s 0).x.get m n - (s 0).x.get m n'‖ ≤ D := fun n h1 n' h2 =>
    (Finset.single_le_sum (f := fun n' => ‖(s 0).x.get m n - (s 0).x.get m n'‖) (fun _ _ => norm_nonneg _) (Finset.mem_range.2 h2)).trans
      (Finset.single_le_sum (f := fun n => ∑ n' ∈ Finset.range (s 0).N, ‖(s 0).x.get m n - (s 0).x.get m n'‖) (fun _ _ => Finset.sum_nonneg fun _ _ => norm_nonneg _) (Finset.mem_range.2 h1))
  have hstep : ∀ n < (s 0).N, ∀ k, dist ((s k).x.get m n) ((s (k + 1)).x.get m n) ≤ D * ρ ^ k := by
    intro n hn' k
    obtain ⟨i1, i2, i3, i4, i5, i6, i7, i8, i9, i10, i11, i12⟩ := inv k
    have hnk : NoiseFree (s k).sigma (s k).lamda (s k).dt := by rw [i3, i4, i5]; exact hn
    obtain ⟨i, c, r, hc, hmv⟩ := free_step hE i1 i2 hnk hf.1 hpS (by rw [i8]; exact hm) (by rw [i9]; exact i10) (Or.inl i7) (hs k)
    have hcb : c ∈ Metric.closedBall ((s k).x.get m n) (D * ρ ^ k) := by
      rw [r.pairs, ← consDefault_fin]
      refine C20_convex _ _ r.ne _ (convex_closedBall _ _) fun q hq => ?_
      obtain ⟨j, hj, rfl⟩ := r.mem q hq
      rw [i9] at hj
      rw [Metric.mem_closedBall, dist_eq_norm, i12 j hj n hn', norm_smul, Real.norm_eq_abs, abs_of_nonneg (pow_nonneg hρ0 k), mul_comm]
      exact mul_le_mul_of_nonneg_right (hD j hj n hn') (pow_nonneg hρ0 k)
    rw [Metric.mem_closedBall, dist_eq_norm] at hcb
    rw [hmv n (by rw [i9]; exact hn'), dist_eq_norm]
    have e : (s k).x.get m n - ((1 - (s k).lamda * (s k).dt) • (s k).x.get m n + ((s k).lamda * (s k).dt) • c) = -(((s k).lamda * (s k).dt) • (c - (s k).x.get m n)) := by module
    rw [e, norm_neg, norm_smul, Real.norm_eq_abs, abs_of_nonneg hnk.2.1]
    exact (mul_le_of_le_one_left (norm_nonneg _) hnk.2.2).trans hcb
  obtain ⟨z, hz⟩ := cauchySeq_tendsto_of_complete (cauchySeq_of_le_geometric ρ D hρ1 (hstep 0 hw.pos))
  have hall : ∀ n < (s 0).N, Tendsto (fun k => (s k).x.get m n) atTop (𝓝 z) := by
    intro n hn'
    have h1 : Tendsto (fun k => ρ ^ k • ((s 0).x.get m n - (s 0).x.get m 0)) atTop (𝓝 ((0 : ℝ) • ((s 0).x.get m n - (s 0).x.get m 0))) :=
      (tendsto_pow_atTop_nhds_zero_of_lt_one hρ0 hρ1).smul_const _
    have h2 := h1.add hz
    rw [zero_smul, zero_add] at h2
    refine h2.congr fun k => ?_
    rw [← (inv k).2.2.2.2.2.2.2.2.2.2.2 n hn' 0 hw.pos, sub_add_cancel]
  have hzS : z ∈ S := hSc.mem_of_tendsto hz (Eventually.of_forall fun k => (inv k).2.2.2.2.2.2.2.2.2.1 0 hw.pos)
  refine ⟨z, hzS, hall, ⟨D / (1 - ρ), fun n hn' k => ?_⟩, ?_⟩
  · have := dist_le_of_le_geometric_of_tendsto ρ D hρ1 (hstep n hn') (hall n hn') k
    rw [dist_eq_norm] at this
    exact this.trans_eq (by ring)
  · have hN : (0 : ℝ) < (s 0).N := by exact_mod_cast hw.pos
    rw [le_div_iff₀ hN]
    have h1 : Tendsto (fun k => ∑ n ∈ Finset.range (s 0).N, f ((s k).x.get m n)) atTop (𝓝 (∑ _n ∈ Finset.range (s 0).N, f z)) :=
      tendsto_finsetSum _ fun n hn' => by
        have hn' := Finset.mem_range.1 hn'
        exact (hcont z hzS).tendsto.comp (tendsto_nhdsWithin_iff.2 ⟨hall n hn', Eventually.of_forall fun k => (inv k).2.2.2.2.2.2.2.2.2.1 n hn'⟩)
    rw [Finset.sum_const, Finset.card_range, nsmul_eq_mul, mul_comm] at h1
    exact le_of_tendsto h1 (Eventually.of_forall fun k => (inv k).2.2.2.2.2.2.2.2.2.2.1)

/-- **C93 (best particle).** The same, with `alpha > 0` and `f` Lipschitz with constant `L` on the set, where the particles of the run are at most `D` apart at the start: the objective at the limit exceeds the value of *no* initial particle by more than
`K*lamda*dt*log(N)/alpha + L*D*(1 - lamda*dt)^K`, for every `K`; so for large `alpha` (take `K` of the order `log alpha`) the limit is as good as the best initial particle. -/
theorem C93_best (env : Env ℝ V) (f : V → ℝ) (ν : ℕ → ℝ → ℕ → ℕ → V → V) (p : V → V) (hE : Standard env f ν p) (a : Args ℝ V) (hb : a.batchSize ≠ some 0) (s₀ : St ℝ V)
    (ops : List Op) (h0 : init env a = .ok s₀) (s : ℕ → St ℝ V) (h : execAll env (cboInner env) ops s₀ = .ok (s 0)) (hs : ∀ k, step env (cboInner env) (s k) = .ok (s (k + 1)))
    (hn : NoiseFree (s 0).sigma (s 0).lamda (s 0).dt) (hl : 0 < (s 0).lamda * (s 0).dt) (hnb : (s 0).batched = false) (m : ℕ) (hm : m ∈ (s 0).active) (ha : 0 < (s 0).alpha m)
    (S : Set V) (hSc : IsClosed S) (hf : ConvexOn ℝ S f) (L : NNReal) (hL : LipschitzOnWith L f S) (hpS : ∀ v ∈ S, p v = v) (hx : ∀ n < (s 0).N, (s 0).x.get m n ∈ S)
    (D : ℝ) (hD : ∀ n < (s 0).N, ∀ n' < (s 0).N, ‖(s 0).x.get m n - (s 0).x.get m n'‖ ≤ D) :
    ∃ z ∈ S, (∀ n < (s 0).N, Tendsto (fun k => (s k).x.get m n) atTop (𝓝 z)) ∧ ∀ n < (s 0).N, ∀ K : ℕ,
      f z ≤ f ((s 0).x.get m n) + K * ((s 0).lamda * (s 0).dt * (Real.log (s 0).N / (s 0).alpha m)) + L * (D * (1 - (s 0).lamda * (s 0).dt) ^ K) := by
  obtain ⟨hw, hbs⟩ := std_reach hE hb h0 h
  have inv := free_run hE hw hbs hs hn hnb m hm ha.le hf hpS hx
  obtain ⟨z, hz, hlim, -, -⟩ := C93_limit env f ν p hE a hb s₀ ops h0 s h hs hn hl hnb m hm ha.le S hSc hf hL.continuousOn hpS hx
  refine ⟨z, hz, hlim, fun n hn' K => ?_⟩
  set ρ := 1 - (s 0).lamda * (s 0).dt with hρ
  have hρ0 : 0 ≤ ρ := by linarith [hn.2.2]
  have hrun : ∀ k, execAll env (cboInner env) (ops ++ List.replicate k .step) s₀ = .ok (s k) := by
    intro k
    induction k with
    | zero => simpa using h
    | succ k ih =>
      rw [List.replicate_succ', ← List.append_assoc, execAll_append, ih]
      simpa [execAll, exec, bind_ok] using hs k
  have hup : ∀ k : ℕ, f ((s k).x.get m n) ≤ f ((s 0).x.get m n) + k * ((s 0).lamda * (s 0).dt * (Real.log (s 0).N / (s 0).alpha m)) := by
    intro k
    induction k with
    | zero => simp
    | succ k ih =>
      obtain ⟨i1, i2, i3, i4, i5, i6, i7, i8, i9, i10, -, -⟩ := inv k
      have := free_step_best hE i1 i2 (by rw [i3, i4, i5]; exact hn) hf hpS (by rw [i8]; exact hm) (by rw [i9]; exact i10) i7 (by rw [i6]; exact ha) (hs k) n (by rw [i9]; exact hn')
      rw [i4, i5, i6, i9] at this
      push_cast
      linarith
  obtain ⟨i1, i2, i3, i4, i5, i6, i7, i8, i9, i10, -, i12⟩ := inv K
  obtain ⟨z', -, hlim', -, hm'⟩ := C93_limit env f ν p hE a hb s₀ (ops ++ List.replicate K .step) h0 (fun k => s (K + k)) (hrun K) (fun k => hs (K + k)) (by simp only [Nat.add_zero]; rw [i3, i4, i5]; exact hn)
    (by simp only [Nat.add_zero]; rw [i4, i5]; exact hl) i7 m (by simp only [Nat.add_zero]; rw [i8]; exact hm) (by simp only [Nat.add_zero]; rw [i6]; exact ha.le) S hSc hf hL.continuousOn hpS
    (by simp only [Nat.add_zero]; rw [i9]; exact i10)
  simp only [Nat.add_zero] at hlim' hm'
  rw [i9] at hlim' hm'
  have hzz : z' = z := by
    have h1 := hlim' n hn'
    have h2 := (hlim n hn').comp (tendsto_add_atTop_nat K)
    refine tendsto_nhds_unique h1 (h2.congr fun k => ?_)
    simp [add_comm]
  rw [hzz] at hm'
  have hN : (0 : ℝ) < (s 0).N := by exact_mod_cast hw.pos
  have hmean : (∑ j ∈ Finset.range (s 0).N, f ((s K).x.get m j)) / (s 0).N ≤ f ((s K).x.get m n) + L * (D * ρ ^ K) := by
    rw [div_le_iff₀ hN]
    refine (Finset.sum_le_card_nsmul _ _ (f ((s K).x.get m n) + L * (D * ρ ^ K)) fun j hj => ?_).trans_eq (by rw [Finset.card_range, nsmul_eq_mul, mul_comm])
    have hj := Finset.mem_range.1 hj
    have h1 := hL.dist_le_mul _ (i10 j hj) _ (i10 n hn')
    rw [Real.dist_eq, dist_eq_norm, i12 j hj n hn', norm_smul, Real.norm_eq_abs, abs_of_nonneg (pow_nonneg hρ0 K)] at h1
    have h2 : (L : ℝ) * (ρ ^ K * ‖(s 0).x.get m j - (s 0).x.get m n‖) ≤ L * (D * ρ ^ K) := by
      rw [mul_comm D]
      exact mul_le_mul_of_nonneg_left (mul_le_mul_of_nonneg_left (hD j hj n hn') (pow_nonneg hρ0 K)) L.coe_nonneg
    have h3 := le_abs_self (f ((s K).x.get m j) - f ((s K).x.get m n))
    linarith
  have := hup K
  linarith

end

theorem Example.square_convex (S : Set (Fin 2 → ℝ)) (hS : Convex ℝ S) : ConvexOn ℝ S fun v : Fin 2 → ℝ => v 0 ^ 2 + v 1 ^ 2 := by
  refine ⟨hS, fun x _ y _ a b ha hb hab => ?_⟩
  have h : ∀ u w : ℝ, (a * u + b * w) ^ 2 ≤ a * u ^ 2 + b * w ^ 2 := fun u w => by
    have e : a * u ^ 2 + b * w ^ 2 - (a * u + b * w) ^ 2 = a * b * (u - w) ^ 2 := by
      have : b = 1 - a := by linarith
      subst this; ring
    have := mul_nonneg (mul_nonneg ha hb) (sq_nonneg (u - w))
    linarith
  have h0 := h (x 0) (y 0)
  have h1 := h (x 1) (y 1)
  simp only [Pi.add_apply, Pi.smul_apply, smul_eq_mul]
  linarith

theorem Example.box_clip (v : Fin 2 → ℝ) (hv : v ∈ Set.Icc (fun _ => (-100 : ℝ)) (fun _ => 100)) : clipVec 100 v = v := clipVec_id 100 v fun i => ⟨hv.1 i, hv.2 i⟩

/-- C93 (consensus point): the same ensemble with noise (`sigma = 3`) and batches of three particles: the first step succeeds, and its consensus point of run 0 exceeds the value of no particle
of the batch by more than `log(batch size)/alpha`. -/
example :
    let env := Example.realEnv (rowNoise isoRule Example.smp)
    let a := Example.realArgs (fun m n => ![n + m, 2 - n]) 3 (some 3)
    ∃ s₀ s, init env a = .ok s₀ ∧ step env (cboInner env) s₀ = .ok s ∧ ∃ i cm, s.cons = some cm ∧ ∀ j < s.cIdx.cols,
      cm.get i 0 0 ^ 2 + cm.get i 0 1 ^ 2 ≤ s₀.x.get 0 (s.cIdx.par i j) 0 ^ 2 + s₀.x.get 0 (s.cIdx.par i j) 1 ^ 2 + Real.log s.cIdx.cols / s₀.alpha 0 := by
  intro env a
  obtain ⟨s₀, h0, h1⟩ := Example.realEnv_runs isoRule (fun m n => ![(n : ℝ) + m, 2 - n]) 3 (some 3)
  obtain ⟨s, hs⟩ := h1 [.step]
  have hst : step env (cboInner env) s₀ = .ok s := by simpa [execAll, exec, bind_ok] using hs
  have f0 : s₀.alpha 0 = a.alpha ∧ s₀.active = [0, 1] := by
    have h0' := h0
    unfold init at h0'
    split_ifs at h0'
    all_goals
      injection h0' with h0'
      subst h0'
      exact ⟨rfl, rfl⟩
  obtain ⟨i, cm, -, h2, h3, -⟩ := C93_consensus env _ _ _ (Example.realEnv_standard isoRule) a (by simp [a, Example.realArgs]) s₀ s₀ s [] h0 rfl hst Set.univ
    (Example.square_convex _ convex_univ) 0 (by rw [f0.2]; simp) (fun _ _ => trivial)
  exact ⟨s₀, s, h0, hst, i, cm, h2, h3 (by rw [f0.1]; simp [a, Example.realArgs])⟩

/-- C93 (mean, worst particle): two runs of four particles on the plane, objective `|v|²`, no noise, `alpha` doubled by the scheduler, any sequence of operations: all succeed, and the
mean objective of run 0 stays at most `5`, its maximum at most `10`. -/
example (ops : List Op) :
    let env := Example.realEnv (rowNoise isoRule Example.smp)
    let a := Example.realArgs (fun m n => ![n + m, 2 - n]) 0 none
    ∃ s₀ s, init env a = .ok s₀ ∧ execAll env (cboInner env) ops s₀ = .ok s ∧
      (∑ n ∈ Finset.range 4, (s.x.get 0 n 0 ^ 2 + s.x.get 0 n 1 ^ 2)) / 4 ≤ 5 ∧ ∀ n < 4, s.x.get 0 n 0 ^ 2 + s.x.get 0 n 1 ^ 2 ≤ 10 := by
  intro env a
  obtain ⟨s₀, h0, h1⟩ := Example.realEnv_runs isoRule (fun m n => ![(n : ℝ) + m, 2 - n]) 0 none
  obtain ⟨s, hs⟩ := h1 ops
  have hE := Example.realEnv_standard isoRule
  have hbox : ∀ n < 4, a.x0.get 0 n ∈ Set.Icc (fun _ => (-100 : ℝ)) (fun _ : Fin 2 => 100) := by
    intro n hn
    constructor <;> intro i <;> interval_cases n <;> fin_cases i <;> simp [a, Example.realArgs] <;> norm_num
  have hnf : NoiseFree a.sigma a.lamda a.dt := ⟨rfl, by simp [a, Example.realArgs], by simp only [a, Example.realArgs]; norm_num⟩
  refine ⟨s₀, s, h0, hs, ?_, ?_⟩
  · have := C93_mean env _ _ _ hE a rfl 0 ⟨hnf, by simp [a, Example.realArgs]⟩ (fun q r hq hr => by
      simp only [env, Example.realEnv] at hr
      injection hr with hr
      subst hr
      exact ⟨hq.1, le_min (by linarith [hq.2]) (by norm_num)⟩) s₀ s ops h0 hs _ (Example.square_convex _ (convex_Icc _ _)) Example.box_clip hbox
    refine (this.trans_eq' rfl).trans ?_
    simp only [a, Example.realArgs, Finset.sum_range_succ, Finset.sum_range_zero]
    norm_num
  · exact C93_worst env _ _ _ hE a (by simp [a, Example.realArgs]) s₀ s ops h0 hnf (fun q r hq hr => by
      simp only [env, Example.realEnv] at hr
      injection hr with hr
      subst hr
      exact hq) hs _ (Example.square_convex _ (convex_Icc _ _)).quasiconvexOn Example.box_clip 0 hbox 10 (fun n hn => by
        have hn : n < 4 := hn
        interval_cases n <;> simp [a, Example.realArgs] <;> norm_num)

/-- C93 (limit): the same ensemble; steps for ever succeed and converge. -/
example :
    let env := Example.realEnv (rowNoise isoRule Example.smp)
    let a := Example.realArgs (fun m n => ![n + m, 2 - n]) 0 none
    ∃ (s₀ : St ℝ (Fin 2 → ℝ)) (s : ℕ → St ℝ (Fin 2 → ℝ)), init env a = .ok s₀ ∧ s 0 = s₀ ∧ (∀ k, step env (cboInner env) (s k) = .ok (s (k + 1))) ∧
      ∃ z, (∀ n < 4, Tendsto (fun k => (s k).x.get 0 n) atTop (𝓝 z)) ∧ z 0 ^ 2 + z 1 ^ 2 ≤ 5 := by
  intro env a
  obtain ⟨s₀, h0, h1⟩ := Example.realEnv_runs isoRule (fun m n => ![(n : ℝ) + m, 2 - n]) 0 none
  have hE := Example.realEnv_standard isoRule
  choose t ht using fun k => h1 (List.replicate k .step)
  have e0 : t 0 = s₀ := by
    have := ht 0
    simp only [List.replicate_zero, execAll] at this
    injection this with this
    exact this.symm
  have hst : ∀ k, step env (cboInner env) (t k) = .ok (t (k + 1)) := by
    intro k
    have h2 := ht (k + 1)
    rw [List.replicate_succ', execAll_append, ht k] at h2
    simpa [execAll, exec, bind_ok] using h2
  have f0 : s₀.x = a.x0 ∧ s₀.N = 4 ∧ s₀.sigma = a.sigma ∧ s₀.lamda = a.lamda ∧ s₀.dt = a.dt ∧ s₀.batched = false ∧ s₀.alpha 0 = a.alpha ∧ s₀.active = [0, 1] := by
    have h0' := h0
    unfold init at h0'
    split_ifs at h0'
    all_goals
      injection h0' with h0'
      subst h0'
      exact ⟨rfl, rfl, rfl, rfl, rfl, rfl, rfl, rfl⟩
  obtain ⟨g1, g2, g3, g4, g5, g6, g7, g8⟩ := f0
  have hbox : ∀ n < 4, a.x0.get 0 n ∈ Set.Icc (fun _ => (-100 : ℝ)) (fun _ : Fin 2 => 100) := by
    intro n hn
    constructor <;> intro i <;> interval_cases n <;> fin_cases i <;> simp [a, Example.realArgs] <;> norm_num
  obtain ⟨z, -, h2, -, h3⟩ := C93_limit env _ _ _ hE a (by simp [a, Example.realArgs]) s₀ [] h0 t (by rw [e0]; rfl) hst
    (by rw [e0, g3, g4, g5]; exact ⟨rfl, by simp [a, Example.realArgs], by simp only [a, Example.realArgs]; norm_num⟩)
    (by rw [e0, g4, g5]; simp [a, Example.realArgs]) (by rw [e0, g6]) 0 (by rw [e0, g8]; simp) (by rw [e0, g7]; simp [a, Example.realArgs]) _ isClosed_Icc
    (Example.square_convex _ (convex_Icc _ _)) (by fun_prop) Example.box_clip (by rw [e0, g1, g2]; exact hbox)
  rw [e0, g2] at h2 h3
  rw [g1] at h3
  refine ⟨s₀, t, h0, e0, hst, z, h2, h3.trans ?_⟩
  simp only [a, Example.realArgs, Finset.sum_range_succ, Finset.sum_range_zero]
  norm_num

/-- C93 (best particle): the same ensemble; the limit exceeds no particle by more than `K*log(4)/(10*alpha) + 1200*(9/10)^K`. -/
example :
    let env := Example.realEnv (rowNoise isoRule Example.smp)
    let a := Example.realArgs (fun m n => ![n + m, 2 - n]) 0 none
    ∃ (s₀ : St ℝ (Fin 2 → ℝ)) (s : ℕ → St ℝ (Fin 2 → ℝ)), init env a = .ok s₀ ∧ s 0 = s₀ ∧ (∀ k, step env (cboInner env) (s k) = .ok (s (k + 1))) ∧
      ∃ z, (∀ n < 4, Tendsto (fun k => (s k).x.get 0 n) atTop (𝓝 z)) ∧
        ∀ n < 4, ∀ K : ℕ, z 0 ^ 2 + z 1 ^ 2 ≤ s₀.x.get 0 n 0 ^ 2 + s₀.x.get 0 n 1 ^ 2 + K * (s₀.lamda * s₀.dt * (Real.log (4 : ℕ) / s₀.alpha 0)) + 400 * (3 * (1 - s₀.lamda * s₀.dt) ^ K) := by
  intro env a
  obtain ⟨s₀, h0, h1⟩ := Example.realEnv_runs isoRule (fun m n => ![(n : ℝ) + m, 2 - n]) 0 none
  have hE := Example.realEnv_standard isoRule
  choose t ht using fun k => h1 (List.replicate k .step)
  have e0 : t 0 = s₀ := by
    have := ht 0
    simp only [List.replicate_zero, execAll] at this
    injection this with this
    exact this.symm
  have hst : ∀ k, step env (cboInner env) (t k) = .ok (t (k + 1)) := by
    intro k
    have h2 := ht (k + 1)
    rw [List.replicate_succ', execAll_append, ht k] at h2
    simpa [execAll, exec, bind_ok] using h2
  have f0 : s₀.x = a.x0 ∧ s₀.N = 4 ∧ s₀.sigma = a.sigma ∧ s₀.lamda = a.lamda ∧ s₀.dt = a.dt ∧ s₀.batched = false ∧ s₀.alpha 0 = a.alpha ∧ s₀.active = [0, 1] := by
    have h0' := h0
    unfold init at h0'
    split_ifs at h0'
    all_goals
      injection h0' with h0'
      subst h0'
      exact ⟨rfl, rfl, rfl, rfl, rfl, rfl, rfl, rfl⟩
  obtain ⟨g1, g2, g3, g4, g5, g6, g7, g8⟩ := f0
  have hbox : ∀ n < 4, a.x0.get 0 n ∈ Set.Icc (fun _ => (-100 : ℝ)) (fun _ : Fin 2 => 100) := by
    intro n hn
    constructor <;> intro i <;> interval_cases n <;> fin_cases i <;> simp [a, Example.realArgs] <;> norm_num
  have hLip : LipschitzOnWith 400 (fun v : Fin 2 → ℝ => v 0 ^ 2 + v 1 ^ 2) (Set.Icc (fun _ => (-100 : ℝ)) (fun _ : Fin 2 => 100)) := by
    refine LipschitzOnWith.of_dist_le_mul fun v hv w hw => ?_
    have key : ∀ i : Fin 2, |v i ^ 2 - w i ^ 2| ≤ 200 * dist v w := fun i => by
      have h1 : |v i - w i| ≤ dist v w := by rw [← Real.dist_eq]; exact dist_le_pi_dist v w i
      have h2 : |v i + w i| ≤ 200 := abs_le.2 ⟨by linarith [hv.1 i, hw.1 i], by linarith [hv.2 i, hw.2 i]⟩
      rw [show v i ^ 2 - w i ^ 2 = (v i + w i) * (v i - w i) by ring, abs_mul]
      exact mul_le_mul h2 h1 (abs_nonneg _) (by norm_num)
    rw [Real.dist_eq, show v 0 ^ 2 + v 1 ^ 2 - (w 0 ^ 2 + w 1 ^ 2) = (v 0 ^ 2 - w 0 ^ 2) + (v 1 ^ 2 - w 1 ^ 2) by ring]
    have := abs_add_le (v 0 ^ 2 - w 0 ^ 2) (v 1 ^ 2 - w 1 ^ 2)
    have h0 := key 0
    have h1 := key 1
    push_cast
    linarith
  obtain ⟨z, -, h2, h3⟩ := C93_best env _ _ _ hE a (by simp [a, Example.realArgs]) s₀ [] h0 t (by rw [e0]; rfl) hst
    (by rw [e0, g3, g4, g5]; exact ⟨rfl, by simp [a, Example.realArgs], by simp only [a, Example.realArgs]; norm_num⟩)
    (by rw [e0, g4, g5]; simp [a, Example.realArgs]) (by rw [e0, g6]) 0 (by rw [e0, g8]; simp) (by rw [e0, g7]; simp [a, Example.realArgs]) _ isClosed_Icc
    (Example.square_convex _ (convex_Icc _ _)) 400 hLip Example.box_clip (by rw [e0, g1, g2]; exact hbox) 3 (by
      rw [e0, g1, g2]
      intro n hn n' hn'
      rw [pi_norm_le_iff_of_nonneg (by norm_num)]
      intro i
      rw [Real.norm_eq_abs]
      interval_cases n <;> interval_cases n' <;> fin_cases i <;> simp [a, Example.realArgs] <;> norm_num)
  rw [e0, g2] at h2 h3
  exact ⟨s₀, t, h0, e0, hst, z, h2, h3⟩

/-- **C93 is false without convexity.** Objective `(v₀² - 1)²`: the particles start at minimisers on both sides, and after one step without noise every particle of the run is worse than all were at the start. -/
theorem C93_nonconvex_false : ∃ s₀ s, init Example.valleyEnv (Example.realArgs (fun _ n => ![(-1) ^ n, n]) 0 none) = .ok s₀ ∧
    execAll Example.valleyEnv (cboInner Example.valleyEnv) [.step] s₀ = .ok s ∧ (∀ n, Example.valleyEnv.f (s₀.x.get 0 n) = .fin 0) ∧
      ∀ n < 4, ∃ e, Example.valleyEnv.f (s.x.get 0 n) = .fin e ∧ 0 < e := by
  set a := Example.realArgs (fun _ n => ![(-1) ^ n, n]) 0 none with ha
  have hE := Example.valley_standard
  obtain ⟨s₀, h0, h1⟩ := C19_never_raises_partial Example.valleyEnv Example.valley_ok hE.perm a (by simp [a, Example.realArgs]) (by simp [a, Example.realArgs]) (by
    intro tm ht
    simp only [a, Example.realArgs, List.mem_cons, List.not_mem_nil, or_false] at ht
    rcases ht with rfl | rfl <;> trivial) (fun h => by cases h)
  obtain ⟨s, hs, -⟩ := h1 [.step] (fun h => by cases h)
  have f0 : s₀.x = a.x0 ∧ s₀.N = 4 ∧ s₀.sigma = a.sigma ∧ s₀.lamda = a.lamda ∧ s₀.dt = a.dt ∧ s₀.batched = false ∧ s₀.alpha 0 = a.alpha ∧ s₀.active = [0, 1] := by
    have h0' := h0
    unfold init at h0'
    split_ifs at h0'
    all_goals
      injection h0' with h0'
      subst h0'
      exact ⟨rfl, rfl, rfl, rfl, rfl, rfl, rfl, rfl⟩
  obtain ⟨g1, g2, g3, g4, g5, g6, g7, g8⟩ := f0
  have hst : step Example.valleyEnv (cboInner Example.valleyEnv) s₀ = .ok s := by simpa [execAll, exec, bind_ok] using hs
  obtain ⟨hw, hbs⟩ := std_reach hE (a := a) (by simp [a, Example.realArgs]) (ops := []) h0 rfl
  have hf0 : ∀ n : ℕ, (((-1 : ℝ) ^ n) ^ 2 - 1) ^ 2 = 0 := fun n => by rw [← pow_mul, mul_comm, pow_mul]; norm_num
  have hx0 : ∀ n, s₀.x.get 0 n = ![(-1) ^ n, (n : ℝ)] := fun n => by rw [g1]; rfl
  obtain ⟨i, c, r, -, hmv⟩ := free_step hE hw hbs (by rw [g3, g4, g5]; exact ⟨rfl, by simp [a, Example.realArgs], by simp only [a, Example.realArgs]; norm_num⟩)
    (convex_Icc (fun _ => (-100 : ℝ)) (fun _ : Fin 2 => 100)) Example.box_clip (m := 0) (by rw [g8]; simp) (by
      rw [g1, g2]
      intro n hn
      constructor <;> intro i <;> interval_cases n <;> fin_cases i <;> simp [a, Example.realArgs] <;> norm_num) (Or.inl g6) hst
  have fr := step_frame (by rw [cboInner_eq]; exact consThen_frame (cboMove_ok Example.valleyEnv)) hst
  have hc : c 0 = 0 := by
    rw [r.pairs, batchPairs_full (env := Example.valleyEnv) hw g6 fr.cIdx r.pos r.act, g2]
    simp only [gibbs, List.map_map, Function.comp_def, hx0]
    simp [List.range_succ, hf0]
    right; norm_num
  refine ⟨s₀, s, h0, hs, fun n => ?_, fun n hn => ⟨_, rfl, ?_⟩⟩
  · rw [hx0]; exact congrArg Flt.fin (hf0 n)
  · have e : s.x.get 0 n 0 = (9 / 10) * (-1) ^ n := by
      rw [hmv n (by rw [g2]; exact hn)]
      simp only [Pi.add_apply, Pi.smul_apply, smul_eq_mul, hc, hx0, g4, g5, a, Example.realArgs]
      simp
      norm_num
    rw [e, mul_pow, ← pow_mul, mul_comm n 2, pow_mul]
    norm_num

end Verif
