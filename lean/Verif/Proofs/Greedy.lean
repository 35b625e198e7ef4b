import Verif.Spec.Greedy
import Verif.Proofs.Hull
import Mathlib.Analysis.SpecialFunctions.Exp

/-! Limits of consensus points and of steps for `alpha → ∞` (for C115). -/

set_option linter.unusedSectionVars false

namespace Verif

open Filter Topology

section
variable {V J : Type} [NormedAddCommGroup V] [NormedSpace ℝ V] {L : Filter J}

/-- Consensus points of converging ensembles with converging energies tend to the best particle of the limit. -/
theorem gibbs_limit {n : ℕ} {α : J → ℝ} (hα : Tendsto α L atTop) {e : J → ℕ → ℝ} {e' : ℕ → ℝ} (he : ∀ i < n, Tendsto (fun j => e j i) L (𝓝 (e' i))) {y : J → ℕ → V} {y' : ℕ → V}
    (hy : ∀ i < n, Tendsto (fun j => y j i) L (𝓝 (y' i))) {i₀ : ℕ} (hi₀ : i₀ < n) (hmin : ∀ i < n, e' i₀ ≤ e' i) (huniq : ∀ i < n, e' i = e' i₀ → y' i = y' i₀) :
    Tendsto (fun j => gibbs (α j) ((List.range n).map fun i => (e j i, y j i))) L (𝓝 (y' i₀)) := by
  let w : J → ℕ → ℝ := fun j i => Real.exp (-(α j * e j i))
  let Z : J → ℝ := fun j => ∑ i ∈ Finset.range n, w j i
  have hw : ∀ j i, 0 < w j i := fun j i => Real.exp_pos _
  have hZ : ∀ j, 0 < Z j := fun j => Finset.sum_pos (fun i _ => hw j i) ⟨i₀, Finset.mem_range.2 hi₀⟩
  have hg : ∀ j, gibbs (α j) ((List.range n).map fun i => (e j i, y j i)) - y' i₀ = ∑ i ∈ Finset.range n, ((Z j)⁻¹ * w j i) • (y j i - y' i₀) := by
    intro j
    have e1 : gibbs (α j) ((List.range n).map fun i => (e j i, y j i)) = (Z j)⁻¹ • ∑ i ∈ Finset.range n, w j i • y j i := by
      unfold gibbs
      simp only [List.map_map]
      rfl
    have e2 : ∑ i ∈ Finset.range n, ((Z j)⁻¹ * w j i) = 1 := by
      rw [← Finset.mul_sum]
      exact inv_mul_cancel₀ (hZ j).ne'
    simp only [smul_sub, Finset.sum_sub_distrib]
    rw [← Finset.sum_smul, e2, one_smul, e1, Finset.smul_sum]
    simp only [mul_smul]
  have hsum : Tendsto (fun j => ∑ i ∈ Finset.range n, ((Z j)⁻¹ * w j i) • (y j i - y' i₀)) L (𝓝 (∑ _i ∈ Finset.range n, (0 : V))) := by
    refine tendsto_finset_sum _ fun i hi => ?_
    have hi' := Finset.mem_range.1 hi
    by_cases hb : e' i = e' i₀
    · -- the weight is at most one, the particle tends to the best one
      have h1 : Tendsto (fun j => ‖y j i - y' i₀‖) L (𝓝 0) := by
        have := ((hy i hi').sub_const (y' i₀)).norm
        rwa [huniq i hi' hb, sub_self, norm_zero] at this
      refine squeeze_zero_norm (fun j => ?_) h1
      rw [norm_smul, Real.norm_eq_abs, abs_of_pos (mul_pos (inv_pos.2 (hZ j)) (hw j i))]
      refine mul_le_of_le_one_left (norm_nonneg _) ?_
      rw [inv_mul_le_iff₀ (hZ j), mul_one]
      exact Finset.single_le_sum (f := w j) (fun i _ => (hw j i).le) hi
    · -- the weight tends to zero
      have hlt : 0 < e' i - e' i₀ := sub_pos.2 (lt_of_le_of_ne (hmin i hi') (Ne.symm hb))
      have h1 : Tendsto (fun j => Real.exp (-(α j * (e j i - e j i₀)))) L (𝓝 0) :=
        Real.tendsto_exp_neg_atTop_nhds_zero.comp (hα.atTop_mul_pos hlt ((he i hi').sub (he i₀ hi₀)))
      have h2 : Tendsto (fun j => ‖y j i - y' i₀‖) L (𝓝 ‖y' i - y' i₀‖) := ((hy i hi').sub_const (y' i₀)).norm
      have h3 := h1.mul h2
      rw [zero_mul] at h3
      refine squeeze_zero_norm (fun j => ?_) h3
      rw [norm_smul, Real.norm_eq_abs, abs_of_pos (mul_pos (inv_pos.2 (hZ j)) (hw j i))]
      refine mul_le_mul_of_nonneg_right ?_ (norm_nonneg _)
      rw [inv_mul_le_iff₀ (hZ j)]
      have h4 : w j i₀ ≤ Z j := Finset.single_le_sum (f := w j) (fun i _ => (hw j i).le) (Finset.mem_range.2 hi₀)
      refine le_trans (le_of_eq ?_) (mul_le_mul_of_nonneg_right h4 (Real.exp_pos _).le)
      simp only [w, ← Real.exp_add]
      congr 1
      ring
  rw [Finset.sum_const_zero] at hsum
  have := (hsum.congr fun j => (hg j).symm).add_const (y' i₀)
  simpa using this

end

section
variable {V : Type} [AddCommGroup V] [Module ℝ V]

/-- The batches of a step depend on the common part only. -/
theorem sameCourse_pre {env env' : Env ℝ V} (hperm : env'.perm = env.perm) {s t : St ℝ V} (h : SameCourse s t) :
    (preStep env s).cIdx = (preStep env' t).cIdx ∧ (preStep env s).pIdx = (preStep env' t).pIdx ∧ (preStep env s).indices = (preStep env' t).indices ∧ (preStep env s).perms = (preStep env' t).perms := by
  obtain ⟨h1, h2, h3, h4, h5, h6, h7, h8, h9, -, -, -, -⟩ := h
  simp only [preStep, setBatch, setBatchBatched, setBatchUnbatched, refill, freshIndices, h1, h2, h3, h4, h5, h6, h7, h8, h9, hperm]
  split_ifs <;> simp only [h1, h2, h3, h4, h5, h6, h7, h8, h9, and_self]

theorem sameCourse_step {env env' : Env ℝ V} (hperm : env'.perm = env.perm) {s t s' t' : St ℝ V} (h : SameCourse s t) (f : StepFrame env s s') (f' : StepFrame env' t t') (hd : s'.draws = s.draws + 1)
    (hd' : t'.draws = t.draws + 1) : SameCourse s' t' ∧ s'.cIdx = t'.cIdx ∧ s'.pIdx = t'.pIdx := by
  obtain ⟨p1, p2, p3, p4⟩ := sameCourse_pre hperm h
  refine ⟨⟨?_, ?_, ?_, ?_, ?_, ?_, ?_, ?_, ?_, ?_, ?_, ?_, ?_⟩, ?_, ?_⟩
  · rw [f.M, f'.M, h.M]
  · rw [f.N, f'.N, h.N]
  · rw [f.active, f'.active, h.active]
  · rw [f.batched, f'.batched, h.batched]
  · rw [f.batchPartial, f'.batchPartial, h.batchPartial]
  · rw [f.batchConcat, f'.batchConcat, h.batchConcat]
  · rw [f.batchSize, f'.batchSize, h.batchSize]
  · rw [f.indices, f'.indices, p3]
  · rw [f.perms, f'.perms, p4]
  · rw [f.lamda, f'.lamda, h.lamda]
  · rw [f.dt, f'.dt, h.dt]
  · rw [f.sigma, f'.sigma, h.sigma]
  · rw [hd, hd', h.draws]
  · rw [f.cIdx, f'.cIdx, p1]
  · rw [f.pIdx, f'.pIdx, p2]

/-- The last column in which row `i` of an index array selects particle `n`. -/
noncomputable def slotOf (ix : Idx) (i n : ℕ) : ℕ :=
  open Classical in if h : ∃ j, j < ix.cols ∧ ix.par i j = n ∧ ∀ j', j < j' → j' < ix.cols → ix.par i j' ≠ n then h.choose else 0

theorem slotOf_eq {ix : Idx} {i n j : ℕ} (h1 : j < ix.cols) (h2 : ix.par i j = n) (h3 : ∀ j', j < j' → j' < ix.cols → ix.par i j' ≠ n) : slotOf ix i n = j := by
  have hx : ∃ j, j < ix.cols ∧ ix.par i j = n ∧ ∀ j', j < j' → j' < ix.cols → ix.par i j' ≠ n := ⟨j, h1, h2, h3⟩
  unfold slotOf
  rw [dif_pos hx]
  obtain ⟨g1, g2, g3⟩ := hx.choose_spec
  rcases lt_trichotomy hx.choose j with q | q | q
  · exact absurd h2 (g3 _ q h1)
  · exact q
  · exact absurd g2 (h3 _ q g1)

/-- One step in terms of the consensus point, with the slots of the random numbers. -/
theorem slot_step {env : Env ℝ V} {r : List (ℝ × Flt ℝ × V) → V} {ν : ℕ → ℝ → ℕ → ℕ → V → V} {p : V → V} (hcorr : env.corr = .none) (hcons : env.cons = .mean r) (hn : NoiseRows env ν) (hpm : PostMap env p)
    (hp : PermOK env) {s s' : St ℝ V} (hw : WF s) (h : step env (cboInner env) s = .ok s') :
    s'.draws = s.draws + 1 ∧ ∃ cm, s'.cons = some cm ∧ ∀ i < s.active.length, cm.get i 0 = r (sampleOf env { s with cIdx := s'.cIdx } i) ∧
      ∀ n, s'.x.get (s.active.getD i 0) n = if s'.pIdx.Sel (s.active.getD i 0) n then
        p (s.x.get (s.active.getD i 0) n + cboUpdate s.lamda s.dt s.sigma (s.x.get (s.active.getD i 0) n - cm.get i 0)
          (ν s.draws s.dt i (slotOf s'.pIdx i n) (s.x.get (s.active.getD i 0) n - cm.get i 0))) else p (s.x.get (s.active.getD i 0) n) := by
  obtain ⟨c, d, nn, xm, cs⟩ := cboStep_facts hcorr hn.ok.shape hcons hp hw h
  have fr := step_frame (by rw [cboInner_eq]; exact consThen_frame (cboMove_ok env)) h
  have hix := preStep_idx env hp hw
  have hpost : ∀ m k, s'.x.get m k = p (xm.get m k) := by
    intro m k
    obtain ⟨q, hq1, hq2⟩ := cs.post
    rw [hpm q, hq1] at hq2
    injection hq2 with hq2
    rw [← hq2]; rfl
  refine ⟨cs.draws, c, cs.cons, fun i hi => ⟨cs.cget i hi, fun n => ?_⟩⟩
  split_ifs with hsel
  · obtain ⟨i', hi', j, hj, e1, e2, e3, e4⟩ := cs.slot _ _ hsel
    have hpr : s'.pIdx.run i' = s.active.getD i' 0 := by rw [fr.pIdx, hix.pRun i' hi']
    have hii : i' = i := getD_inj hw.nodup hi' hi (by rw [← hpr, e1])
    subst hii
    obtain ⟨q, q1, q2, q3, q4, q5, -⟩ := cs.noise
    obtain ⟨n', hn', -, -, hn3⟩ := hn q d q2
    rw [q1] at hn'
    injection hn' with hn'
    subst hn'
    rw [slotOf_eq hj e2 e3, hpost, e4, hn3, q3, q5, cs.dget i' hi' j hj, e1, e2]
  · rw [hpost, cs.unsel _ n hsel]

end

end Verif
