import Verif.Proofs.Noise
import Verif.Proofs.Hull
import Verif.Spec.Moments

/-! One step with several outcomes of the random numbers. -/

set_option linter.unusedSectionVars false

namespace Verif

open MeasureTheory ProbabilityTheory

variable {Ω ι : Type} [Fintype ι]

theorem reach_wf {env : Env ℝ (ι → ℝ)} (hpo : PostOK env) (hp : PermOK env) {a : Args ℝ (ι → ℝ)} {s₀ s : St ℝ (ι → ℝ)}
    {ops : List Op} (h0 : init env a = .ok s₀) (h : execAll env (cboInner env) ops s₀ = .ok s) : WF s := by
  rw [cboInner_eq] at h
  exact (execAll_induct (cboMove_ok env) hpo hp (P := fun _ => True) (fun _ _ _ _ _ _ => trivial) ops s₀ s
    (init_wf hp h0) trivial h).1

/-- The consensus points, the selected particles and their slots do not depend on the random numbers of the step. -/
theorem tape_step {env : Env ℝ (ι → ℝ)} {p : (ι → ℝ) → ι → ℝ} (hcorr : env.corr = .none)
    {r : List (ℝ × Flt ℝ × (ι → ℝ)) → ι → ℝ} (hcons : env.cons = .mean r) (hpm : PostMap env p) (hp : PermOK env)
    {rule : (ι → ℝ) → (ι → ℝ) → ι → ℝ} {smp : Ω → ℕ → ℕ → ℕ → ι → ℝ} {s : St ℝ (ι → ℝ)} (hw : WF s) {s' : Ω → St ℝ (ι → ℝ)}
    (hs : ∀ ω, step { env with noise := rowNoise rule (smp ω) } (cboInner { env with noise := rowNoise rule (smp ω) }) s =
      .ok (s' ω)) :
    ∃ (c : ℕ → ι → ℝ) (j : ℕ → ℕ → ℕ), (∀ ω, ∃ cm, (s' ω).cons = some cm ∧ ∀ i < s.active.length, cm.get i 0 = c i) ∧
      ∀ ω, ∀ i < s.active.length, ∀ n, (s' ω).pIdx.Sel (s.active.getD i 0) n →
        (preStep env s).pIdx.par i (j i n) = n ∧
        (s' ω).x.get (s.active.getD i 0) n = p (s.x.get (s.active.getD i 0) n +
          cboUpdate s.lamda s.dt s.sigma (s.x.get (s.active.getD i 0) n - c i)
            (Real.sqrt s.dt • rule (s.x.get (s.active.getD i 0) n - c i) (smp ω s.draws i (j i n)))) := by
  classical
  have hix := preStep_idx env hp hw
  have key : ∀ ω, ∃ c d n xm, CboStep { env with noise := rowNoise rule (smp ω) } r s (s' ω) c d n xm := fun ω =>
    cboStep_facts (env := { env with noise := rowNoise rule (smp ω) }) hcorr (rowNoise_rows rfl).ok.shape hcons hp hw (hs ω)
  have hidx : ∀ ω, (s' ω).cIdx = (preStep env s).cIdx ∧ (s' ω).pIdx = (preStep env s).pIdx := by
    intro ω
    have fr := step_frame (by rw [cboInner_eq]; exact consThen_frame (cboMove_ok _)) (hs ω)
    exact ⟨fr.cIdx, fr.pIdx⟩
  have hj : ∀ i n, ∃ j, ∀ j', (j' < (preStep env s).pIdx.cols ∧ (preStep env s).pIdx.par i j' = n ∧
      ∀ j'', j' < j'' → j'' < (preStep env s).pIdx.cols → (preStep env s).pIdx.par i j'' ≠ n) → j' = j := by
    intro i n
    by_cases hx : ∃ j', j' < (preStep env s).pIdx.cols ∧ (preStep env s).pIdx.par i j' = n ∧
      ∀ j'', j' < j'' → j'' < (preStep env s).pIdx.cols → (preStep env s).pIdx.par i j'' ≠ n
    · obtain ⟨j, h1, h2, h3⟩ := hx
      refine ⟨j, fun j' ⟨g1, g2, g3⟩ => ?_⟩
      rcases lt_trichotomy j j' with q | q | q
      · exact absurd g2 (h3 _ q g1)
      · exact q.symm
      · exact absurd h2 (g3 _ q h1)
    · exact ⟨0, fun j' hj' => absurd ⟨j', hj'⟩ hx⟩
  choose j hj using hj
  refine ⟨fun i => r (sampleOf env { s with cIdx := (preStep env s).cIdx } i), j, ?_, ?_⟩
  · intro ω
    obtain ⟨c, d, n, xm, cs⟩ := key ω
    refine ⟨c, cs.cons, fun i hi => ?_⟩
    rw [cs.cget i hi, (hidx ω).1]
    rfl
  · intro ω i hi n hsel
    obtain ⟨c, d, nn, xm, cs⟩ := key ω
    obtain ⟨i', hi', j', hj', e1, e2, e3, e4⟩ := cs.slot _ _ hsel
    rw [(hidx ω).2] at e1 e2 e3 hj'
    rw [hix.pRun i' hi'] at e1
    have hii : i' = i := getD_inj hw.nodup hi' hi e1
    subst hii
    have hjj : j' = j i' n := hj _ _ _ ⟨hj', e2, e3⟩
    subst hjj
    refine ⟨e2, ?_⟩
    obtain ⟨q, hq1, hq2⟩ := cs.post
    have hq3 := hpm q
    rw [hq3, hq1] at hq2
    injection hq2 with hq2
    rw [← hq2]
    simp only [Mat.map]
    congr 1
    rw [e4]
    obtain ⟨q, q1, q2, q3, q4, q5, -⟩ := cs.noise
    simp only [rowNoise, q2] at q1
    injection q1 with q1
    have hd : d.get i' (j i' n) = s.x.get (s.active.getD i' 0) n -
        r (sampleOf env { s with cIdx := (preStep env s).cIdx } i') := by
      rw [cs.dget i' hi' _ (by rw [(hidx ω).2]; exact hj'), (hidx ω).2, hix.pRun i' hi', e2, cs.cget i' hi', (hidx ω).1]
      rfl
    rw [← q1]
    simp only [q3, q5, hd]

section affine
variable [MeasurableSpace Ω] [DecidableEq ι] {μ : Measure Ω} [IsProbabilityMeasure μ]

theorem affine_lp {Z : Ω → ℝ} (hZ : MemLp Z 2 μ) (a b : ℝ) : MemLp (fun ω => a + b * Z ω) 2 μ :=
  (memLp_const a).add (hZ.const_mul b)

theorem affine_mean {Z : Ω → ℝ} (hZ : MemLp Z 2 μ) (h0 : ∫ ω, Z ω ∂μ = 0) (a b : ℝ) : ∫ ω, (a + b * Z ω) ∂μ = a := by
  have hi : Integrable Z μ := hZ.integrable one_le_two
  rw [integral_add (integrable_const a) (hi.const_mul b), integral_const_mul, h0]
  simp

theorem affine_cov {Z Z' : Ω → ℝ} (hZ : MemLp Z 2 μ) (hZ' : MemLp Z' 2 μ) (a b a' b' : ℝ) :
    cov[fun ω => a + b * Z ω, fun ω => a' + b' * Z' ω; μ] = b * b' * cov[Z, Z'; μ] := by
  have hi : Integrable Z μ := hZ.integrable one_le_two
  have hi' : Integrable Z' μ := hZ'.integrable one_le_two
  rw [covariance_const_add_left (hi.const_mul b), covariance_const_add_right (hi'.const_mul b'), covariance_const_mul_left,
    covariance_const_mul_right]
  ring

theorem affine_sq {Z : Ω → ℝ} (hZ : MemLp Z 2 μ) (h0 : ∫ ω, Z ω ∂μ = 0) (h1 : cov[Z, Z; μ] = 1) (a b : ℝ) :
    ∫ ω, (a + b * Z ω) ^ 2 ∂μ = a ^ 2 + b ^ 2 := by
  have h := covariance_eq_sub (affine_lp hZ a b) (affine_lp hZ a b)
  rw [affine_cov hZ hZ, h1, affine_mean hZ h0] at h
  have e : ∫ ω, (a + b * Z ω) ^ 2 ∂μ = ∫ ω, ((fun ω => a + b * Z ω) * fun ω => a + b * Z ω) ω ∂μ := by
    simp only [Pi.mul_apply, pow_two]
  rw [e]
  linarith

/-- Means and covariances after one step, for a noise that multiplies the sample of a coordinate by a gain `g`. -/
theorem moment_core {env : Env ℝ (ι → ℝ)} (hcorr : env.corr = .none) {r : List (ℝ × Flt ℝ × (ι → ℝ)) → ι → ℝ}
    (hcons : env.cons = .mean r) (hpm : PostMap env id) (hp : PermOK env)
    {rule : (ι → ℝ) → (ι → ℝ) → ι → ℝ} {g : (ι → ℝ) → ι → ℝ} (hg : ∀ d z l, rule d z l = g d l * z l)
    {smp : Ω → ℕ → ℕ → ℕ → ι → ℝ} {s : St ℝ (ι → ℝ)} (hw : WF s) (hz : White μ fun ω => smp ω s.draws) (hdt : 0 ≤ s.dt)
    {s' : Ω → St ℝ (ι → ℝ)}
    (hs : ∀ ω, step { env with noise := rowNoise rule (smp ω) } (cboInner { env with noise := rowNoise rule (smp ω) }) s =
      .ok (s' ω)) :
    ∃ c : ℕ → ι → ℝ, (∀ ω, ∃ cm, (s' ω).cons = some cm ∧ ∀ i < s.active.length, cm.get i 0 = c i) ∧
      ∀ i < s.active.length, ∀ n, (∀ ω, (s' ω).pIdx.Sel (s.active.getD i 0) n) →
        (∀ l, ∫ ω, (s' ω).x.get (s.active.getD i 0) n l ∂μ = s.x.get (s.active.getD i 0) n l -
          s.lamda * s.dt * (s.x.get (s.active.getD i 0) n l - c i l)) ∧
        (∀ l, ∫ ω, ((s' ω).x.get (s.active.getD i 0) n l - c i l) ^ 2 ∂μ = (1 - s.lamda * s.dt) ^ 2 *
          (s.x.get (s.active.getD i 0) n l - c i l) ^ 2 + s.sigma ^ 2 * s.dt * g (s.x.get (s.active.getD i 0) n - c i) l ^ 2) ∧
        (∀ l, Integrable (fun ω => ((s' ω).x.get (s.active.getD i 0) n l - c i l) ^ 2) μ) ∧
        ∀ i' < s.active.length, ∀ n', (∀ ω, (s' ω).pIdx.Sel (s.active.getD i' 0) n') → ∀ l l',
          cov[fun ω => (s' ω).x.get (s.active.getD i 0) n l, fun ω => (s' ω).x.get (s.active.getD i' 0) n' l'; μ] =
            if i = i' ∧ n = n' ∧ l = l' then s.sigma ^ 2 * s.dt * g (s.x.get (s.active.getD i 0) n - c i) l ^ 2 else 0 := by
  obtain ⟨c, j, hc, hx⟩ := tape_step hcorr hcons hpm hp hw hs
  refine ⟨c, hc, ?_⟩
  have hX : ∀ i < s.active.length, ∀ n, (∀ ω, (s' ω).pIdx.Sel (s.active.getD i 0) n) → ∀ l,
      (fun ω => (s' ω).x.get (s.active.getD i 0) n l) = fun ω => (s.x.get (s.active.getD i 0) n l -
          s.lamda * s.dt * (s.x.get (s.active.getD i 0) n l - c i l)) +
        (s.sigma * Real.sqrt s.dt * g (s.x.get (s.active.getD i 0) n - c i) l) * smp ω s.draws i (j i n) l := by
    intro i hi n hsel l
    funext ω
    rw [(hx ω i hi n (hsel ω)).2]
    simp only [id_eq, cboUpdate, Pi.add_apply, Pi.smul_apply, Pi.sub_apply, smul_eq_mul, hg]
    ring
  have hsq : Real.sqrt s.dt * Real.sqrt s.dt = s.dt := Real.mul_self_sqrt hdt
  intro i hi n hsel
  have hX2 : ∀ l, (fun ω => (s' ω).x.get (s.active.getD i 0) n l - c i l) = fun ω =>
      ((1 - s.lamda * s.dt) * (s.x.get (s.active.getD i 0) n l - c i l)) +
        (s.sigma * Real.sqrt s.dt * g (s.x.get (s.active.getD i 0) n - c i) l) * smp ω s.draws i (j i n) l := by
    intro l
    funext ω
    have := congrFun (hX i hi n hsel l) ω
    rw [this]
    ring
  have e : ∀ l, (fun ω => ((s' ω).x.get (s.active.getD i 0) n l - c i l) ^ 2) = fun ω =>
      ((1 - s.lamda * s.dt) * (s.x.get (s.active.getD i 0) n l - c i l) +
        (s.sigma * Real.sqrt s.dt * g (s.x.get (s.active.getD i 0) n - c i) l) * smp ω s.draws i (j i n) l) ^ 2 := by
    intro l
    funext ω
    exact congrArg (· ^ 2) (congrFun (hX2 l) ω)
  refine ⟨?_, ?_, ?_, ?_⟩
  · intro l
    rw [hX i hi n hsel l, affine_mean (hz.lp i _ l) (hz.mean i _ l)]
  · intro l
    rw [e l, affine_sq (hz.lp i _ l) (hz.mean i _ l) (by rw [hz.cov]; simp)]
    linear_combination (s.sigma ^ 2 * g (s.x.get (s.active.getD i 0) n - c i) l ^ 2) * hsq
  · intro l
    rw [e l]
    exact (affine_lp (hz.lp i (j i n) l) ((1 - s.lamda * s.dt) * (s.x.get (s.active.getD i 0) n l - c i l))
      (s.sigma * Real.sqrt s.dt * g (s.x.get (s.active.getD i 0) n - c i) l)).integrable_sq
  · intro i' hi' n' hsel' l l'
    rw [hX i hi n hsel l, hX i' hi' n' hsel' l', affine_cov (hz.lp i _ l) (hz.lp i' _ l'), hz.cov]
    by_cases hq : i = i' ∧ n = n' ∧ l = l'
    · obtain ⟨rfl, rfl, rfl⟩ := hq
      simp only [and_self, if_true]
      linear_combination (s.sigma ^ 2 * g (s.x.get (s.active.getD i 0) n - c i) l ^ 2) * hsq
    · rw [if_neg hq, if_neg, mul_zero]
      rintro ⟨rfl, h2, rfl⟩
      refine hq ⟨rfl, ?_, rfl⟩
      have : Nonempty Ω := nonempty_of_isProbabilityMeasure μ
      obtain ⟨ω⟩ := this
      rw [← (hx ω i hi n (hsel ω)).1, ← (hx ω i hi n' (hsel' ω)).1, h2]

/-- The law of a coordinate after one step. -/
theorem moment_law {env : Env ℝ (ι → ℝ)} (hcorr : env.corr = .none) {r : List (ℝ × Flt ℝ × (ι → ℝ)) → ι → ℝ}
    (hcons : env.cons = .mean r) (hpm : PostMap env id) (hp : PermOK env)
    {rule : (ι → ℝ) → (ι → ℝ) → ι → ℝ} {g : (ι → ℝ) → ι → ℝ} (hg : ∀ d z l, rule d z l = g d l * z l)
    {smp : Ω → ℕ → ℕ → ℕ → ι → ℝ} {s : St ℝ (ι → ℝ)} (hw : WF s) (hz : StdNormalTape μ fun ω => smp ω s.draws)
    (hdt : 0 ≤ s.dt) {s' : Ω → St ℝ (ι → ℝ)}
    (hs : ∀ ω, step { env with noise := rowNoise rule (smp ω) } (cboInner { env with noise := rowNoise rule (smp ω) }) s =
      .ok (s' ω)) :
    ∃ c : ℕ → ι → ℝ, (∀ ω, ∃ cm, (s' ω).cons = some cm ∧ ∀ i < s.active.length, cm.get i 0 = c i) ∧
      ∀ i < s.active.length, ∀ n, (∀ ω, (s' ω).pIdx.Sel (s.active.getD i 0) n) → ∀ l,
        HasLaw (fun ω => (s' ω).x.get (s.active.getD i 0) n l) (gaussianReal (s.x.get (s.active.getD i 0) n l -
          s.lamda * s.dt * (s.x.get (s.active.getD i 0) n l - c i l))
          (Real.toNNReal (s.sigma ^ 2 * s.dt * g (s.x.get (s.active.getD i 0) n - c i) l ^ 2))) μ := by
  obtain ⟨c, j, hc, hx⟩ := tape_step hcorr hcons hpm hp hw hs
  refine ⟨c, hc, fun i hi n hsel l => ?_⟩
  have hX : (fun ω => (s' ω).x.get (s.active.getD i 0) n l) = fun ω => (s.x.get (s.active.getD i 0) n l -
          s.lamda * s.dt * (s.x.get (s.active.getD i 0) n l - c i l)) +
        (s.sigma * Real.sqrt s.dt * g (s.x.get (s.active.getD i 0) n - c i) l) * smp ω s.draws i (j i n) l := by
    funext ω
    rw [(hx ω i hi n (hsel ω)).2]
    simp only [id_eq, cboUpdate, Pi.add_apply, Pi.smul_apply, Pi.sub_apply, smul_eq_mul, hg]
    ring
  have hsq : Real.sqrt s.dt * Real.sqrt s.dt = s.dt := Real.mul_self_sqrt hdt
  rw [hX]
  have h := gaussianReal_const_add (gaussianReal_const_mul (hz.law i (j i n) l)
    (s.sigma * Real.sqrt s.dt * g (s.x.get (s.active.getD i 0) n - c i) l)) (s.x.get (s.active.getD i 0) n l -
          s.lamda * s.dt * (s.x.get (s.active.getD i 0) n l - c i l))
  rw [mul_zero, zero_add, mul_one] at h
  convert h using 2
  apply NNReal.eq
  rw [Real.coe_toNNReal _ (by positivity)]
  show _ = (s.sigma * Real.sqrt s.dt * g (s.x.get (s.active.getD i 0) n - c i) l) ^ 2
  linear_combination (-(s.sigma ^ 2 * g (s.x.get (s.active.getD i 0) n - c i) l ^ 2)) * hsq

/-- Mean and covariances of linear functions of uncorrelated random vectors. -/
theorem linear_mean {z : Ω → ℕ → ℕ → ι → ℝ} (hz : White μ z) (a : ℝ) (g : ι → ℝ) (i j : ℕ) : ∫ ω, (a + ∑ k, g k * z ω i j k) ∂μ = a := by
  have hi : ∀ k, Integrable (fun ω => g k * z ω i j k) μ := fun k => ((hz.lp i j k).integrable one_le_two).const_mul _
  rw [integral_add (integrable_const a) (integrable_finsetSum _ fun k _ => hi k), integral_finsetSum _ fun k _ => hi k]
  simp only [integral_const_mul, hz.mean, mul_zero, Finset.sum_const_zero]
  simp

theorem linear_cov {z : Ω → ℕ → ℕ → ι → ℝ} (hz : White μ z) (a a' : ℝ) (g g' : ι → ℝ) (i j i' j' : ℕ) :
    cov[fun ω => a + ∑ k, g k * z ω i j k, fun ω => a' + ∑ k, g' k * z ω i' j' k; μ] = if i = i' ∧ j = j' then ∑ k, g k * g' k else 0 := by
  have hl : ∀ (g : ι → ℝ) i j k, MemLp (fun ω => g k * z ω i j k) 2 μ := fun g i j k => (hz.lp i j k).const_mul _
  have hi : ∀ (g : ι → ℝ) i j, Integrable (fun ω => ∑ k, g k * z ω i j k) μ := fun g i j =>
    integrable_finsetSum _ fun k _ => (hl g i j k).integrable one_le_two
  rw [covariance_const_add_left (hi g i j), covariance_const_add_right (hi g' i' j'), covariance_fun_sum_fun_sum (hl g i j) (hl g' i' j')]
  simp only [covariance_const_mul_left, covariance_const_mul_right, hz.cov]
  split_ifs with hq
  · obtain ⟨rfl, rfl⟩ := hq
    refine Finset.sum_congr rfl fun k _ => ?_
    simp [mul_comm]
  · refine Finset.sum_eq_zero fun k _ => Finset.sum_eq_zero fun k' _ => ?_
    rw [if_neg (fun h => hq ⟨h.1, h.2.1⟩)]
    simp

end affine

end Verif
