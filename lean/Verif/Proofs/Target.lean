import Verif.Proofs.Found
import Verif.Proofs.StopsProb

/-! Lemmas for C120: with constant noise the criterion `energy_tol` is met. -/

set_option linter.unusedSectionVars false

namespace Verif

open MeasureTheory ProbabilityTheory Filter
open scoped ENNReal Topology

variable {ι : Type} [Fintype ι] [DecidableEq ι]

/-- From anywhere in the box, a step of an active run misses the values below `tol` at a given particle with a probability bounded away from one. -/
theorem target_q {f : (ι → ℝ) → ℝ} {p : (ι → ℝ) → ι → ℝ} (hp : Shrinks p) {y : ι → ℝ} (hy : p y = y) (hfy : ContinuousAt f y) {tol : ℝ} (htol : f y < tol) {R lamda dt sigma : ℝ} (hR : 0 ≤ R)
    (hg : sigma * (Real.sqrt dt * 1) ≠ 0) (M N : ℕ) :
    ∃ q : ℝ≥0∞, q < 1 ∧ ∀ w : RowStep M, w.act = true → w.J ≠ [] → (∀ n ∈ w.J, n < N) → w.lamda = lamda → w.dt = dt → w.sigma = sigma → ∀ x : ℕ → ι → ℝ, (∀ n < N, ∀ l, |x n l| ≤ R) →
      ∀ v < N, stdNormal (Fin M × Fin N × ι) {z | tol ≤ f (rowMap f p (fun _ _ => 1) w x z v)} ≤ q := by
  have hpc : ContinuousAt p y := (continuous_pi fun l => by
    refine LipschitzWith.continuous (K := 1) (LipschitzWith.of_dist_le_mul fun u v => ?_)
    rw [NNReal.coe_one, one_mul, Real.dist_eq]
    exact (sq_le_sq.1 (hp u v l)).trans ((Real.dist_eq _ _).symm.le.trans (dist_le_pi_dist u v l)) : Continuous p).continuousAt
  have hnear : {v | f (p v) < tol} ∈ nhds y := by
    have h1 : ContinuousAt (fun v => f (p v)) y := ContinuousAt.comp (f := p) (g := f) (by rw [hy]; exact hfy) hpc
    exact h1.eventually_lt continuousAt_const (by rw [hy]; exact htol)
  obtain ⟨η, hη, hball⟩ := Metric.mem_nhds_iff.1 hnear
  choose q hq1 hq using fun i : Fin M => normal_ball M N i (T := R + |lamda * dt| * (2 * R)) hg hη y
  refine ⟨Finset.univ.sup q, (Finset.sup_lt_iff (by norm_num)).2 fun i _ => hq1 i, ?_⟩
  rintro w hact hJ hJN rfl rfl rfl x hx v hv
  have cbox : ∀ l, |rowCons f w.α w.J x l| ≤ R := by
    refine rowCons_hull f w.α hJ hJN x {c | ∀ l, |c l| ≤ R} ?_ hx
    intro u hu v hv α β hα hβ hαβ l
    simp only [Pi.add_apply, Pi.smul_apply, smul_eq_mul]
    calc _ ≤ |α * u l| + |β * v l| := abs_add_le _ _
      _ = α * |u l| + β * |v l| := by rw [abs_mul, abs_mul, abs_of_nonneg hα, abs_of_nonneg hβ]
      _ ≤ α * R + β * R := add_le_add (mul_le_mul_of_nonneg_left (hu l) hα) (mul_le_mul_of_nonneg_left (hv l) hβ)
      _ = R := by rw [← add_mul, hαβ, one_mul]
  have hsub : {z | tol ≤ f (rowMap f p (fun _ _ => 1) w x z v)} ⊆
      {z : Fin M × Fin N × ι → ℝ | ¬ ∀ l, |(x v l - w.lamda * w.dt * (x v l - rowCons f w.α w.J x l)) + w.sigma * (Real.sqrt w.dt * 1) * z (w.i, ⟨v, hv⟩, l) - y l| < η} := by
    intro z hz hz'
    have h1 : tol ≤ f (rowMap f p (fun _ _ => 1) w x z v) := hz
    have h2 : (fun l => (x v l - w.lamda * w.dt * (x v l - rowCons f w.α w.J x l)) + w.sigma * (Real.sqrt w.dt * 1) * z (w.i, ⟨v, hv⟩, l)) ∈ Metric.ball y η := by
      rw [Metric.mem_ball, dist_pi_lt_iff hη]
      exact hz'
    have h3 := hball h2
    have e : ∀ l, drawn M N z w.i v l = z (w.i, ⟨v, hv⟩, l) := fun l => by simp [drawn, hv]
    simp only [rowMap, hact, if_true, rowNext, e] at h1
    exact not_lt.2 h1 h3
  refine (measure_mono hsub).trans ((hq w.i ⟨v, hv⟩ (fun l => x v l - w.lamda * w.dt * (x v l - rowCons f w.α w.J x l)) fun l => ?_).trans (Finset.le_sup (Finset.mem_univ w.i)))
  have h1 := hx v hv l
  have h3 : |x v l - rowCons f w.α w.J x l| ≤ 2 * R := (abs_sub _ _).trans (by linarith [cbox l])
  refine (abs_sub _ _).trans (add_le_add h1 ?_)
  rw [abs_mul]
  exact mul_le_mul_of_nonneg_left h3 (abs_nonneg _)

/-- No energy is NaN. -/
def EnergyNum {K V : Type} (s : St K V) : Prop := ∀ m < s.M, ∀ n < s.N, s.energy.get m n ≠ .nan

/-- If `energy_tol` is not met after a step, the particles evaluated in the step had values of at least `tol`. -/
theorem fMin_ge {K V : Type} [Zero K] [One K] [Neg K] [Add K] [Sub K] [Mul K] [Inv K] [Div K] [NatCast K] [Pow K ℕ] [LinearOrder K] [Add V] [Sub V] [SMul K V] [SoundArith K]
    {env : Env K V} {s s' : St K V} (hw : WF s) (q : StepSum env s s') (hn : EnergyNum s') {m n : ℕ} (hm : m < s.M) (hnN : n < s.N) (hsel : s'.cIdx.Sel m n) {v tol : K} (hv : env.f (s.x.get m n) = .fin v)
    (hf : ¬ Flt.lt (s'.fMin m) (.fin tol) = true) : tol ≤ v := by
  have hec : s'.energy.cols = s.N := by rw [q.ec, hw.ec]
  have h1 := Flt.rowArgmin_min (n := s'.energy.cols) (s'.energy.get m) (fun i hi => hn m (by rw [q.M]; exact hm) i (by rw [q.N, ← hec]; exact hi)) n (by rw [hec]; exact hnN)
  have hne := hn m (by rw [q.M]; exact hm) (Flt.rowArgmin s'.energy.cols (s'.energy.get m)) (by
    rw [q.N, ← hec]
    exact Flt.rowArgmin_lt (by rw [hec]; omega) _)
  rw [q.fMin, Flt.rowMin_eq] at hf
  rw [q.fresh m n hsel, hv] at h1
  revert hne; revert h1; revert hf
  cases s'.energy.get m (Flt.rowArgmin s'.energy.cols (s'.energy.get m)) with
  | nan => intro _ _ h; exact absurd rfl h
  | pinf => intro _ h; simp [Flt.lt] at h
  | ninf => intro h; simp [Flt.lt] at h
  | fin a =>
    intro h2 h1 _
    simp only [Flt.lt, decide_eq_true_eq, decide_eq_false_iff_not, not_lt] at h1 h2
    exact h2.trans h1

theorem energyNum_step {K V : Type} [Zero K] [One K] [Neg K] [Add K] [Sub K] [Mul K] [Inv K] [Div K] [NatCast K] [Pow K ℕ] [LinearOrder K] [Add V] [Sub V] [SMul K V]
    {env : Env K V} {s s' : St K V} (q : StepSum env s s') (hf : ∀ v, env.f v ≠ .nan) (h : EnergyNum s) : EnergyNum s' := by
  intro m hm n hn
  by_cases hs : s'.cIdx.Sel m n
  · rw [q.fresh m n hs]; exact hf _
  · rw [q.stale m n hs]; exact h m (q.M ▸ hm) n (q.N ▸ hn)

section
variable {env : Env ℝ (ι → ℝ)} {f : (ι → ℝ) → ℝ} {ν : ℕ → ℝ → ℕ → ℕ → (ι → ℝ) → ι → ℝ} {p : (ι → ℝ) → ι → ℝ} (hE : Standard env f ν p) (hnorm : env.normDiff = frobenius)
  {s : St ℝ (ι → ℝ)} (hst : ∀ tm ∈ s.terms, BuiltIn tm) (hw : WF s) (hbf : BestFit s) {ga gl gs gd : ℝ → ℝ} (hsch : SchedLocal env ga gl gs gd) (hnum : EnergyNum s)
  (hbs : 1 ≤ s.batchSize) (hfull : s.batched = false ∨ s.batchPartial = false) (hgl : gl s.lamda = s.lamda) (hgs : gs s.sigma = s.sigma) (hgd : gd s.dt = s.dt)

include hE hnorm hst hw hbf hsch

/-- Along an execution no energy is NaN. -/
theorem trace_num (hnum : EnergyNum s) (Z : ℕ → Fin s.M × Fin s.N × ι → ℝ) {k : ℕ} {τ σ ρ : ℕ → St ℝ (ι → ℝ)}
    (t : Trace (withSamples env constRule s.M s.N Z) (cboInner (withSamples env constRule s.M s.N Z)) s k τ σ ρ) : ∀ j ≤ k, EnergyNum (τ j) ∧ (j < k → StepSum (withSamples env constRule s.M s.N Z) (σ j) (ρ j) ∧ EnergyNum (ρ j)) := by
  have hE' := withSamples_std hE constRule s.M s.N Z
  have one : ∀ j < k, EnergyNum (τ j) → StepSum (withSamples env constRule s.M s.N Z) (σ j) (ρ j) ∧ EnergyNum (ρ j) := by
    intro j hj h
    have q : StepSum (withSamples env constRule s.M s.N Z) (σ j) (ρ j) := step_sum (cboMove_ok _) hE'.post.ok (by rw [← cboInner_eq]; exact t.step j hj)
    have fr := select_frame (t.check j hj)
    have h2 : EnergyNum (σ j) := by
      intro m hm n hn
      have eM : (σ j).M = (τ j).M := by rw [fr]
      have eN : (σ j).N = (τ j).N := by rw [fr]
      have eE : (σ j).energy = (τ j).energy := by rw [fr]
      rw [eE]
      exact h m (eM ▸ hm) n (eN ▸ hn)
    exact ⟨q, energyNum_step q (fun v => by rw [hE'.f]; simp) h2⟩
  have key : ∀ j ≤ k, EnergyNum (τ j) := by
    intro j
    induction j with
    | zero => intro _; rw [t.start]; exact hnum
    | succ j ih =>
      intro hj
      have h := (one j (by omega) (ih (by omega))).2
      have fr := sched_frame (t.sched j (by omega))
      intro m hm n hn
      have eM : (τ (j + 1)).M = (ρ j).M := by rw [fr]
      have eN : (τ (j + 1)).N = (ρ j).N := by rw [fr]
      have eE : (τ (j + 1)).energy = (ρ j).energy := by rw [fr]
      rw [eE]
      exact h m (eM ▸ hm) n (eN ▸ hn)
  exact fun j hj => ⟨key j hj, fun h => one j h (key j hj)⟩

include hbs hfull hgl hgs hgd

/-- Along an execution with constant noise the positions of a run follow the recursion. -/
theorem trace_const (Z : ℕ → Fin s.M × Fin s.N × ι → ℝ) {k : ℕ} {τ σ ρ : ℕ → St ℝ (ι → ℝ)}
    (t : Trace (withSamples env constRule s.M s.N Z) (cboInner (withSamples env constRule s.M s.N Z)) s k τ σ ρ) (m : Fin s.M) {j : ℕ} (hj : j < k) :
    (rowData env m (σ j) (ga^[j] (s.alpha m)) s.lamda s.dt s.sigma).J ≠ [] ∧ (∀ n ∈ (rowData env m (σ j) (ga^[j] (s.alpha m)) s.lamda s.dt s.sigma).J, n < s.N) ∧
      ∀ n < s.N, (τ (j + 1)).x.get m n = rowMap f p (fun _ _ => 1) (rowData env m (σ j) (ga^[j] (s.alpha m)) s.lamda s.dt s.sigma) ((τ j).x.get m) (Z (s.draws + j)) n := by
  have F := (samples_facts hE hnorm hst hw hbf hsch Z t j (by omega)).2 hj
  obtain ⟨h1, h2, h3⟩ := row_steps_of (rule := constRule) (β := fun _ _ => 1) hE (fun d z l => by simp [constRule]) F.M F.N F.wf (by rw [F.batchSize]; exact hbs) (by rw [F.batched, F.batchPartial]; exact hfull) m (F.alpha m)
    (F.lamda.trans (Function.iterate_fixed hgl j)) (F.dt.trans (Function.iterate_fixed hgd j)) (F.sigma.trans (Function.iterate_fixed hgs j))
  refine ⟨h1, h2, fun n hn => ?_⟩
  have ex : (σ j).x = (τ j).x := by rw [select_frame (t.check j hj)]
  rw [sched_frame (t.sched j hj)]
  simp only
  rw [h3 Z _ (t.step j hj) n hn, F.draws, ex]

/-- The probability of one history of the rounds. -/
theorem target_history (hnum : EnergyNum s) (hp : Shrinks p) (hf : Measurable f) {R : ℝ} (hR : ∀ v l, |p v l| ≤ R) {tol : ℝ} (hin : .energyTol (.fin tol) ∈ s.terms) {q : ℝ≥0∞}
    (hq : ∀ w : RowStep s.M, w.act = true → w.J ≠ [] → (∀ n ∈ w.J, n < s.N) → w.lamda = s.lamda → w.dt = s.dt → w.sigma = s.sigma → ∀ x : ℕ → ι → ℝ, (∀ n < s.N, ∀ l, |x n l| ≤ R) →
      ∀ v < s.N, stdNormal (Fin s.M × Fin s.N × ι) {z | tol ≤ f (rowMap f p (fun _ _ => 1) w x z v)} ≤ q)
    {Ω : Type} [MeasurableSpace Ω] (P : Measure Ω) [IsProbabilityMeasure P] {Z : ℕ → Ω → Fin s.M × Fin s.N × ι → ℝ} (hZ : IidNormal P Z)
    (k : ℕ) (m : Fin s.M) (F : Finset (Fin s.M)) (T : Fin s.M → Fin (k + 1 + 1)) :
    P {ω | History env constRule s (k + 1) (fun d => Z d ω) m F T} ≤ q ^ k := by
  by_cases hne : ∃ ω, History env constRule s (k + 1) (fun d => Z d ω) m F T
  · obtain ⟨ω₀, τ₀, σ₀, ρ₀, t₀, m₀, F₀, T₀⟩ := hne
    let w : ℕ → RowStep s.M := fun j => if j ≤ k + 1 then rowData env m (σ₀ j) (ga^[j] (s.alpha m)) s.lamda s.dt s.sigma else rowData env m (σ₀ 1) (ga^[1] (s.alpha m)) s.lamda s.dt s.sigma
    have hrow₀ := fun j (hj : j < k + 1 + 2) => trace_const hE hnorm hst hw hbf hsch hbs hfull hgl hgs hgd (fun d => Z d ω₀) t₀ m hj
    have hwJ : ∀ j, (w j).J ≠ [] ∧ ∀ n ∈ (w j).J, n < s.N := by
      intro j
      by_cases h : j ≤ k + 1
      · simp only [w, if_pos h]; exact ⟨(hrow₀ j (by omega)).1, (hrow₀ j (by omega)).2.1⟩
      · simp only [w, if_neg h]; exact ⟨(hrow₀ 1 (by omega)).1, (hrow₀ 1 (by omega)).2.1⟩
    have hwp : ∀ j, (w j).lamda = s.lamda ∧ (w j).dt = s.dt ∧ (w j).sigma = s.sigma := by
      intro j
      by_cases h : j ≤ k + 1
      · simp only [w, if_pos h, rowData, and_self]
      · simp only [w, if_neg h, rowData, and_self]
    have hact : ∀ j, 1 ≤ j → (w j).act = true := by
      intro j hj
      by_cases h : j ≤ k + 1
      · simp only [w, if_pos h, rowData, decide_eq_true_eq]; exact m₀ j hj (by omega)
      · simp only [w, if_neg h, rowData, decide_eq_true_eq]; exact m₀ 1 (by omega) (by omega)
    have hZ' : IidNormal P fun j => Z (s.draws + j) := ⟨fun j => hZ.meas _, fun j => hZ.law _, hZ.indep.precomp (add_right_injective s.draws)⟩
    choose v hv using fun j => List.exists_mem_of_ne_nil _ (hwJ j).1
    have hvN : ∀ j, v j < s.N := fun j => (hwJ j).2 _ (hv j)
    let Φ : ℕ → (ℕ → ι → ℝ) → (Fin s.M × Fin s.N × ι → ℝ) → ℕ → ι → ℝ := fun j => rowMap f p (fun _ _ => 1) (w j)
    have mΦ : ∀ j, Measurable fun r : (ℕ → ι → ℝ) × (Fin s.M × Fin s.N × ι → ℝ) => Φ j r.1 r.2 := fun j => rowMap_measurable hf (shrinks_measurable hp) measurable_const (w j)
    let C : ℕ → Set ((ℕ → ι → ℝ) × (Fin s.M × Fin s.N × ι → ℝ)) := fun j => {r | 1 ≤ j → (∀ n < s.N, ∀ l, |r.1 n l| ≤ R) ∧ tol ≤ f (Φ j r.1 r.2 (v (j + 1)))}
    have mC : ∀ j, MeasurableSet (C j) := by
      intro j
      by_cases hj : 1 ≤ j
      · have : C j = (⋂ n, ⋂ (_ : n < s.N), ⋂ l, {r | |r.1 n l| ≤ R}) ∩ {r | tol ≤ f (Φ j r.1 r.2 (v (j + 1)))} := by
          ext r
          simp [C, hj]
        rw [this]
        refine MeasurableSet.inter ?_ (measurableSet_le measurable_const (hf.comp ((measurable_pi_apply _).comp (mΦ j))))
        refine MeasurableSet.iInter fun n => MeasurableSet.iInter fun _ => MeasurableSet.iInter fun l => ?_
        have mx : Measurable fun r : (ℕ → ι → ℝ) × (Fin s.M × Fin s.N × ι → ℝ) => r.1 n l := (measurable_pi_apply l).comp ((measurable_pi_apply n).comp measurable_fst)
        exact measurableSet_le mx.abs measurable_const
      · have : C j = Set.univ := by
          ext r
          simp [C, hj]
        rw [this]
        exact MeasurableSet.univ
    have : IsProbabilityMeasure (stdNormal (Fin s.M × Fin s.N × ι)) := by unfold stdNormal; infer_instance
    have hqC : ∀ j x, stdNormal (Fin s.M × Fin s.N × ι) {z | (x, z) ∈ C j} ≤ if 1 ≤ j then q else 1 := by
      intro j x
      by_cases hj : 1 ≤ j
      · rw [if_pos hj]
        by_cases hx : ∀ n < s.N, ∀ l, |x n l| ≤ R
        · refine (measure_mono ?_).trans (hq (w j) (hact j hj) (hwJ j).1 (hwJ j).2 (hwp j).1 (hwp j).2.1 (hwp j).2.2 x hx (v (j + 1)) (hvN _))
          exact fun z hz => (hz hj).2
        · have : {z | (x, z) ∈ C j} = ∅ := by
            ext z
            exact ⟨fun hz => absurd (hz hj).1 hx, fun hz => hz.elim⟩
          rw [this, measure_empty]
          exact bot_le
      · rw [if_neg hj]
        exact prob_le_one
    have hprod : ∏ j ∈ Finset.range (k + 1), (if 1 ≤ j then q else 1) = q ^ k := by
      rw [Finset.prod_range_succ']
      simp
    refine (measure_mono ?_).trans ((miss_prod (P := P) mΦ (s.x.get m) hZ'.meas hZ'.indep hZ'.law mC hqC (k + 1)).trans hprod.le)
    rintro ω ⟨τ, σ, ρ, t, hm, hF, hT⟩
    have same : ∀ j ≤ k + 1, SameBatch (σ₀ j) (σ j) := by
      refine trace_same hE hnorm hst hw hbf hsch t₀ t (by omega) fun j hj m' hm' => ?_
      by_cases h0 : j = 0
      · subst h0
        rw [← F₀ ⟨m', hm'⟩, ← hF ⟨m', hm'⟩]
      · rw [T₀ ⟨m', hm'⟩ j (by omega) hj, hT ⟨m', hm'⟩ j (by omega) hj]
    have hrow := fun j (hj : j < k + 1 + 2) => trace_const hE hnorm hst hw hbf hsch hbs hfull hgl hgs hgd (fun d => Z d ω) t m hj
    have ew : ∀ j ≤ k + 1, rowData env m (σ j) (ga^[j] (s.alpha m)) s.lamda s.dt s.sigma = w j := by
      intro j hj
      rw [rowData_same m (same j hj)]
      exact (if_pos hj).symm
    have hx : ∀ j ≤ k + 2, ∀ n < s.N, (τ j).x.get m n = recur Φ (s.x.get m) (fun j => Z (s.draws + j) ω) j n := by
      intro j
      induction j with
      | zero => intro _ n _; rw [t.start]; rfl
      | succ j ih =>
        intro hj n hn
        rw [(hrow j (by omega)).2.2 n hn, ew j (by omega)]
        simp only [recur, Φ]
        unfold rowMap
        split_ifs
        · exact rowNext_congr f p _ _ _ _ _ _ (hwJ j).2 (ih (by omega)) _ n hn
        · exact congrArg p (ih (by omega) n hn)
    intro j hj hj1
    refine ⟨fun n hn l => ?_, ?_⟩
    · obtain ⟨j', rfl⟩ : ∃ i, j = i + 1 := ⟨j - 1, by omega⟩
      show |recur Φ (s.x.get m) (fun j => Z (s.draws + j) ω) (j' + 1) n l| ≤ R
      simp only [recur, Φ]
      unfold rowMap
      split_ifs
      · exact hR _ l
      · exact hR _ l
    · show tol ≤ f (recur Φ (s.x.get m) (fun j => Z (s.draws + j) ω) (j + 1) (v (j + 1)))
      rw [← hx (j + 1) (by omega) _ (hvN _)]
      have Fk := (samples_facts hE hnorm hst hw hbf hsch _ t (j + 2) (by omega)).1
      have Fs := (samples_facts hE hnorm hst hw hbf hsch _ t (j + 1) (by omega)).2 (by omega)
      obtain ⟨r', e1, -, e3, -⟩ := select_stateless (env := withSamples env constRule s.M s.N fun d => Z d ω) (s := τ (j + 2)) (fun tm htm => (hst tm (Fk.terms ▸ htm)).stateless)
      rw [t.check (j + 2) (by omega)] at e1
      injection e1 with e1
      subst e1
      have hnf := ((e3 m).1 (hm (j + 2) (by omega) (by omega))).2 _ (by rw [Fk.terms]; exact hin)
      obtain ⟨S, hN'⟩ := (trace_num hE hnorm hst hw hbf hsch hnum (fun d => Z d ω) t (j + 1) (by omega)).2 (by omega)
      have eF : (τ (j + 2)).fMin = (ρ (j + 1)).fMin := by rw [sched_frame (t.sched (j + 1) (by omega))]
      have exs : (σ (j + 1)).x = (τ (j + 1)).x := by rw [select_frame (t.check (j + 1) (by omega))]
      simp only [Fires] at hnf
      rw [eF] at hnf
      rw [← exs]
      refine fMin_ge Fs.wf S hN' (by rw [Fs.M]; exact m.2) (by rw [Fs.N]; exact hvN _) ?_ (hE.f _) hnf
      -- the particle is in the batch of the step
      have hma := hm (j + 1) (by omega) (by omega)
      have hJ : (w (j + 1)).J = batchList env (σ (j + 1)) ((σ (j + 1)).active.idxOf (m : ℕ)) := by
        rw [← ew (j + 1) (by omega)]
        simp only [rowData, if_pos hma]
      have hvj := hv (j + 1)
      rw [hJ] at hvj
      obtain ⟨c, hc, he⟩ := List.mem_map.1 hvj
      have hi : (σ (j + 1)).active.idxOf (m : ℕ) < (σ (j + 1)).active.length := List.idxOf_lt_length_of_mem hma
      have hix := preStep_idx env hE.perm Fs.wf
      rw [S.cIdx]
      refine ⟨_, by show _ < (preStep env (σ (j + 1))).cIdx.rows; rw [hix.cRows]; exact hi, c, List.mem_range.1 hc, ?_, he⟩
      show (preStep env (σ (j + 1))).cIdx.run _ = _
      rw [hix.cRun _ hi]
      simp only [List.getD, List.getElem?_eq_getElem hi, Option.getD_some]
      exact List.getElem_idxOf hi
  · have : {ω | History env constRule s (k + 1) (fun d => Z d ω) m F T} = ∅ := by
      ext ω
      simp only [Set.mem_ofPred_eq, Set.mem_empty_iff_false, iff_false]
      exact fun h => hne ⟨ω, h⟩
    rw [this, measure_empty]
    exact bot_le

end

end Verif
