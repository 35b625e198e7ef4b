import Verif.Proofs.Found
import Verif.Props.AlmostSure

/-! # C117: with constant noise the best value found tends to the minimum, almost surely -/

set_option linter.unusedSectionVars false

namespace Verif

open MeasureTheory ProbabilityTheory Filter
open scoped ENNReal Topology

section
variable {ι : Type} [Fintype ι] [DecidableEq ι]

section
variable (env : Env ℝ (ι → ℝ)) (f : (ι → ℝ) → ℝ) (ν : ℕ → ℝ → ℕ → ℕ → (ι → ℝ) → ι → ℝ) (p : (ι → ℝ) → ι → ℝ) (hE : Standard env f ν p)
  (a : Args ℝ (ι → ℝ)) (hb : a.batchSize ≠ some 0) (s₀ s : St ℝ (ι → ℝ)) (ops : List Op) (h0 : init env a = .ok s₀)
  (h : execAll env (cboInner env) ops s₀ = .ok s) (m : ℕ) (hm : m ∈ s.active) (hfull : s.batched = false ∨ s.batchPartial = false) (hsi : s.saveInt ≠ 0) (hdt : 0 < s.dt) (hsig : s.sigma ≠ 0)
  (hf : Measurable f) (hp : Shrinks p) (R : ℝ) (hR : ∀ v l, |p v l| ≤ R) (y : ι → ℝ) (hy : p y = y) (hfy : ContinuousAt f y)
  {Ω : Type} [MeasurableSpace Ω] (P : Measure Ω) [IsProbabilityMeasure P] (Z : ℕ → Ω → Fin s.M × Fin s.N × ι → ℝ) (hZ : IidNormal P Z)

include hE hb h0 h hm hfull hsi hdt hsig hf hp hR hy hfy hZ

/-- **C117 (rate).** CBO with constant noise (`sigma ≠ 0`, `dt > 0`), independent standard normal numbers, batches of any size in which all particles move, post processing into a bounded box (the default clipping). Let `y` be
a point of the box at which the objective is continuous. Then no step raises, and for every `ε > 0` the probability that `best_energy` of the run is not below `f y + ε` after `k + 2` steps is at most `q ^ k` with some `q < 1`. -/
theorem C117_tail (ε : ℝ) (hε : 0 < ε) :
    ∃ q : ℝ≥0∞, q < 1 ∧ ∀ k, P {ω | ¬ ∃ σ : ℕ → St ℝ (ι → ℝ), (∀ j, path env constRule s.M s.N (fun j => Z j ω) s j = .ok (σ j)) ∧
      ∀ j ≥ k + 2, ∃ e, (σ j).bestE m = .fin e ∧ e < f y + ε} ≤ q ^ k := by
  have hs := ms_reach env f ν p hE a hb s₀ s ops h0 h m hm hfull hsi
  obtain ⟨i, J, hmi, hJ, hJN, -, hpath⟩ := path_rows_of (rule := constRule) (β := fun _ _ => 1) hE (fun d z l => by simp [constRule]) hs
  have hmM : m < s.M := List.mem_range.1 (hs.wf.act.subset hm)
  have hbi : BestInv env s := by
    rw [cboInner_eq] at h
    exact bestInv_execAll (cboMove_ok env) hE.post.ok hE.perm (init_wf hE.perm h0) (bestInv_init h0) h fun m v _ => by rw [hE.f]; simp
  -- a neighbourhood of `y` with good values
  have hpc : ContinuousAt p y := (continuous_pi fun l => by
    refine LipschitzWith.continuous (K := 1) (LipschitzWith.of_dist_le_mul fun u v => ?_)
    rw [NNReal.coe_one, one_mul, Real.dist_eq]
    exact (sq_le_sq.1 (hp u v l)).trans ((Real.dist_eq _ _).symm.le.trans (dist_le_pi_dist u v l)) : Continuous p).continuousAt
  have hnear : {v | f (p v) < f y + ε} ∈ nhds y := by
    have h1 : ContinuousAt (fun v => f (p v)) y := ContinuousAt.comp (f := p) (g := f) (by rw [hy]; exact hfy) hpc
    exact h1.eventually_lt continuousAt_const (by rw [hy]; linarith)
  obtain ⟨η, hη, hball⟩ := Metric.mem_nhds_iff.1 hnear
  -- bounds
  obtain ⟨R', hR'⟩ : ∃ R', R ≤ R' ∧ 0 ≤ R' ∧ ∀ n < s.N, ∀ l, |s.x.get m n l| ≤ R' := by
    refine ⟨max R 0 + ∑ n ∈ Finset.range s.N, ∑ l, |s.x.get m n l|, ?_, by positivity, fun n hn l => ?_⟩
    · have : 0 ≤ ∑ n ∈ Finset.range s.N, ∑ l, |s.x.get m n l| := by positivity
      linarith [le_max_left R 0]
    · have h1 := Finset.single_le_sum (f := fun n => ∑ l, |s.x.get m n l|) (fun n _ => Finset.sum_nonneg fun l _ => abs_nonneg _) (Finset.mem_range.2 hn)
      have h2 := Finset.single_le_sum (f := fun l => |s.x.get m n l|) (fun l _ => abs_nonneg _) (Finset.mem_univ l)
      have h3 : ∑ l, |s.x.get m n l| ≤ ∑ n ∈ Finset.range s.N, ∑ l, |s.x.get m n l| := h1
      have h4 : |s.x.get m n l| ≤ ∑ l, |s.x.get m n l| := h2
      linarith [le_max_right R 0]
  obtain ⟨r1, r0, rx⟩ := hR'
  have hg : s.sigma * (Real.sqrt s.dt * 1) ≠ 0 := mul_ne_zero hsig (by rw [mul_one]; exact (Real.sqrt_pos.2 hdt).ne')
  obtain ⟨q, hq1, hq⟩ := normal_ball s.M s.N i (T := R' + |s.lamda * s.dt| * (2 * R')) hg hη y
  refine ⟨q, hq1, fun k => ?_⟩
  -- the recursion and the set of misses
  let Φ : ℕ → (ℕ → ι → ℝ) → (Fin s.M × Fin s.N × ι → ℝ) → ℕ → ι → ℝ := fun k => rowNext f p (fun _ _ => 1) (s.alpha m) s.lamda s.dt s.sigma i (J k)
  have mΦ : ∀ k, Measurable fun q : (ℕ → ι → ℝ) × (Fin s.M × Fin s.N × ι → ℝ) => Φ k q.1 q.2 := fun k => rowNext_measurable hf (shrinks_measurable hp) measurable_const _ _ _ _ i (J k)
  choose w hw using fun k => List.exists_mem_of_ne_nil (J k) (hJ k)
  have hwN : ∀ k, w k < s.N := fun k => hJN k _ (hw k)
  let C : ℕ → Set ((ℕ → ι → ℝ) × (Fin s.M × Fin s.N × ι → ℝ)) := fun k => {r | (∀ n < s.N, ∀ l, |r.1 n l| ≤ R') ∧ f y + ε ≤ f (Φ k r.1 r.2 (w (k + 1)))}
  have mC : ∀ k, MeasurableSet (C k) := by
    intro k
    have : C k = (⋂ n, ⋂ (_ : n < s.N), ⋂ l, {r | |r.1 n l| ≤ R'}) ∩ {r | f y + ε ≤ f (Φ k r.1 r.2 (w (k + 1)))} := by
      ext r
      simp [C]
    rw [this]
    refine MeasurableSet.inter ?_ (measurableSet_le measurable_const (hf.comp ((measurable_pi_apply _).comp (mΦ k))))
    refine MeasurableSet.iInter fun n => MeasurableSet.iInter fun _ => MeasurableSet.iInter fun l => ?_
    have mx : Measurable fun r : (ℕ → ι → ℝ) × (Fin s.M × Fin s.N × ι → ℝ) => r.1 n l := (measurable_pi_apply l).comp ((measurable_pi_apply n).comp measurable_fst)
    exact measurableSet_le mx.abs measurable_const
  have cbox : ∀ (x : ℕ → ι → ℝ) k, (∀ n < s.N, ∀ l, |x n l| ≤ R') → ∀ l, |rowCons f (s.alpha m) (J k) x l| ≤ R' := by
    intro x k hx
    refine rowCons_hull f (s.alpha m) (hJ k) (hJN k) x {c | ∀ l, |c l| ≤ R'} ?_ hx
    intro u hu v hv α β hα hβ hαβ l
    simp only [Pi.add_apply, Pi.smul_apply, smul_eq_mul]
    calc _ ≤ |α * u l| + |β * v l| := abs_add_le _ _
      _ = α * |u l| + β * |v l| := by rw [abs_mul, abs_mul, abs_of_nonneg hα, abs_of_nonneg hβ]
      _ ≤ α * R' + β * R' := add_le_add (mul_le_mul_of_nonneg_left (hu l) hα) (mul_le_mul_of_nonneg_left (hv l) hβ)
      _ = R' := by rw [← add_mul, hαβ, one_mul]
  have hqC : ∀ k x, stdNormal (Fin s.M × Fin s.N × ι) {z | (x, z) ∈ C k} ≤ q := by
    intro k x
    by_cases hx : ∀ n < s.N, ∀ l, |x n l| ≤ R'
    · have hsub : {z | (x, z) ∈ C k} ⊆ {z | ¬ ∀ l, |(x (w (k + 1)) l - s.lamda * s.dt * (x (w (k + 1)) l - rowCons f (s.alpha m) (J k) x l)) + s.sigma * (Real.sqrt s.dt * 1) * z (i, ⟨w (k + 1), hwN _⟩, l) - y l| < η} := by
        intro z hz hz'
        have h1 : f y + ε ≤ f (Φ k x z (w (k + 1))) := hz.2
        have h2 : (fun l => (x (w (k + 1)) l - s.lamda * s.dt * (x (w (k + 1)) l - rowCons f (s.alpha m) (J k) x l)) + s.sigma * (Real.sqrt s.dt * 1) * z (i, ⟨w (k + 1), hwN _⟩, l)) ∈ Metric.ball y η := by
          rw [Metric.mem_ball, dist_pi_lt_iff hη]
          exact hz'
        have h3 := hball h2
        have e : ∀ l, drawn s.M s.N z i (w (k + 1)) l = z (i, ⟨w (k + 1), hwN _⟩, l) := fun l => by simp [drawn, hwN]
        simp only [Φ, rowNext, e] at h1
        exact not_lt.2 h1 h3
      refine (measure_mono hsub).trans (hq ⟨w (k + 1), hwN _⟩ (fun l => x (w (k + 1)) l - s.lamda * s.dt * (x (w (k + 1)) l - rowCons f (s.alpha m) (J k) x l)) fun l => ?_)
      have h1 := hx _ (hwN (k + 1)) l
      have h2 := cbox x k hx l
      have h3 : |x (w (k + 1)) l - rowCons f (s.alpha m) (J k) x l| ≤ 2 * R' := (abs_sub _ _).trans (by linarith)
      refine (abs_sub _ _).trans (add_le_add h1 ?_)
      rw [abs_mul]
      exact mul_le_mul_of_nonneg_left h3 (abs_nonneg _)
    · have : {z | (x, z) ∈ C k} = ∅ := by
        ext z
        exact ⟨fun hz => absurd hz.1 hx, fun hz => hz.elim⟩
      rw [this, measure_empty]
      exact bot_le
  refine (measure_mono ?_).trans (miss_tail (P := P) mΦ (s.x.get m) hZ.meas hZ.indep hZ.law mC hqC k)
  intro ω hω
  obtain ⟨σ, p1, p2, -, p4, p5⟩ := hpath fun j => Z j ω
  have s0 : σ 0 = s := by
    have := p1 0
    simp only [path] at this
    exact (Except.ok.inj this).symm
  have pb := path_best hE hs.wf hbi s0 p4
  intro j hj
  refine ⟨fun n hn l => ?_, ?_⟩
  · show |recur Φ (s.x.get m) (fun j => Z j ω) j n l| ≤ R'
    cases j with
    | zero => exact rx n hn l
    | succ j => exact (hR _ l).trans r1
  · by_contra hlt
    have hlt : f (recur Φ (s.x.get m) (fun j => Z j ω) (j + 1) (w (j + 1))) < f y + ε := not_le.1 hlt
    have e : (σ (j + 1)).x.get m (w (j + 1)) = recur Φ (s.x.get m) (fun j => Z j ω) (j + 1) (w (j + 1)) := p2 (j + 1) _ (hwN _)
    rw [← e] at hlt
    have hev : ∀ t, Evaluated (σ (j + 2 + t)) m ((σ (j + 1)).x.get m (w (j + 1))) := by
      intro t
      induction t with
      | zero => exact ((pb (j + 1)).2.2.2 _ _).2 (.inr ⟨w (j + 1), p5 (j + 1) _ (hw _), rfl⟩)
      | succ t ih => exact ((pb (j + 2 + t)).2.2.2 _ _).2 (.inl ih)
    refine hω ⟨σ, p1, fun t ht => ?_⟩
    obtain ⟨d, rfl⟩ : ∃ d, t = j + 2 + d := ⟨t - (j + 2), by omega⟩
    obtain ⟨-, b, bM, -⟩ := pb (j + 2 + d)
    have hle := b.least m (by rw [bM]; exact hmM) _ (hev d)
    rw [hE.f] at hle
    rcases b.best m (by rw [bM]; exact hmM) with hb1 | ⟨-, hb1⟩
    · rw [hb1] at hle
      simp [Flt.lt] at hle
    · rw [hE.f] at hb1
      refine ⟨_, hb1.symm, ?_⟩
      rw [← hb1] at hle
      simp only [Flt.lt, decide_eq_false_iff_not, not_lt] at hle
      exact hle.trans_lt hlt

/-- **C117 (limit).** In the same situation let `y` be a global minimiser of the objective. Then almost surely no step raises, `best_energy` of the run is a finite number from the second step on, and it tends to the minimum `f y`. -/
theorem C117_minimum (hmin : ∀ v, f y ≤ f v) :
    ∀ᵐ ω ∂P, ∃ (σ : ℕ → St ℝ (ι → ℝ)) (e : ℕ → ℝ), (∀ j, path env constRule s.M s.N (fun j => Z j ω) s j = .ok (σ j)) ∧ (∀ᶠ j in atTop, (σ j).bestE m = .fin (e j)) ∧ Tendsto e atTop (𝓝 (f y)) := by
  have hs := ms_reach env f ν p hE a hb s₀ s ops h0 h m hm hfull hsi
  obtain ⟨i, J, hmi, hJ, hJN, -, hpath⟩ := path_rows_of (rule := constRule) (β := fun _ _ => 1) hE (fun d z l => by simp [constRule]) hs
  have hmM : m < s.M := List.mem_range.1 (hs.wf.act.subset hm)
  have hbi : BestInv env s := by
    rw [cboInner_eq] at h
    exact bestInv_execAll (cboMove_ok env) hE.post.ok hE.perm (init_wf hE.perm h0) (bestInv_init h0) h fun m v _ => by rw [hE.f]; simp
  have key : ∀ n : ℕ, ∀ᵐ ω ∂P, ∃ (K : ℕ) (σ : ℕ → St ℝ (ι → ℝ)), (∀ j, path env constRule s.M s.N (fun j => Z j ω) s j = .ok (σ j)) ∧ ∀ j ≥ K, ∃ e, (σ j).bestE m = .fin e ∧ e < f y + 1 / (n + 1) := by
    intro n
    obtain ⟨q, hq1, hq⟩ := C117_tail env f ν p hE a hb s₀ s ops h0 h m hm hfull hsi hdt hsig hf hp R hR y hy hfy P Z hZ (1 / (n + 1)) (by positivity)
    rw [ae_iff]
    refine le_antisymm (ge_of_tendsto' (ENNReal.tendsto_pow_atTop_nhds_zero_of_lt_one hq1) fun k => ?_) bot_le
    refine (measure_mono ?_).trans (hq k)
    intro ω hω h1
    obtain ⟨σ, h2, h3⟩ := h1
    exact hω ⟨k + 2, σ, h2, h3⟩
  filter_upwards [ae_all_iff.2 key] with ω hω
  obtain ⟨σ, p1, p2, -, p4, p5⟩ := hpath fun j => Z j ω
  have s0 : σ 0 = s := by
    have := p1 0
    simp only [path] at this
    exact (Except.ok.inj this).symm
  have pb := path_best hE hs.wf hbi s0 p4
  have h1 : ∀ n : ℕ, ∃ K, ∀ j ≥ K, ∃ e, (σ j).bestE m = .fin e ∧ e < f y + 1 / (n + 1) := by
    intro n
    obtain ⟨K, τ, t1, t2⟩ := hω n
    have : τ = σ := funext fun j => Except.ok.inj ((t1 j).symm.trans (p1 j))
    rw [this] at t2
    exact ⟨K, t2⟩
  choose K hK using h1
  refine ⟨σ, fun j => f ((σ j).bestP m), p1, ?_, ?_⟩
  · filter_upwards [eventually_ge_atTop (K 0)] with j hj
    obtain ⟨e, e1, -⟩ := hK 0 j hj
    obtain ⟨-, b, bM, -⟩ := pb j
    rcases b.best m (by rw [bM]; exact hmM) with hb1 | ⟨-, hb1⟩
    · rw [e1] at hb1; cases hb1
    · rw [← hb1, hE.f]
  · rw [Metric.tendsto_atTop]
    intro ε hε
    obtain ⟨n, hn⟩ := exists_nat_one_div_lt hε
    refine ⟨K n, fun j hj => ?_⟩
    obtain ⟨e, e1, e2⟩ := hK n j hj
    obtain ⟨-, b, bM, -⟩ := pb j
    rcases b.best m (by rw [bM]; exact hmM) with hb1 | ⟨-, hb1⟩
    · rw [e1] at hb1; cases hb1
    · rw [e1, hE.f] at hb1
      have : f ((σ j).bestP m) = e := by injection hb1
      rw [Real.dist_eq, abs_of_nonneg (by linarith [hmin ((σ j).bestP m)])]
      linarith

omit hfy in
/-- **C117 (best particle).** If moreover the objective is continuous and `y` is its only minimiser, then almost surely `best_particle` of the run tends to `y`. -/
theorem C117_particle (hc : Continuous f) (hmin : ∀ v, v ≠ y → f y < f v) :
    ∀ᵐ ω ∂P, ∃ σ : ℕ → St ℝ (ι → ℝ), (∀ j, path env constRule s.M s.N (fun j => Z j ω) s j = .ok (σ j)) ∧ Tendsto (fun j => (σ j).bestP m) atTop (𝓝 y) := by
  have hs := ms_reach env f ν p hE a hb s₀ s ops h0 h m hm hfull hsi
  obtain ⟨i, J, hmi, hJ, hJN, -, hpath⟩ := path_rows_of (rule := constRule) (β := fun _ _ => 1) hE (fun d z l => by simp [constRule]) hs
  have hmM : m < s.M := List.mem_range.1 (hs.wf.act.subset hm)
  have hbi : BestInv env s := by
    rw [cboInner_eq] at h
    exact bestInv_execAll (cboMove_ok env) hE.post.ok hE.perm (init_wf hE.perm h0) (bestInv_init h0) h fun m v _ => by rw [hE.f]; simp
  have hmin' : ∀ v, f y ≤ f v := fun v => by
    by_cases hv : v = y
    · rw [hv]
    · exact (hmin v hv).le
  filter_upwards [C117_minimum env f ν p hE a hb s₀ s ops h0 h m hm hfull hsi hdt hsig hf hp R hR y hy hc.continuousAt P Z hZ hmin'] with ω hω
  obtain ⟨τ, e, t1, t2, t3⟩ := hω
  obtain ⟨σ, p1, p2, -, p4, p5⟩ := hpath fun j => Z j ω
  obtain rfl : τ = σ := funext fun j => Except.ok.inj ((t1 j).symm.trans (p1 j))
  have s0 : τ 0 = s := by
    have := p1 0
    simp only [path] at this
    exact (Except.ok.inj this).symm
  have pb := path_best hE hs.wf hbi s0 p4
  have lb : ∀ L : List (Site × ℕ × (ι → ℝ)), ∃ C, ∀ q ∈ L, ∀ l, |q.2.2 l| ≤ C := by
    intro L
    induction L with
    | nil => exact ⟨0, by simp⟩
    | cons q L ih =>
      obtain ⟨C, hC⟩ := ih
      refine ⟨max C (∑ l, |q.2.2 l|), fun q' hq' l => ?_⟩
      rcases List.mem_cons.1 hq' with rfl | hq'
      · exact (Finset.single_le_sum (f := fun l => |q'.2.2 l|) (fun l _ => abs_nonneg _) (Finset.mem_univ l)).trans (le_max_right _ _)
      · exact (hC q' hq' l).trans (le_max_left _ _)
  obtain ⟨C0, hC0⟩ := lb s.log
  obtain ⟨C1, hC1⟩ := lb ((List.range s.N).map fun n => (Site.energy, m, s.x.get m n))
  have hcin : ∀ k n, (τ (k + 1)).cIdx.Sel m n → n < s.N := by
    rintro k n ⟨i', hi', j, hj, -, rfl⟩
    have fr := step_frame (by rw [cboInner_eq]; exact consThen_frame (cboMove_ok _)) (p4 k)
    have hix := preStep_idx env hE.perm (pb k).1
    have hcI : (τ (k + 1)).cIdx = (preStep env (τ k)).cIdx := fr.cIdx
    rw [hcI] at hi' hj ⊢
    have h1 := (hix.cIn i' hi' j hj).2
    have hN : ∀ k, (τ k).N = s.N := by
      intro k
      induction k with
      | zero => rw [s0]
      | succ k ih => exact ((step_frame (by rw [cboInner_eq]; exact consThen_frame (cboMove_ok _)) (p4 k)).N).trans ih
    rw [hN] at h1
    exact h1
  have hbd : ∀ k v, Evaluated (τ k) m v → ∀ l, |v l| ≤ max (max C0 C1) R := by
    intro k
    induction k with
    | zero =>
      intro v hv l
      rw [s0] at hv
      exact (hC0 _ hv l).trans ((le_max_left _ _).trans (le_max_left _ _))
    | succ k ih =>
      intro v hv l
      rcases ((pb k).2.2.2 m v).1 hv with hv | ⟨n, hn, rfl⟩
      · exact ih v hv l
      · have hnN := hcin k n hn
        cases k with
        | zero =>
          rw [s0]
          exact (hC1 (Site.energy, m, s.x.get m n) (List.mem_map.2 ⟨n, List.mem_range.2 hnN, rfl⟩) l).trans ((le_max_right _ _).trans (le_max_left _ _))
        | succ k =>
          rw [p2 (k + 1) n hnN]
          exact (hR _ l).trans (le_max_right _ _)
  refine ⟨τ, p1, ?_⟩
  rw [Metric.tendsto_atTop]
  intro δ hδ
  let S : Set (ι → ℝ) := Set.Icc (fun _ => -max (max C0 C1) R) (fun _ => max (max C0 C1) R) ∩ {v | δ ≤ dist v y}
  have hS : IsCompact S := isCompact_Icc.inter_right (isClosed_le continuous_const (by fun_prop))
  have hev : ∀ᶠ j in atTop, Evaluated (τ j) m ((τ j).bestP m) ∧ f ((τ j).bestP m) = e j := by
    filter_upwards [t2] with j hj
    obtain ⟨-, b, bM, -⟩ := pb j
    rcases b.best m (by rw [bM]; exact hmM) with hb1 | ⟨hb2, hb1⟩
    · rw [hj] at hb1; cases hb1
    · refine ⟨hb2, ?_⟩
      rw [hj, hE.f] at hb1
      injection hb1
  rcases S.eq_empty_or_nonempty with hS0 | hS0
  · obtain ⟨K, hK⟩ := eventually_atTop.1 hev
    refine ⟨K, fun j hj => ?_⟩
    by_contra hd
    have : (τ j).bestP m ∈ S := ⟨⟨fun l => (abs_le.1 (hbd j _ (hK j hj).1 l)).1, fun l => (abs_le.1 (hbd j _ (hK j hj).1 l)).2⟩, not_lt.1 hd⟩
    rw [hS0] at this
    exact this
  · obtain ⟨v, hv, hvm⟩ := hS.exists_isMinOn hS0 hc.continuousOn
    have hvy : v ≠ y := by
      rintro rfl
      have : δ ≤ dist v v := hv.2
      rw [dist_self] at this
      linarith
    obtain ⟨K, hK⟩ := eventually_atTop.1 (hev.and (t3.eventually_lt_const (hmin v hvy)))
    refine ⟨K, fun j hj => ?_⟩
    by_contra hd
    obtain ⟨⟨h1, h2⟩, h3⟩ := hK j hj
    have hmem : (τ j).bestP m ∈ S := ⟨⟨fun l => (abs_le.1 (hbd j _ h1 l)).1, fun l => (abs_le.1 (hbd j _ h1 l)).2⟩, not_lt.1 hd⟩
    have h4 : f v ≤ f ((τ j).bestP m) := hvm hmem
    linarith

end

end

/-- C117: two runs of four particles on the plane, batches of 3 of 4 particles, clipping at 100, constant noise with `sigma = 1/2`: almost surely the best energy of run 1 tends to 0 and its best particle to the origin. -/
example : let env := Example.realEnv (rowNoise constRule Example.smp)
    ∃ s₀, init env { Example.realArgs (fun m n => ![n + 1, m]) (1 / 2) (some 3) with batchPartial := false } = .ok s₀ ∧
      ∃ P : Measure (ℕ → Fin s₀.M × Fin s₀.N × Fin 2 → ℝ), IsProbabilityMeasure P ∧
        (∀ᵐ ω ∂P, ∃ (σ : ℕ → St ℝ (Fin 2 → ℝ)) (e : ℕ → ℝ), (∀ k, path env constRule s₀.M s₀.N ω s₀ k = .ok (σ k)) ∧ (∀ᶠ j in atTop, (σ j).bestE 1 = .fin (e j)) ∧ Tendsto e atTop (𝓝 0)) ∧
        ∀ᵐ ω ∂P, ∃ σ : ℕ → St ℝ (Fin 2 → ℝ), (∀ k, path env constRule s₀.M s₀.N ω s₀ k = .ok (σ k)) ∧ Tendsto (fun j => (σ j).bestP 1) atTop (𝓝 0) := by
  intro env
  have h0 : ∃ s₀, init env { Example.realArgs (fun m n => ![n + 1, m]) (1 / 2) (some 3) with batchPartial := false } = .ok s₀ ∧ s₀.active = [0, 1] ∧ s₀.batchPartial = false ∧ s₀.saveInt = 2 ∧ s₀.dt = 1 / 10 ∧ s₀.sigma = 1 / 2 := by
    unfold init
    rw [if_neg (by simp [Example.realArgs])]
    exact ⟨_, rfl, rfl, rfl, rfl, rfl, rfl⟩
  obtain ⟨s₀, h0, b1, b2, b3, b5, b6⟩ := h0
  obtain ⟨P, hP, hZ⟩ := iidNormal_exists (Fin s₀.M × Fin s₀.N × Fin 2)
  have hc : Continuous fun v : Fin 2 → ℝ => v 0 ^ 2 + v 1 ^ 2 := by fun_prop
  have hR : ∀ (v : Fin 2 → ℝ) l, |clipVec 100 v l| ≤ 100 := fun v l => by
    rw [abs_le]
    simp only [clipVec]
    constructor
    · simp
    · simp
  have h00 : clipVec 100 (0 : Fin 2 → ℝ) = 0 := by
    funext l
    simp [clipVec]
  have ha : ({ Example.realArgs (fun m n => ![(n : ℝ) + 1, (m : ℝ)]) (1 / 2) (some 3) with batchPartial := false } : Args ℝ (Fin 2 → ℝ)).batchSize ≠ some 0 := by simp [Example.realArgs]
  refine ⟨s₀, h0, P, hP, ?_, ?_⟩
  · have key := C117_minimum env _ _ _ (Example.realEnv_standard constRule) _ ha s₀ s₀ [] h0 rfl 1 (by rw [b1]; simp) (.inr b2) (by omega) (by rw [b5]; norm_num) (by rw [b6]; norm_num) hc.measurable (clip_shrinks 100) 100 hR 0 h00
      hc.continuousAt P (fun k ω => ω k) hZ (fun v => by simp only [Pi.zero_apply]; nlinarith [sq_nonneg (v 0), sq_nonneg (v 1)])
    simpa using key
  · have key := C117_particle env _ _ _ (Example.realEnv_standard constRule) _ ha s₀ s₀ [] h0 rfl 1 (by rw [b1]; simp) (.inr b2) (by omega) (by rw [b5]; norm_num) (by rw [b6]; norm_num) hc.measurable (clip_shrinks 100) 100 hR 0 h00
      P (fun k ω => ω k) hZ hc (fun v hv => by
        simp only [Pi.zero_apply]
        by_contra hle
        refine hv (funext fun l => ?_)
        have e0 : v 0 ^ 2 = 0 := by nlinarith [sq_nonneg (v 0), sq_nonneg (v 1)]
        have e1 : v 1 ^ 2 = 0 := by nlinarith [sq_nonneg (v 0), sq_nonneg (v 1)]
        fin_cases l
        · simpa using e0
        · simpa using e1)
    exact key

end Verif
