import Verif.Proofs.AlmostSure
import Verif.Proofs.Best

/-! Lower bounds for the probability to reach a ball, and recursions that do not miss for ever (for C117). -/

set_option linter.unusedSectionVars false

namespace Verif

open MeasureTheory ProbabilityTheory
open scoped ENNReal

section
variable {Ω A B : Type} [MeasurableSpace Ω] [MeasurableSpace A] [MeasurableSpace B] {P : Measure Ω} [IsProbabilityMeasure P]

/-- If in step `j`, from wherever the recursion is, the probability of a miss is at most `q j`, then the probability of `k` misses in a row is at most the product. -/
theorem miss_prod {Φ : ℕ → A → B → A} (hΦ : ∀ k, Measurable fun q : A × B => Φ k q.1 q.2) (a : A) {Z : ℕ → Ω → B} (hZ : ∀ k, Measurable (Z k)) (hi : iIndepFun Z P)
    {μ : Measure B} (hμ : ∀ k, P.map (Z k) = μ) {C : ℕ → Set (A × B)} (hC : ∀ k, MeasurableSet (C k)) {q : ℕ → ℝ≥0∞} (hq : ∀ k x, μ {z | (x, z) ∈ C k} ≤ q k) (k : ℕ) :
    P {ω | ∀ j < k, (recur Φ a (fun j => Z j ω) j, Z j ω) ∈ C j} ≤ ∏ j ∈ Finset.range k, q j := by
  classical
  let Ψ : ℕ → A × ℝ≥0∞ → B → A × ℝ≥0∞ := fun k x z => (Φ k x.1 z, x.2 * (C k).indicator 1 (x.1, z))
  have mI : ∀ k, Measurable fun r : (A × ℝ≥0∞) × B => r.1.2 * (C k).indicator (1 : A × B → ℝ≥0∞) (r.1.1, r.2) := fun k =>
    (measurable_snd.comp measurable_fst).mul ((measurable_one.indicator (hC k)).comp ((measurable_fst.comp measurable_fst).prodMk measurable_snd))
  have hΨ : ∀ k, Measurable fun r : (A × ℝ≥0∞) × B => Ψ k r.1 r.2 := fun k =>
    ((hΦ k).comp ((measurable_fst.comp measurable_fst).prodMk measurable_snd)).prodMk (mI k)
  have e1 : ∀ z k, (recur Ψ (a, 1) z k).1 = recur Φ a z k := by
    intro z k
    induction k with
    | zero => rfl
    | succ k ih => simp only [recur, Ψ, ih]
  have e2 : ∀ (z : ℕ → B) k, (recur Ψ (a, 1) z k).2 = if ∀ j < k, (recur Φ a z j, z j) ∈ C j then 1 else 0 := by
    intro z k
    induction k with
    | zero => simp [recur]
    | succ k ih =>
      simp only [recur, Ψ, ih, e1]
      by_cases h : (recur Φ a z k, z k) ∈ C k
      · by_cases h2 : ∀ j < k, (recur Φ a z j, z j) ∈ C j
        · rw [if_pos h2, if_pos fun j hj => by
            rcases Nat.lt_succ_iff_lt_or_eq.1 hj with h3 | rfl
            · exact h2 j h3
            · exact h]
          simp [h]
        · rw [if_neg h2, if_neg fun h3 => h2 fun j hj => h3 j (by omega), zero_mul]
      · have h4 : ¬ ∀ j < k + 1, (recur Φ a z j, z j) ∈ C j := fun h3 => h (h3 k (by omega))
        rw [if_neg h4]
        simp [h]
  have bound : ∀ k, ∫⁻ ω, (recur Ψ (a, 1) (fun j => Z j ω) k).2 ∂P ≤ ∏ j ∈ Finset.range k, q j := by
    intro k
    induction k with
    | zero => simp [recur]
    | succ k ih =>
      have h1 := recur_step (P := P) hΨ (a, 1) hZ hi hμ k (F := fun r => r.1.2 * (C k).indicator 1 (r.1.1, r.2)) (mI k) (G := fun x => x.2 * q k) fun x => by
        have m1 : Measurable fun z : B => (C k).indicator (1 : A × B → ℝ≥0∞) (x.1, z) := (measurable_one.indicator (hC k)).comp measurable_prodMk_left
        simp only
        rw [lintegral_const_mul _ m1]
        refine mul_le_mul_right ?_ _
        have : (fun z : B => (C k).indicator (1 : A × B → ℝ≥0∞) (x.1, z)) = ({z | (x.1, z) ∈ C k} : Set B).indicator 1 := by
          funext z
          rfl
        rw [this]
        have h3 := lintegral_indicator_one (μ := μ) (measurable_prodMk_left (x := x.1) (hC k))
        exact h3.le.trans (hq k x.1)
      have h2 : ∫⁻ ω, (recur Ψ (a, 1) (fun j => Z j ω) (k + 1)).2 ∂P ≤ ∫⁻ ω, (recur Ψ (a, 1) (fun j => Z j ω) k).2 * q k ∂P := h1
      refine h2.trans ?_
      have m2 : Measurable fun ω => (recur Ψ (a, 1) (fun j => Z j ω) k).2 := measurable_snd.comp ((recur_measurable hΨ (a, 1) k).comp (measurable_pi_lambda _ hZ))
      rw [lintegral_mul_const _ m2, Finset.prod_range_succ]
      exact mul_le_mul_left ih _
  have mS : MeasurableSet {ω | ∀ j < k, (recur Φ a (fun j => Z j ω) j, Z j ω) ∈ C j} := by
    simp only [Set.ofPred_forall]
    exact MeasurableSet.iInter fun j => MeasurableSet.iInter fun _ => ((((recur_measurable hΦ a j).comp (measurable_pi_lambda _ hZ))).prodMk (hZ j)) (hC j)
  rw [← lintegral_indicator_one mS]
  refine le_trans (le_of_eq (lintegral_congr fun ω => ?_)) (bound k)
  rw [e2]
  by_cases h : ∀ j < k, (recur Φ a (fun j => Z j ω) j, Z j ω) ∈ C j
  · rw [if_pos h, Set.indicator_of_mem (by exact h)]; rfl
  · rw [if_neg h, Set.indicator_of_notMem (by exact h)]

/-- If in every step, from wherever the recursion is, the probability of a miss is at most `q`, then the probability of `k` misses in a row is at most `q ^ k`. -/
theorem miss_tail {Φ : ℕ → A → B → A} (hΦ : ∀ k, Measurable fun q : A × B => Φ k q.1 q.2) (a : A) {Z : ℕ → Ω → B} (hZ : ∀ k, Measurable (Z k)) (hi : iIndepFun Z P)
    {μ : Measure B} (hμ : ∀ k, P.map (Z k) = μ) {C : ℕ → Set (A × B)} (hC : ∀ k, MeasurableSet (C k)) {q : ℝ≥0∞} (hq : ∀ k x, μ {z | (x, z) ∈ C k} ≤ q) (k : ℕ) :
    P {ω | ∀ j < k, (recur Φ a (fun j => Z j ω) j, Z j ω) ∈ C j} ≤ q ^ k := by
  simpa using miss_prod hΦ a hZ hi hμ hC (q := fun _ => q) hq k

/-- With `q < 1` the recursion almost surely does not miss for ever. -/
theorem miss_ae {Φ : ℕ → A → B → A} {a : A} {Z : ℕ → Ω → B} {C : ℕ → Set (A × B)} {q : ℝ≥0∞} (hq : q < 1)
    (h : ∀ k, P {ω | ∀ j < k, (recur Φ a (fun j => Z j ω) j, Z j ω) ∈ C j} ≤ q ^ k) : ∀ᵐ ω ∂P, ∃ j, (recur Φ a (fun j => Z j ω) j, Z j ω) ∉ C j := by
  rw [ae_iff]
  refine le_antisymm (ge_of_tendsto' (ENNReal.tendsto_pow_atTop_nhds_zero_of_lt_one hq) fun k => ?_) bot_le
  refine (measure_mono fun ω hω => ?_).trans (h k)
  simp only [Set.mem_ofPred_eq, not_exists, not_not] at hω
  exact fun j _ => hω j

end

/-- Intervals of given length with bounded centre have a probability bounded below. -/
theorem gauss_interval {T η : ℝ} (hη : 0 < η) : ∃ δ : ℝ≥0∞, 0 < δ ∧ δ ≤ 1 ∧ ∀ t, |t| ≤ T → δ ≤ gaussianReal 0 1 {x | |x - t| < η} := by
  let c : ℝ≥0∞ := gaussianPDF 0 1 (T + η)
  have hc : 0 < c := gaussianPDF_pos 0 one_ne_zero _
  refine ⟨min 1 (c * ENNReal.ofReal (2 * η)), lt_min one_pos (ENNReal.mul_pos hc.ne' (by simpa using hη)), min_le_left _ _, fun t ht => (min_le_right _ _).trans ?_⟩
  have hS : MeasurableSet {x : ℝ | |x - t| < η} := (isOpen_lt (by fun_prop) continuous_const).measurableSet
  rw [gaussianReal_apply 0 one_ne_zero]
  have hv : volume {x : ℝ | |x - t| < η} = ENNReal.ofReal (2 * η) := by
    have : {x : ℝ | |x - t| < η} = Metric.ball t η := by ext x; simp [Real.dist_eq]
    rw [this, Real.volume_ball]
  rw [← hv, ← setLIntegral_const]
  refine setLIntegral_mono' hS fun x hx => ?_
  simp only [c, gaussianPDF]
  refine ENNReal.ofReal_le_ofReal ?_
  simp only [gaussianPDFReal, sub_zero]
  refine mul_le_mul_of_nonneg_left (Real.exp_le_exp.2 ?_) (by positivity)
  have h1 : |x| ≤ T + η := by
    have : |x| ≤ |x - t| + |t| := by simpa using abs_add_le (x - t) t
    have hx' : |x - t| < η := hx
    linarith
  have h2 : x ^ 2 ≤ (T + η) ^ 2 := by
    rw [← sq_abs x]
    exact pow_le_pow_left₀ (abs_nonneg _) h1 2
  have : -(T + η) ^ 2 ≤ -x ^ 2 := by linarith
  exact div_le_div_of_nonneg_right this (by norm_num)

section
variable {ι : Type} [Fintype ι] [DecidableEq ι]

/-- One particle reaches a ball with a probability bounded below, uniformly in its bounded starting point. -/
theorem normal_ball (M N : ℕ) (i : Fin M) {g T η : ℝ} (hg : g ≠ 0) (hη : 0 < η) (y : ι → ℝ) :
    ∃ q : ℝ≥0∞, q < 1 ∧ ∀ (n : Fin N) (u : ι → ℝ), (∀ l, |u l| ≤ T) → stdNormal (Fin M × Fin N × ι) {z | ¬ ∀ l, |u l + g * z (i, n, l) - y l| < η} ≤ q := by
  have hgp : 0 < |g| := abs_pos.2 hg
  obtain ⟨Y, hY⟩ : ∃ Y, ∀ l, |y l| ≤ Y := ⟨∑ l, |y l|, fun l => Finset.single_le_sum (f := fun l => |y l|) (fun l _ => abs_nonneg _) (Finset.mem_univ l)⟩
  obtain ⟨δ, h0, h1, hδ⟩ := gauss_interval (T := (T + Y) / |g|) (η := η / |g|) (by positivity)
  have : IsProbabilityMeasure (stdNormal (Fin M × Fin N × ι)) := by unfold stdNormal; infer_instance
  have hδt : δ ^ Fintype.card (Fin M × Fin N × ι) ≠ 0 := pow_ne_zero _ h0.ne'
  refine ⟨1 - δ ^ Fintype.card (Fin M × Fin N × ι), ENNReal.sub_lt_self ENNReal.one_ne_top one_ne_zero hδt, fun n u hu => ?_⟩
  let S : Fin M × Fin N × ι → Set ℝ := fun r => if r.1 = i ∧ r.2.1 = n then {x | |x - (y r.2.2 - u r.2.2) / g| < η / |g|} else Set.univ
  have hS : ∀ r, MeasurableSet (S r) := by
    intro r
    simp only [S]
    split_ifs
    · exact (isOpen_lt (by fun_prop) continuous_const).measurableSet
    · exact MeasurableSet.univ
  have hlow : δ ^ Fintype.card (Fin M × Fin N × ι) ≤ stdNormal (Fin M × Fin N × ι) (Set.univ.pi S) := by
    unfold stdNormal
    rw [Measure.pi_pi, ← Finset.card_univ, ← Finset.prod_const]
    refine Finset.prod_le_prod' fun r _ => ?_
    simp only [S]
    split_ifs
    · refine hδ _ ?_
      rw [abs_div]
      refine div_le_div_of_nonneg_right ?_ hgp.le
      have := abs_sub (y r.2.2) (u r.2.2)
      linarith [hu r.2.2, hY r.2.2]
    · rw [measure_univ]; exact h1
  have hsub : {z : Fin M × Fin N × ι → ℝ | ¬ ∀ l, |u l + g * z (i, n, l) - y l| < η} ⊆ (Set.univ.pi S)ᶜ := by
    intro z hz hz'
    refine hz fun l => ?_
    have h2 := hz' (i, n, l) (Set.mem_univ _)
    simp only [S, and_self, if_true, Set.mem_ofPred_eq] at h2
    have e : u l + g * z (i, n, l) - y l = g * (z (i, n, l) - (y l - u l) / g) := by
      field_simp
      ring
    rw [e, abs_mul]
    rw [lt_div_iff₀ hgp] at h2
    linarith
  refine (measure_mono hsub).trans ?_
  rw [prob_compl_eq_one_sub (MeasurableSet.univ_pi hS)]
  exact tsub_le_tsub_left hlow 1

/-- Along a path: what was evaluated stays evaluated, and `best_energy` is the least value. -/
theorem path_best {env : Env ℝ (ι → ℝ)} {f : (ι → ℝ) → ℝ} {ν : ℕ → ℝ → ℕ → ℕ → (ι → ℝ) → ι → ℝ} {p : (ι → ℝ) → ι → ℝ} (hE : Standard env f ν p) {rule : (ι → ℝ) → (ι → ℝ) → ι → ℝ} {s : St ℝ (ι → ℝ)}
    (hw : WF s) (hbi : BestInv env s) {Z : ℕ → Fin s.M × Fin s.N × ι → ℝ} {σ : ℕ → St ℝ (ι → ℝ)} (h0 : σ 0 = s)
    (hσ : ∀ k, step (withSample env rule s.M s.N (Z k)) (cboInner (withSample env rule s.M s.N (Z k))) (σ k) = .ok (σ (k + 1))) (k : ℕ) :
    WF (σ k) ∧ BestInv env (σ k) ∧ (σ k).M = s.M ∧ ∀ m v, Evaluated (σ (k + 1)) m v ↔ Evaluated (σ k) m v ∨ ∃ n, (σ (k + 1)).cIdx.Sel m n ∧ v = (σ k).x.get m n := by
  have sum : ∀ k, StepSum (withSample env rule s.M s.N (Z k)) (σ k) (σ (k + 1)) := fun k =>
    step_sum (env := withSample env rule s.M s.N (Z k)) (cboMove_ok _) hE.post.ok (by rw [← cboInner_eq]; exact hσ k)
  have inv : WF (σ k) ∧ BestInv env (σ k) ∧ (σ k).M = s.M := by
    induction k with
    | zero => rw [h0]; exact ⟨hw, hbi, rfl⟩
    | succ k ih =>
      obtain ⟨i1, i2, i3⟩ := ih
      have t1 : step (withSample env rule s.M s.N (Z k)) (consThen (withSample env rule s.M s.N (Z k)) (cboMove (withSample env rule s.M s.N (Z k)))) (σ k) = .ok (σ (k + 1)) := by
        rw [← cboInner_eq]; exact hσ k
      have hpo : PostOK (withSample env rule s.M s.N (Z k)) := hE.post.ok
      have hpp : PermOK (withSample env rule s.M s.N (Z k)) := hE.perm
      have b : BestInv (withSample env rule s.M s.N (Z k)) (σ k) := ⟨i2.src, i2.best, i2.least⟩
      have nn : NoNaN (withSample env rule s.M s.N (Z k)).f (σ (k + 1)) := fun m v _ => by
        show env.f v ≠ _
        rw [hE.f]; simp
      have b' := bestInv_exec (cboMove_ok (withSample env rule s.M s.N (Z k))) hpo hpp (o := .step) i1 nn b t1
      exact ⟨step_wf (cboMove_ok _) hpo hpp i1 t1, ⟨b'.src, b'.best, b'.least⟩, (sum k).M.trans i3⟩
  exact ⟨inv.1, inv.2.1, inv.2.2, step_evaluated (sum k)⟩

end

end Verif
