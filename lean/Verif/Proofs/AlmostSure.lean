import Verif.Spec.AlmostSure
import Verif.Proofs.MeanSquare
import Mathlib.Probability.Independence.Basic
import Mathlib.MeasureTheory.Measure.Prod
import Mathlib.MeasureTheory.Measure.GiryMonad
import Mathlib.Analysis.SpecificLimits.Basic

/-! Lemmas for C82. -/

set_option linter.unusedSectionVars false

namespace Verif

open MeasureTheory ProbabilityTheory Filter
open scoped ENNReal Topology

/-! Recursions driven by independent random numbers -/

section
variable {Ω A B : Type} [MeasurableSpace Ω] [MeasurableSpace A] [MeasurableSpace B] {P : Measure Ω} [IsProbabilityMeasure P]

theorem indep_lintegral {X : Ω → A} {Z : Ω → B} (hX : Measurable X) (hZ : Measurable Z) (h : IndepFun X Z P) {F : A × B → ℝ≥0∞} (hF : Measurable F) :
    ∫⁻ ω, F (X ω, Z ω) ∂P = ∫⁻ ω, ∫⁻ z, F (X ω, z) ∂(P.map Z) ∂P := by
  haveI := Measure.isProbabilityMeasure_map (μ := P) hZ.aemeasurable
  haveI := Measure.isProbabilityMeasure_map (μ := P) hX.aemeasurable
  have h1 := (indepFun_iff_map_prod_eq_prod_map_map hX.aemeasurable hZ.aemeasurable).1 h
  calc ∫⁻ ω, F (X ω, Z ω) ∂P = ∫⁻ q, F q ∂(P.map fun ω => (X ω, Z ω)) := (lintegral_map hF (hX.prodMk hZ)).symm
    _ = ∫⁻ q, F q ∂((P.map X).prod (P.map Z)) := by rw [h1]
    _ = ∫⁻ x, ∫⁻ z, F (x, z) ∂(P.map Z) ∂(P.map X) := lintegral_prod _ hF.aemeasurable
    _ = _ := lintegral_map hF.lintegral_prod_right' hX

/-- The recursion `X (k + 1) = Φ k (X k) (z k)`. -/
def recur (Φ : ℕ → A → B → A) (a : A) (z : ℕ → B) : ℕ → A
  | 0 => a
  | k + 1 => Φ k (recur Φ a z k) (z k)

theorem recur_congr (Φ : ℕ → A → B → A) (a : A) {z z' : ℕ → B} : ∀ k, (∀ j < k, z j = z' j) → recur Φ a z k = recur Φ a z' k
  | 0, _ => rfl
  | k + 1, h => by
    simp only [recur]
    rw [recur_congr Φ a k fun j hj => h j (by omega), h k (by omega)]

theorem recur_measurable {Φ : ℕ → A → B → A} (hΦ : ∀ k, Measurable fun q : A × B => Φ k q.1 q.2) (a : A) : ∀ k, Measurable fun z : ℕ → B => recur Φ a z k
  | 0 => measurable_const
  | k + 1 => (hΦ k).comp ((recur_measurable hΦ a k).prodMk (measurable_pi_apply k))

theorem recur_indep {Φ : ℕ → A → B → A} (hΦ : ∀ k, Measurable fun q : A × B => Φ k q.1 q.2) (a : A) {Z : ℕ → Ω → B} (hZ : ∀ k, Measurable (Z k)) (hi : iIndepFun Z P) (k : ℕ) :
    IndepFun (fun ω => recur Φ a (fun j => Z j ω) k) (Z k) P := by
  by_cases hB : Nonempty B
  · obtain ⟨b⟩ := hB
    have h := hi.indepFun_finset (Finset.range k) {k} (by simp) hZ
    let e : ((Finset.range k) → B) → ℕ → B := fun u j => if h : j ∈ Finset.range k then u ⟨j, h⟩ else b
    have he : Measurable e := by
      refine measurable_pi_lambda _ fun j => ?_
      by_cases h : j ∈ Finset.range k
      · simp only [e, dif_pos h]; exact measurable_pi_apply _
      · simp only [e, dif_neg h]; exact measurable_const
    have hm : Measurable fun v : ({k} : Finset ℕ) → B => v ⟨k, by simp⟩ := measurable_pi_apply _
    have h2 := h.comp (φ := fun u => recur Φ a (e u) k) ((recur_measurable hΦ a k).comp he) hm
    have e1 : (fun ω => recur Φ a (fun j => Z j ω) k) = (fun u => recur Φ a (e u) k) ∘ fun ω (i : Finset.range k) => Z i ω := by
      funext ω
      refine recur_congr Φ a k fun j hj => ?_
      simp [e, hj]
    rw [e1]
    exact h2
  · have : IsEmpty Ω := ⟨fun ω => hB ⟨Z 0 ω⟩⟩
    have : P = 0 := Measure.eq_zero_of_isEmpty P
    exact absurd this (IsProbabilityMeasure.ne_zero P)

/-- One step of such a recursion under the expectation. -/
theorem recur_step {Φ : ℕ → A → B → A} (hΦ : ∀ k, Measurable fun q : A × B => Φ k q.1 q.2) (a : A) {Z : ℕ → Ω → B} (hZ : ∀ k, Measurable (Z k)) (hi : iIndepFun Z P)
    {μ : Measure B} (hμ : ∀ k, P.map (Z k) = μ) (k : ℕ) {F : A × B → ℝ≥0∞} (hF : Measurable F) {G : A → ℝ≥0∞} (h : ∀ x, ∫⁻ z, F (x, z) ∂μ ≤ G x) :
    ∫⁻ ω, F (recur Φ a (fun j => Z j ω) k, Z k ω) ∂P ≤ ∫⁻ ω, G (recur Φ a (fun j => Z j ω) k) ∂P := by
  rw [indep_lintegral (X := fun ω => recur Φ a (fun j => Z j ω) k) ((recur_measurable hΦ a k).comp (measurable_pi_lambda _ hZ)) (hZ k) (recur_indep hΦ a hZ hi k) hF, hμ k]
  exact lintegral_mono fun ω => h _

/-- Geometric decay of the expectations gives geometric decay almost surely, at every slower rate. -/
theorem ae_geometric {W : ℕ → Ω → ℝ} (hW : ∀ k, Measurable (W k)) {C q θ : ℝ} (hq : 0 ≤ q) (hqθ : q < θ)
    (h : ∀ k, ∫⁻ ω, ENNReal.ofReal (W k ω) ∂P ≤ ENNReal.ofReal (C * q ^ k)) :
    ∀ᵐ ω ∂P, ∃ S, 0 ≤ S ∧ ∀ k, W k ω ≤ S * θ ^ k := by
  have hθ : 0 < θ := lt_of_le_of_lt hq hqθ
  have hC : ∀ k, C * q ^ k ≤ max C 0 * q ^ k := fun k => mul_le_mul_of_nonneg_right (le_max_left _ _) (pow_nonneg hq k)
  have hm : ∀ k, Measurable fun ω => ENNReal.ofReal (W k ω / θ ^ k) := fun k => ((hW k).div_const _).ennreal_ofReal
  have hb : ∀ k, ∫⁻ ω, ENNReal.ofReal (W k ω / θ ^ k) ∂P ≤ ENNReal.ofReal (max C 0 * (q / θ) ^ k) := by
    intro k
    have e : ∀ ω, ENNReal.ofReal (W k ω / θ ^ k) = ENNReal.ofReal (θ ^ k)⁻¹ * ENNReal.ofReal (W k ω) := by
      intro ω
      rw [← ENNReal.ofReal_mul (by positivity), div_eq_mul_inv, mul_comm]
    simp only [e]
    rw [lintegral_const_mul _ (hW k).ennreal_ofReal]
    calc _ ≤ ENNReal.ofReal (θ ^ k)⁻¹ * ENNReal.ofReal (max C 0 * q ^ k) := mul_le_mul_right ((h k).trans (ENNReal.ofReal_le_ofReal (hC k))) _
      _ = _ := by
        rw [← ENNReal.ofReal_mul (by positivity)]
        congr 1
        rw [div_pow]
        field_simp
  have hsum : ∫⁻ ω, ∑' k, ENNReal.ofReal (W k ω / θ ^ k) ∂P ≠ ⊤ := by
    rw [lintegral_tsum fun k => (hm k).aemeasurable]
    refine ne_top_of_le_ne_top ?_ (ENNReal.tsum_le_tsum hb)
    have hs : Summable fun k => max C 0 * (q / θ) ^ k :=
      (summable_geometric_of_lt_one (by positivity) ((div_lt_one hθ).2 hqθ)).mul_left _
    rw [← ENNReal.ofReal_tsum_of_nonneg (fun k => by positivity) hs]
    exact ENNReal.ofReal_ne_top
  filter_upwards [ae_lt_top (Measurable.tsum hm) hsum] with ω hω
  refine ⟨(∑' k, ENNReal.ofReal (W k ω / θ ^ k)).toReal, ENNReal.toReal_nonneg, fun k => ?_⟩
  have h1 : ENNReal.ofReal (W k ω / θ ^ k) ≤ ∑' k, ENNReal.ofReal (W k ω / θ ^ k) := ENNReal.le_tsum k
  have h2 : W k ω / θ ^ k ≤ (∑' k, ENNReal.ofReal (W k ω / θ ^ k)).toReal := (ENNReal.ofReal_le_iff_le_toReal hω.ne).1 h1
  rwa [div_le_iff₀ (by positivity)] at h2

end

/-- Geometrically small increments and differences give convergence to a common point. -/
theorem converge_of {ι : Type} [Fintype ι] {N : ℕ} (hN : 0 < N) (u : ℕ → ℕ → ι → ℝ) {S r : ℝ} (hS : 0 ≤ S) (hr0 : 0 < r) (hr1 : r < 1)
    (hinc : ∀ k, 1 ≤ k → ∀ n < N, ∀ l, (u (k + 1) n l - u k n l) ^ 2 ≤ S * (r ^ 2) ^ k) (hsp : ∀ k, ∀ n < N, ∀ n' < N, ∀ l, (u k n l - u k n' l) ^ 2 ≤ S * (r ^ 2) ^ k) :
    ∃ (T : ℝ) (v : ι → ℝ), ∀ k, ∀ n < N, ∀ l, |u k n l - v l| ≤ T * r ^ k := by
  have hsq : ∀ (a : ℝ) k, a ^ 2 ≤ S * (r ^ 2) ^ k → |a| ≤ √S * r ^ k := by
    intro a k h
    refine abs_le_of_sq_le_sq' ?_ (by positivity) |> abs_le.2
    rw [mul_pow, Real.sq_sqrt hS, ← pow_mul, mul_comm k 2, pow_mul]
    exact h
  have h1r : 0 < 1 - r := by linarith
  have hd : ∀ l k, dist (u (k + 1) 0 l) (u (k + 1 + 1) 0 l) ≤ (√S * r) * r ^ k := by
    intro l k
    rw [dist_comm, Real.dist_eq]
    calc _ ≤ √S * r ^ (k + 1) := hsq _ _ (hinc (k + 1) (by omega) 0 hN l)
      _ = _ := by ring
  have hlim : ∀ l, ∃ v, Tendsto (fun k => u (k + 1) 0 l) atTop (𝓝 v) := fun l => cauchySeq_tendsto_of_complete (cauchySeq_of_le_geometric r (√S * r) hr1 (hd l))
  choose v hv using hlim
  have hdist : ∀ l k, |u (k + 1) 0 l - v l| ≤ (√S * r) * r ^ k / (1 - r) := by
    intro l k
    rw [← Real.dist_eq]
    exact dist_le_of_le_geometric_of_tendsto r (√S * r) hr1 (hd l) (hv l) k
  have hnn : ∀ n l, |u 0 n l - v l| ≤ ∑ n ∈ Finset.range N, ∑ l, |u 0 n l - v l| ∨ ¬ n < N := by
    intro n l
    by_cases hn : n < N
    · left
      calc |u 0 n l - v l| ≤ ∑ l, |u 0 n l - v l| := Finset.single_le_sum (f := fun l => |u 0 n l - v l|) (fun _ _ => abs_nonneg _) (Finset.mem_univ l)
        _ ≤ _ := Finset.single_le_sum (f := fun n => ∑ l, |u 0 n l - v l|) (fun _ _ => Finset.sum_nonneg fun _ _ => abs_nonneg _) (Finset.mem_range.2 hn)
    · exact Or.inr hn
  have h0 : (0 : ℝ) ≤ ∑ n ∈ Finset.range N, ∑ l, |u 0 n l - v l| := Finset.sum_nonneg fun _ _ => Finset.sum_nonneg fun _ _ => abs_nonneg _
  refine ⟨√S + √S / (1 - r) + ∑ n ∈ Finset.range N, ∑ l, |u 0 n l - v l|, v, fun k n hn l => ?_⟩
  have hA : 0 ≤ √S + √S / (1 - r) := by positivity
  cases k with
  | zero =>
    rw [pow_zero, mul_one]
    rcases hnn n l with h | h
    · linarith
    · exact absurd hn h
  | succ k =>
    have h1 := hsq _ _ (hsp (k + 1) n hn 0 hN l)
    have h2 := hdist l k
    have h3 : |u (k + 1) n l - v l| ≤ |u (k + 1) n l - u (k + 1) 0 l| + |u (k + 1) 0 l - v l| := abs_sub_le _ _ _
    have h4 : (√S * r) * r ^ k / (1 - r) = √S / (1 - r) * r ^ (k + 1) := by field_simp; ring
    have h5 : 0 ≤ (∑ n ∈ Finset.range N, ∑ l, |u 0 n l - v l|) * r ^ (k + 1) := by positivity
    rw [h4] at h2
    calc _ ≤ _ := h3
      _ ≤ √S * r ^ (k + 1) + √S / (1 - r) * r ^ (k + 1) := add_le_add h1 h2
      _ ≤ _ := by rw [add_mul, add_mul]; linarith

/-! The positions of one run -/

section
variable {ι : Type} [Fintype ι]

/-- The consensus point of the particles in the list `J`. -/
noncomputable def rowCons (f : (ι → ℝ) → ℝ) (α : ℝ) (J : List ℕ) (y : ℕ → ι → ℝ) : ι → ℝ := gibbs α (J.map fun n => (f (y n), y n))

/-- The positions of a run after a step, in which the run draws row `i` of `z`. -/
noncomputable def rowNext (f : (ι → ℝ) → ℝ) (p : (ι → ℝ) → ι → ℝ) (β : (ι → ℝ) → ι → ℝ) (α lamda dt sigma : ℝ) {M N : ℕ} (i : Fin M) (J : List ℕ)
    (y : ℕ → ι → ℝ) (z : Fin M × Fin N × ι → ℝ) : ℕ → ι → ℝ := fun n =>
  p fun l => (y n l - lamda * dt * (y n l - rowCons f α J y l)) + (sigma * (Real.sqrt dt * β (fun l => y n l - rowCons f α J y l) l)) * drawn M N z i n l

/-- An ensemble of one run. -/
def oneRow (y : ℕ → ι → ℝ) : Mat (ι → ℝ) := ⟨0, 0, fun _ n => y n⟩

theorem rowCons_hull (f : (ι → ℝ) → ℝ) (α : ℝ) {J : List ℕ} (hJ : J ≠ []) {N : ℕ} (hN : ∀ n ∈ J, n < N) (y : ℕ → ι → ℝ) (S : Set (ι → ℝ)) (hS : Convex ℝ S) (h : ∀ n < N, y n ∈ S) :
    rowCons f α J y ∈ S := by
  rw [rowCons, ← consDefault_fin]
  refine C20_convex _ _ (by simpa using hJ) S hS fun q hq => ?_
  obtain ⟨n, hn, rfl⟩ := List.mem_map.1 hq
  exact h n (hN n hn)

theorem shrinks_measurable {p : (ι → ℝ) → ι → ℝ} (hp : Shrinks p) : Measurable p := by
  refine Continuous.measurable (continuous_pi fun l => ?_)
  refine LipschitzWith.continuous (K := 1) (LipschitzWith.of_dist_le_mul fun u v => ?_)
  rw [NNReal.coe_one, one_mul, Real.dist_eq]
  exact (sq_le_sq.1 (hp u v l)).trans ((Real.dist_eq _ _).symm.le.trans (dist_le_pi_dist u v l))

theorem rowCons_measurable {f : (ι → ℝ) → ℝ} (hf : Measurable f) (α : ℝ) (J : List ℕ) : Measurable (rowCons f α J) := by
  have hw : ∀ n : ℕ, Measurable fun y : ℕ → ι → ℝ => Real.exp (-(α * f (y n))) := fun n =>
    Real.measurable_exp.comp ((hf.comp (measurable_pi_apply n)).const_mul α).neg
  have h1 : ∀ J : List ℕ, Measurable fun y : ℕ → ι → ℝ => (J.map fun n => Real.exp (-(α * f (y n)))).sum := by
    intro J
    induction J with
    | nil => simp only [List.map_nil, List.sum_nil]; exact measurable_const
    | cons n J ih => simp only [List.map_cons, List.sum_cons]; exact (hw n).add ih
  have h2 : ∀ J : List ℕ, Measurable fun y : ℕ → ι → ℝ => (J.map fun n => Real.exp (-(α * f (y n))) • y n).sum := by
    intro J
    induction J with
    | nil => simp only [List.map_nil, List.sum_nil]; exact measurable_const
    | cons n J ih => simp only [List.map_cons, List.sum_cons]; exact ((hw n).smul (measurable_pi_apply n)).add ih
  unfold rowCons gibbs
  simp only [List.map_map, Function.comp_def]
  exact (h1 J).inv.smul (h2 J)

theorem drawn_measurable {M N : ℕ} (i j : ℕ) (l : ι) : Measurable fun z : Fin M × Fin N × ι → ℝ => drawn M N z i j l := by
  unfold drawn
  by_cases h : i < M ∧ j < N
  · simp only [dif_pos h]; exact measurable_pi_apply _
  · simp only [dif_neg h]; exact measurable_const

theorem rowNext_measurable {f : (ι → ℝ) → ℝ} (hf : Measurable f) {p : (ι → ℝ) → ι → ℝ} (hp : Measurable p) {β : (ι → ℝ) → ι → ℝ} (hβ : Measurable β) (α lamda dt sigma : ℝ)
    {M N : ℕ} (i : Fin M) (J : List ℕ) : Measurable fun q : (ℕ → ι → ℝ) × (Fin M × Fin N × ι → ℝ) => rowNext f p β α lamda dt sigma i J q.1 q.2 := by
  refine measurable_pi_lambda _ fun n => hp.comp (measurable_pi_lambda _ fun l => ?_)
  have hy : ∀ l, Measurable fun q : (ℕ → ι → ℝ) × (Fin M × Fin N × ι → ℝ) => q.1 n l := fun l => (measurable_pi_apply l).comp ((measurable_pi_apply n).comp measurable_fst)
  have hc : ∀ l, Measurable fun q : (ℕ → ι → ℝ) × (Fin M × Fin N × ι → ℝ) => rowCons f α J q.1 l := fun l => (measurable_pi_apply l).comp ((rowCons_measurable hf α J).comp measurable_fst)
  have hz : Measurable fun q : (ℕ → ι → ℝ) × (Fin M × Fin N × ι → ℝ) => drawn M N q.2 i n l := (drawn_measurable i n l).comp measurable_snd
  have hd : Measurable fun q : (ℕ → ι → ℝ) × (Fin M × Fin N × ι → ℝ) => (fun l => q.1 n l - rowCons f α J q.1 l) := measurable_pi_lambda _ fun l => (hy l).sub (hc l)
  have hb : Measurable fun q : (ℕ → ι → ℝ) × (Fin M × Fin N × ι → ℝ) => β (fun l => q.1 n l - rowCons f α J q.1 l) l := (measurable_pi_apply l).comp (hβ.comp hd)
  exact ((hy l).sub (((hy l).sub (hc l)).const_mul _)).add (((hb.const_mul _).const_mul _).mul hz)

theorem spread_measurable (N : ℕ) : Measurable fun y : ℕ → ι → ℝ => spread (oneRow y) N 0 := by
  have hy : ∀ n l, Measurable fun y : ℕ → ι → ℝ => y n l := fun n l => (measurable_pi_apply l).comp (measurable_pi_apply n)
  exact Finset.measurable_sum _ fun n _ => Finset.measurable_sum _ fun k _ => Finset.measurable_sum _ fun l _ => ((hy n l).sub (hy k l)).pow_const 2

variable [DecidableEq ι]

theorem normal_sq_sum {M N : ℕ} (i : Fin M) (a b : ℕ → ι → ℝ) :
    ∫⁻ z, ENNReal.ofReal (∑ n ∈ Finset.range N, ∑ l, (a n l + b n l * drawn M N z i n l) ^ 2) ∂stdNormal (Fin M × Fin N × ι) =
      ENNReal.ofReal (∑ n ∈ Finset.range N, ∑ l, (a n l ^ 2 + b n l ^ 2)) := by
  haveI : IsProbabilityMeasure (stdNormal (Fin M × Fin N × ι)) := by unfold stdNormal; infer_instance
  have hz : ∀ (z : Fin M × Fin N × ι → ℝ) (n : Fin N) l, drawn M N z i n l = z (i, n, l) := by
    intro z n l
    simp [drawn]
  have key : ∀ (n : Fin N) l, Integrable (fun z : Fin M × Fin N × ι → ℝ => (a n l + b n l * z (i, n, l)) ^ 2) (stdNormal (Fin M × Fin N × ι)) ∧
      ∫ z, (a n l + b n l * z (i, n, l)) ^ 2 ∂stdNormal (Fin M × Fin N × ι) = a n l ^ 2 + b n l ^ 2 := by
    intro n l
    have e : (fun z : Fin M × Fin N × ι → ℝ => (a n l + b n l * z (i, n, l)) ^ 2) =
        fun z => a n l ^ 2 + 2 * a n l * b n l * z (i, n, l) + b n l ^ 2 * (z (i, n, l) * z (i, n, l)) := by funext z; ring
    have i0 : Integrable (fun _ : Fin M × Fin N × ι → ℝ => a n l ^ 2) (stdNormal (Fin M × Fin N × ι)) := integrable_const _
    have i1 := (normal_mean (i, n, l)).1.const_mul (2 * a n l * b n l)
    have i2 := (normal_moment (i, n, l) (i, n, l)).1.const_mul (b n l ^ 2)
    rw [e]
    have i01 : Integrable (fun z : Fin M × Fin N × ι → ℝ => a n l ^ 2 + 2 * a n l * b n l * z (i, n, l)) (stdNormal (Fin M × Fin N × ι)) := i0.add i1
    refine ⟨i01.add i2, ?_⟩
    rw [integral_add i01 i2, integral_add i0 i1, integral_const_mul, integral_const_mul, (normal_mean _).2, (normal_moment _ _).2, if_pos rfl]
    simp
  simp only [Finset.sum_range, hz]
  rw [← ofReal_integral_eq_lintegral_ofReal]
  · congr 1
    rw [integral_finsetSum _ fun n _ => integrable_finsetSum _ fun l _ => (key n l).1]
    refine Finset.sum_congr rfl fun n _ => ?_
    rw [integral_finsetSum _ fun l _ => (key n l).1]
    exact Finset.sum_congr rfl fun l _ => (key n l).2
  · exact integrable_finsetSum _ fun n _ => integrable_finsetSum _ fun l _ => (key n l).1
  · exact Filter.Eventually.of_forall fun z => Finset.sum_nonneg fun _ _ => Finset.sum_nonneg fun _ _ => sq_nonneg _

variable {f : (ι → ℝ) → ℝ} {p : (ι → ℝ) → ι → ℝ} (hp : Shrinks p) {rule : (ι → ℝ) → (ι → ℝ) → ι → ℝ} {β : (ι → ℝ) → ι → ℝ} {κ : ℝ} (hr : RuleCoeff rule β κ) (hκ : 0 ≤ κ)
  {α lamda dt sigma : ℝ} (hdt : 0 ≤ dt) {M N : ℕ} (hN : 0 < N) (i : Fin M) {J : List ℕ} (hJ : J ≠ []) (hJN : ∀ n ∈ J, n < N) (y : ℕ → ι → ℝ)

include hp hr hκ hdt hN

theorem row_spread_of {B : ℝ} (hB : distTo (oneRow y) N 0 (rowCons f α J y) ≤ B * spread (oneRow y) N 0) : ∫⁻ z, ENNReal.ofReal (spread (oneRow (rowNext f p β α lamda dt sigma i J y z)) N 0) ∂stdNormal (Fin M × Fin N × ι) ≤
    ENNReal.ofReal (((1 - lamda * dt) ^ 2 + 2 * ((N : ℝ) - 1) * B * κ * sigma ^ 2 * dt) * spread (oneRow y) N 0) := by
  set c := rowCons f α J y with hc
  have hcd : distTo (oneRow y) N 0 c ≤ B * spread (oneRow y) N 0 := hB
  set a : ℕ → ι → ℝ := fun n l => y n l - lamda * dt * (y n l - c l) with ha
  set b : ℕ → ι → ℝ := fun n l => sigma * (Real.sqrt dt * β (fun l => y n l - c l) l) with hb
  have hN1 : (0 : ℝ) ≤ (N : ℝ) - 1 := by
    have : (1 : ℝ) ≤ (N : ℝ) := by exact_mod_cast hN
    linarith
  calc _ ≤ ∫⁻ z, ENNReal.ofReal (∑ n ∈ Finset.range N, ∑ k ∈ Finset.range N, ∑ l, ((a n l + b n l * drawn M N z i n l) - (a k l + b k l * drawn M N z i k l)) ^ 2)
        ∂stdNormal (Fin M × Fin N × ι) := by
        refine lintegral_mono fun z => ENNReal.ofReal_le_ofReal ?_
        unfold spread
        exact Finset.sum_le_sum fun n _ => Finset.sum_le_sum fun k _ => Finset.sum_le_sum fun l _ => hp _ _ l
    _ = ENNReal.ofReal ((1 - lamda * dt) ^ 2 * spread (oneRow y) N 0 + 2 * ((N : ℝ) - 1) * κ * sigma ^ 2 * dt * distTo (oneRow y) N 0 c) := by
        rw [normal_spread]
        congr 2
        · rw [spread, Finset.mul_sum]
          refine Finset.sum_congr rfl fun n _ => ?_
          rw [Finset.mul_sum]
          refine Finset.sum_congr rfl fun k _ => ?_
          rw [Finset.mul_sum]
          refine Finset.sum_congr rfl fun l _ => ?_
          simp only [ha, oneRow]
          ring
        · rw [distTo, Finset.mul_sum, Finset.mul_sum]
          refine Finset.sum_congr rfl fun n _ => ?_
          have := hr.sq fun l => y n l - c l
          simp only [hb, mul_pow, ← Finset.mul_sum, this, Real.sq_sqrt hdt, oneRow]
          ring
    _ ≤ _ := by
        refine ENNReal.ofReal_le_ofReal ?_
        have h1 : 0 ≤ 2 * ((N : ℝ) - 1) * κ * sigma ^ 2 * dt := by positivity
        have h2 := mul_le_mul_of_nonneg_left hcd h1
        calc _ ≤ (1 - lamda * dt) ^ 2 * spread (oneRow y) N 0 + 2 * ((N : ℝ) - 1) * κ * sigma ^ 2 * dt * (B * spread (oneRow y) N 0) := by linarith
          _ = _ := by ring

omit hN in
theorem row_inc_of {B : ℝ} (hB : distTo (oneRow y) N 0 (rowCons f α J y) ≤ B * spread (oneRow y) N 0) : ∫⁻ z, ENNReal.ofReal (∑ n ∈ Finset.range N, ∑ l, (rowNext f p β α lamda dt sigma i J y z n l - p (y n) l) ^ 2) ∂stdNormal (Fin M × Fin N × ι) ≤
    ENNReal.ofReal (((lamda * dt) ^ 2 + κ * sigma ^ 2 * dt) * B * spread (oneRow y) N 0) := by
  set c := rowCons f α J y with hc
  have hcd : distTo (oneRow y) N 0 c ≤ B * spread (oneRow y) N 0 := hB
  set a : ℕ → ι → ℝ := fun n l => -(lamda * dt * (y n l - c l)) with ha
  set b : ℕ → ι → ℝ := fun n l => sigma * (Real.sqrt dt * β (fun l => y n l - c l) l) with hb
  calc _ ≤ ∫⁻ z, ENNReal.ofReal (∑ n ∈ Finset.range N, ∑ l, (a n l + b n l * drawn M N z i n l) ^ 2) ∂stdNormal (Fin M × Fin N × ι) := by
        refine lintegral_mono fun z => ENNReal.ofReal_le_ofReal ?_
        refine Finset.sum_le_sum fun n _ => Finset.sum_le_sum fun l _ => ?_
        refine (hp _ _ l).trans (le_of_eq ?_)
        simp only [ha, hb, ← hc]
        ring
    _ = ENNReal.ofReal (((lamda * dt) ^ 2 + κ * sigma ^ 2 * dt) * distTo (oneRow y) N 0 c) := by
        rw [normal_sq_sum]
        congr 1
        rw [distTo, Finset.mul_sum]
        refine Finset.sum_congr rfl fun n _ => ?_
        have := hr.sq fun l => y n l - c l
        simp only [ha, hb, neg_sq, mul_pow, Finset.sum_add_distrib, ← Finset.mul_sum, this, Real.sq_sqrt hdt, oneRow]
        ring
    _ ≤ _ := by
        refine ENNReal.ofReal_le_ofReal ?_
        have h1 : 0 ≤ (lamda * dt) ^ 2 + κ * sigma ^ 2 * dt := by positivity
        have h2 := mul_le_mul_of_nonneg_left hcd h1
        linarith [mul_assoc ((lamda * dt) ^ 2 + κ * sigma ^ 2 * dt) B (spread (oneRow y) N 0)]

include hJ hJN

theorem row_spread_bound : ∫⁻ z, ENNReal.ofReal (spread (oneRow (rowNext f p β α lamda dt sigma i J y z)) N 0) ∂stdNormal (Fin M × Fin N × ι) ≤
    ENNReal.ofReal (((1 - lamda * dt) ^ 2 + ((N : ℝ) - 1) * κ * sigma ^ 2 * dt) * spread (oneRow y) N 0) := by
  have := row_spread_of (f := f) (α := α) (lamda := lamda) (sigma := sigma) (J := J) hp hr hκ hdt hN i y (B := 1 / 2)
    ((distTo_le _ _ _ _ fun S hS h => rowCons_hull f α hJ hJN y S hS h).trans_eq (by ring))
  refine this.trans_eq ?_
  congr 2
  ring

theorem row_inc_bound : ∫⁻ z, ENNReal.ofReal (∑ n ∈ Finset.range N, ∑ l, (rowNext f p β α lamda dt sigma i J y z n l - p (y n) l) ^ 2) ∂stdNormal (Fin M × Fin N × ι) ≤
    ENNReal.ofReal (((lamda * dt) ^ 2 + κ * sigma ^ 2 * dt) / 2 * spread (oneRow y) N 0) := by
  have := row_inc_of (f := f) (α := α) (lamda := lamda) (sigma := sigma) (J := J) hp hr hκ hdt i y (B := 1 / 2)
    ((distTo_le _ _ _ _ fun S hS h => rowCons_hull f α hJ hJN y S hS h).trans_eq (by ring))
  refine this.trans_eq ?_
  congr 2
  ring

omit hJ hJN in
/-- The mean of the spread decays, for the recursion by itself. -/
theorem row_mean {Ω : Type} [MeasurableSpace Ω] {P : Measure Ω} [IsProbabilityMeasure P] {Z : ℕ → Ω → Fin M × Fin N × ι → ℝ} (hZ : IidNormal P Z)
    (hf : Measurable f) (hβ : Measurable β) {J : ℕ → List ℕ} {B : ℝ} (hB0 : 0 ≤ B) (hB : ∀ k y, distTo (oneRow y) N 0 (rowCons f α (J k) y) ≤ B * spread (oneRow y) N 0)
    {q : ℝ} (hq : q = (1 - lamda * dt) ^ 2 + 2 * ((N : ℝ) - 1) * B * κ * sigma ^ 2 * dt) :
    ∀ k, ∫⁻ ω, ENNReal.ofReal (spread (oneRow (recur (fun k => rowNext f p β α lamda dt sigma i (J k)) y (fun j => Z j ω) k)) N 0) ∂P ≤ ENNReal.ofReal (q ^ k * spread (oneRow y) N 0) := by
  have hN1 : (0 : ℝ) ≤ (N : ℝ) - 1 := by
    have : (1 : ℝ) ≤ (N : ℝ) := by exact_mod_cast hN
    linarith
  have hq0 : 0 ≤ q := by rw [hq]; positivity
  set Φ : ℕ → (ℕ → ι → ℝ) → (Fin M × Fin N × ι → ℝ) → ℕ → ι → ℝ := fun k => rowNext f p β α lamda dt sigma i (J k) with hΦ
  have mΦ : ∀ k, Measurable fun q : (ℕ → ι → ℝ) × (Fin M × Fin N × ι → ℝ) => Φ k q.1 q.2 := fun k => rowNext_measurable hf (shrinks_measurable hp) hβ α lamda dt sigma i (J k)
  set X : ℕ → Ω → ℕ → ι → ℝ := fun k ω => recur Φ y (fun j => Z j ω) k with hX
  have mX : ∀ k, Measurable (X k) := fun k => (recur_measurable mΦ y k).comp (measurable_pi_lambda _ hZ.meas)
  have mV : ∀ k, Measurable fun ω => ENNReal.ofReal (spread (oneRow (recur Φ y (fun j => Z j ω) k)) N 0) := fun k => ((spread_measurable N).comp (mX k)).ennreal_ofReal
  intro k
  induction k with
  | zero => simp [hX, recur]
  | succ k ih =>
    have h1 := recur_step (P := P) mΦ y hZ.meas hZ.indep hZ.law k (F := fun q => ENNReal.ofReal (spread (oneRow (Φ k q.1 q.2)) N 0))
      ((spread_measurable N).comp (mΦ k)).ennreal_ofReal (G := fun x => ENNReal.ofReal q * ENNReal.ofReal (spread (oneRow x) N 0)) fun x => by
        rw [← ENNReal.ofReal_mul hq0, hq]
        exact row_spread_of hp hr hκ hdt hN i x (hB k x)
    rw [lintegral_const_mul _ (mV k)] at h1
    calc _ ≤ _ := h1
      _ ≤ ENNReal.ofReal q * ENNReal.ofReal (q ^ k * spread (oneRow y) N 0) := mul_le_mul_right ih _
      _ = _ := by rw [← ENNReal.ofReal_mul hq0]; congr 1; ring

omit hJ hJN in
/-- **The positions of a run converge almost surely to a common point**, for the recursion by itself. -/
theorem row_converges {Ω : Type} [MeasurableSpace Ω] {P : Measure Ω} [IsProbabilityMeasure P] {Z : ℕ → Ω → Fin M × Fin N × ι → ℝ} (hZ : IidNormal P Z)
    (hf : Measurable f) (hβ : Measurable β) (hpp : ∀ v, p (p v) = p v) {J : ℕ → List ℕ} {B : ℝ} (hB0 : 0 ≤ B) (hB : ∀ k y, distTo (oneRow y) N 0 (rowCons f α (J k) y) ≤ B * spread (oneRow y) N 0)
    {q r : ℝ} (hq : q = (1 - lamda * dt) ^ 2 + 2 * ((N : ℝ) - 1) * B * κ * sigma ^ 2 * dt) (hr0 : 0 < r) (hr1 : r < 1) (hqr : q < r ^ 2) :
    ∀ᵐ ω ∂P, ∃ (T : ℝ) (v : ι → ℝ), ∀ k, ∀ n < N, ∀ l, |recur (fun k => rowNext f p β α lamda dt sigma i (J k)) y (fun j => Z j ω) k n l - v l| ≤ T * r ^ k := by
  have hN1 : (0 : ℝ) ≤ (N : ℝ) - 1 := by
    have : (1 : ℝ) ≤ (N : ℝ) := by exact_mod_cast hN
    linarith
  have hq0 : 0 ≤ q := by rw [hq]; positivity
  set Φ : ℕ → (ℕ → ι → ℝ) → (Fin M × Fin N × ι → ℝ) → ℕ → ι → ℝ := fun k => rowNext f p β α lamda dt sigma i (J k) with hΦ
  have mΦ : ∀ k, Measurable fun q : (ℕ → ι → ℝ) × (Fin M × Fin N × ι → ℝ) => Φ k q.1 q.2 := fun k => rowNext_measurable hf (shrinks_measurable hp) hβ α lamda dt sigma i (J k)
  set X : ℕ → Ω → ℕ → ι → ℝ := fun k ω => recur Φ y (fun j => Z j ω) k with hX
  have mX : ∀ k, Measurable (X k) := fun k => (recur_measurable mΦ y k).comp (measurable_pi_lambda _ hZ.meas)
  have mV : ∀ k, Measurable fun ω => ENNReal.ofReal (spread (oneRow (recur Φ y (fun j => Z j ω) k)) N 0) := fun k => ((spread_measurable N).comp (mX k)).ennreal_ofReal
  have hV : ∀ k, ∫⁻ ω, ENNReal.ofReal (spread (oneRow (X k ω)) N 0) ∂P ≤ ENNReal.ofReal (q ^ k * spread (oneRow y) N 0) :=
    row_mean hp hr hκ hdt hN i y hZ hf hβ hB0 hB hq
  set K : ℝ := ((lamda * dt) ^ 2 + κ * sigma ^ 2 * dt) * B with hK
  have hK0 : 0 ≤ K := by rw [hK]; positivity
  set D : ℕ → Ω → ℝ := fun k ω => ∑ n ∈ Finset.range N, ∑ l, (X (k + 1) ω n l - p (X k ω n) l) ^ 2 with hD
  have mD : ∀ k, Measurable (D k) := by
    intro k
    have h1 : ∀ k n l, Measurable fun ω => X k ω n l := fun k n l => (measurable_pi_apply l).comp ((measurable_pi_apply n).comp (mX k))
    have h2 : ∀ n l, Measurable fun ω => p (X k ω n) l := fun n l => (measurable_pi_apply l).comp ((shrinks_measurable hp).comp ((measurable_pi_apply n).comp (mX k)))
    exact Finset.measurable_sum _ fun n _ => Finset.measurable_sum _ fun l _ => ((h1 (k + 1) n l).sub (h2 n l)).pow_const 2
  have hDb : ∀ k, ∫⁻ ω, ENNReal.ofReal (D k ω) ∂P ≤ ENNReal.ofReal (K * (q ^ k * spread (oneRow y) N 0)) := by
    intro k
    have h1 := recur_step (P := P) mΦ y hZ.meas hZ.indep hZ.law k (F := fun q => ENNReal.ofReal (∑ n ∈ Finset.range N, ∑ l, (Φ k q.1 q.2 n l - p (q.1 n) l) ^ 2))
      (by
        refine Measurable.ennreal_ofReal (Finset.measurable_sum _ fun n _ => Finset.measurable_sum _ fun l _ => ?_)
        have h1 : Measurable fun q : (ℕ → ι → ℝ) × (Fin M × Fin N × ι → ℝ) => Φ k q.1 q.2 n l := (measurable_pi_apply l).comp ((measurable_pi_apply n).comp (mΦ k))
        have h2 : Measurable fun q : (ℕ → ι → ℝ) × (Fin M × Fin N × ι → ℝ) => p (q.1 n) l :=
          (measurable_pi_apply l).comp ((shrinks_measurable hp).comp ((measurable_pi_apply n).comp measurable_fst))
        exact (h1.sub h2).pow_const 2)
      (G := fun x => ENNReal.ofReal K * ENNReal.ofReal (spread (oneRow x) N 0)) fun x => by
        rw [← ENNReal.ofReal_mul hK0]
        exact row_inc_of hp hr hκ hdt i x (hB k x)
    rw [lintegral_const_mul _ (mV k)] at h1
    calc _ ≤ _ := h1
      _ ≤ ENNReal.ofReal K * ENNReal.ofReal (q ^ k * spread (oneRow y) N 0) := mul_le_mul_right (hV k) _
      _ = _ := by rw [← ENNReal.ofReal_mul hK0]
  have a1 := ae_geometric (P := P) (W := fun k ω => spread (oneRow (X k ω)) N 0) (fun k => (spread_measurable N).comp (mX k)) (C := spread (oneRow y) N 0) hq0 hqr
    fun k => (hV k).trans (ENNReal.ofReal_le_ofReal (le_of_eq (mul_comm _ _)))
  have a2 := ae_geometric (P := P) mD (C := K * spread (oneRow y) N 0) hq0 hqr fun k => (hDb k).trans (ENNReal.ofReal_le_ofReal (le_of_eq (by ring)))
  filter_upwards [a1, a2] with ω h1 h2
  obtain ⟨S1, s1, h1⟩ := h1
  obtain ⟨S2, s2, h2⟩ := h2
  refine converge_of hN (fun k => X k ω) (S := S1 + S2) (add_nonneg s1 s2) hr0 hr1 ?_ ?_
  · intro k hk n hn l
    have e : p (X k ω n) = X k ω n := by
      obtain ⟨k, rfl⟩ : ∃ j, k = j + 1 := ⟨k - 1, by omega⟩
      simp only [hX, recur, hΦ, rowNext, hpp]
    have h3 : (X (k + 1) ω n l - X k ω n l) ^ 2 ≤ D k ω := by
      have h4 : ∑ l, (X (k + 1) ω n l - p (X k ω n) l) ^ 2 ≤ D k ω :=
        Finset.single_le_sum (f := fun n => ∑ l, (X (k + 1) ω n l - p (X k ω n) l) ^ 2) (fun _ _ => Finset.sum_nonneg fun _ _ => sq_nonneg _) (Finset.mem_range.2 hn)
      have h5 : (X (k + 1) ω n l - p (X k ω n) l) ^ 2 ≤ ∑ l, (X (k + 1) ω n l - p (X k ω n) l) ^ 2 :=
        Finset.single_le_sum (f := fun l => (X (k + 1) ω n l - p (X k ω n) l) ^ 2) (fun _ _ => sq_nonneg _) (Finset.mem_univ l)
      rw [e] at h5 h4
      exact h5.trans h4
    calc _ ≤ _ := h3.trans (h2 k)
      _ ≤ _ := mul_le_mul_of_nonneg_right (by linarith) (by positivity)
  · intro k n hn n' hn' l
    have h3 : (X k ω n l - X k ω n' l) ^ 2 ≤ spread (oneRow (X k ω)) N 0 := by
      have h4 : ∑ n' ∈ Finset.range N, ∑ l, (X k ω n l - X k ω n' l) ^ 2 ≤ spread (oneRow (X k ω)) N 0 :=
        Finset.single_le_sum (f := fun n => ∑ n' ∈ Finset.range N, ∑ l, (X k ω n l - X k ω n' l) ^ 2) (fun _ _ => Finset.sum_nonneg fun _ _ => Finset.sum_nonneg fun _ _ => sq_nonneg _)
          (Finset.mem_range.2 hn)
      have h5 : ∑ l, (X k ω n l - X k ω n' l) ^ 2 ≤ ∑ n' ∈ Finset.range N, ∑ l, (X k ω n l - X k ω n' l) ^ 2 :=
        Finset.single_le_sum (f := fun n' => ∑ l, (X k ω n l - X k ω n' l) ^ 2) (fun _ _ => Finset.sum_nonneg fun _ _ => sq_nonneg _) (Finset.mem_range.2 hn')
      have h6 : (X k ω n l - X k ω n' l) ^ 2 ≤ ∑ l, (X k ω n l - X k ω n' l) ^ 2 :=
        Finset.single_le_sum (f := fun l => (X k ω n l - X k ω n' l) ^ 2) (fun _ _ => sq_nonneg _) (Finset.mem_univ l)
      exact h6.trans (h5.trans h4)
    calc _ ≤ _ := h3.trans (h1 k)
      _ ≤ _ := mul_le_mul_of_nonneg_right (by linarith) (by positivity)

end

/-! The machine -/

section
variable {ι : Type} [Fintype ι]

/-- Two states that select the same batches. -/
structure SameBatch (s s' : St ℝ (ι → ℝ)) : Prop where
  M : s'.M = s.M
  N : s'.N = s.N
  active : s'.active = s.active
  batchSize : s'.batchSize = s.batchSize
  batched : s'.batched = s.batched
  batchPartial : s'.batchPartial = s.batchPartial
  batchConcat : s'.batchConcat = s.batchConcat
  indices : s'.indices = s.indices
  perms : s'.perms = s.perms

theorem SameBatch.pre {env : Env ℝ (ι → ℝ)} {s s' : St ℝ (ι → ℝ)} (h : SameBatch s s') :
    (preStep env s').cIdx = (preStep env s).cIdx ∧ (preStep env s').indices = (preStep env s).indices ∧ (preStep env s').perms = (preStep env s).perms := by
  obtain ⟨h1, h2, h3, h4, h5, h6, h7, h8, h9⟩ := h
  unfold preStep setBatch setBatchBatched setBatchUnbatched refill
  simp only [h1, h2, h3, h4, h5, h6, h7, h8, h9]
  split_ifs <;> exact ⟨rfl, rfl, rfl⟩

/-- The members of the batch of row `i`. -/
def batchList (env : Env ℝ (ι → ℝ)) (s : St ℝ (ι → ℝ)) (i : ℕ) : List ℕ := (List.range (preStep env s).cIdx.cols).map ((preStep env s).cIdx.par i)

theorem withSamples_std {env : Env ℝ (ι → ℝ)} {f : (ι → ℝ) → ℝ} {ν : ℕ → ℝ → ℕ → ℕ → (ι → ℝ) → ι → ℝ} {p : (ι → ℝ) → ι → ℝ} (hE : Standard env f ν p)
    (rule : (ι → ℝ) → (ι → ℝ) → ι → ℝ) (M N : ℕ) (Z : ℕ → Fin M × Fin N × ι → ℝ) :
    Standard (withSamples env rule M N Z) f (fun c dt i j d => Real.sqrt dt • rule d (drawn M N (Z c) i j)) p where
  corr := hE.corr
  cons := hE.cons
  noise := rowNoise_rows (env := withSamples env rule M N Z) (smp := fun c => drawn M N (Z c)) rfl
  post := hE.post
  perm := hE.perm
  f := hE.f

theorem row_steps {env : Env ℝ (ι → ℝ)} {f : (ι → ℝ) → ℝ} {ν : ℕ → ℝ → ℕ → ℕ → (ι → ℝ) → ι → ℝ} {p : (ι → ℝ) → ι → ℝ} (hE : Standard env f ν p)
    {rule : (ι → ℝ) → (ι → ℝ) → ι → ℝ} {β : (ι → ℝ) → ι → ℝ} (hr : ∀ d z l, rule d z l = β d l * z l) {s : St ℝ (ι → ℝ)} (hw : WF s) (hb : 1 ≤ s.batchSize)
    (hfull : s.batched = false ∨ s.batchPartial = false) {m i : ℕ} (hi : i < s.active.length) (hmi : s.active.getD i 0 = m) (hiM : i < s.M) :
    batchList env s i ≠ [] ∧ (∀ n ∈ batchList env s i, n < s.N) ∧
      ∀ Z s', step (withSamples env rule s.M s.N Z) (cboInner (withSamples env rule s.M s.N Z)) s = .ok s' →
        (∃ cm, s'.cons = some cm ∧ cm.get i 0 = rowCons f (s.alpha m) (batchList env s i) (s.x.get m)) ∧
        ∀ n < s.N, s'.x.get m n = rowNext f p β (s.alpha m) s.lamda s.dt s.sigma ⟨i, hiM⟩ (batchList env s i) (s.x.get m) (Z s.draws) n := by
  have hm : m ∈ s.active := by
    rw [← hmi]
    simp only [List.getD, List.getElem?_eq_getElem hi, Option.getD_some]
    exact List.getElem_mem hi
  have hix := preStep_idx env hE.perm hw
  refine ⟨?_, ?_, fun Z s' h => ?_⟩
  · intro h
    have : (batchList env s i).length = 0 := by rw [h]; rfl
    simp only [batchList, List.length_map, List.length_range] at this
    rw [hix.cCols] at this
    omega
  · intro n hn
    obtain ⟨j, hj, rfl⟩ := List.mem_map.1 hn
    rw [List.mem_range] at hj
    exact (hix.cIn i (by rw [hix.cRows]; exact hi) j hj).2
  · have hEz := withSamples_std hE rule s.M s.N Z
    have fr := step_frame (by rw [cboInner_eq]; exact consThen_frame (cboMove_ok _)) h
    obtain ⟨i', c, r⟩ := runStep hEz hw hb h m hm
    have hii : i' = i := getD_inj hw.nodup r.pos hi (r.act.trans hmi.symm)
    subst hii
    have hcI : s'.cIdx = (preStep env s).cIdx := fr.cIdx
    have hpI : s'.pIdx = (preStep env s).pIdx := fr.pIdx
    have hc : c = rowCons f (s.alpha m) (batchList env s i') (s.x.get m) := by
      rw [r.pairs]
      unfold batchPairs rowCons batchList
      rw [hcI, List.map_map, hix.cRun i' hi, hmi]
      rfl
    subst hc
    refine ⟨r.cons, fun n hn => ?_⟩
    have hsel : s'.pIdx.Sel m n := by
      rw [hpI, preStep_pSel hE.perm hw]
      refine ⟨hm, hn, fun h1 h2 => ?_⟩
      rcases hfull with h3 | h3
      · rw [h1] at h3; cases h3
      · rw [h2] at h3; cases h3
    have hpar : ∀ j, s'.pIdx.par i' j = j := by
      intro j
      rw [hpI]
      by_cases hbt : s.batched = true
      · rcases hfull with h3 | h3
        · rw [h3] at hbt; cases hbt
        · rw [(preStep_pIdx env s hw).2.1 hbt h3]
          rfl
      · exact ((preStep_pIdx env s hw).2.2 (by simpa using hbt)).2.2.2.2 i' j
    obtain ⟨j, hj1, hj2⟩ := r.moved n hn hsel
    rw [hpar] at hj1
    subst hj1
    rw [hj2, rowNext]
    congr 1
    funext l
    have hsub : ∀ u v : ι → ℝ, (u - v) = fun l => u l - v l := fun _ _ => rfl
    simp only [cboUpdate, hr, Pi.add_apply, Pi.smul_apply, Pi.sub_apply, smul_eq_mul, hsub]
    ring

theorem row_step {env : Env ℝ (ι → ℝ)} {f : (ι → ℝ) → ℝ} {ν : ℕ → ℝ → ℕ → ℕ → (ι → ℝ) → ι → ℝ} {p : (ι → ℝ) → ι → ℝ} (hE : Standard env f ν p)
    {rule : (ι → ℝ) → (ι → ℝ) → ι → ℝ} {β : (ι → ℝ) → ι → ℝ} (hr : ∀ d z l, rule d z l = β d l * z l) {s : St ℝ (ι → ℝ)} (hw : WF s) (hb : 1 ≤ s.batchSize)
    (hfull : s.batched = false ∨ s.batchPartial = false) {m i : ℕ} (hi : i < s.active.length) (hmi : s.active.getD i 0 = m) (hiM : i < s.M) :
    batchList env s i ≠ [] ∧ (∀ n ∈ batchList env s i, n < s.N) ∧
      ∀ z s', step (withSample env rule s.M s.N z) (cboInner (withSample env rule s.M s.N z)) s = .ok s' →
        (∃ cm, s'.cons = some cm ∧ cm.get i 0 = rowCons f (s.alpha m) (batchList env s i) (s.x.get m)) ∧
        ∀ n < s.N, s'.x.get m n = rowNext f p β (s.alpha m) s.lamda s.dt s.sigma ⟨i, hiM⟩ (batchList env s i) (s.x.get m) z n := by
  obtain ⟨h1, h2, h3⟩ := row_steps hE hr hw hb hfull hi hmi hiM
  exact ⟨h1, h2, fun z s' h => h3 (fun _ => z) s' h⟩

theorem rowCons_congr (f : (ι → ℝ) → ℝ) (α : ℝ) {J : List ℕ} {N : ℕ} (hJ : ∀ n ∈ J, n < N) {y y' : ℕ → ι → ℝ} (h : ∀ n < N, y n = y' n) : rowCons f α J y = rowCons f α J y' := by
  unfold rowCons
  congr 1
  exact List.map_congr_left fun n hn => by rw [h n (hJ n hn)]

theorem rowNext_congr (f : (ι → ℝ) → ℝ) (p : (ι → ℝ) → ι → ℝ) (β : (ι → ℝ) → ι → ℝ) (α lamda dt sigma : ℝ) {M N : ℕ} (i : Fin M) {J : List ℕ} (hJ : ∀ n ∈ J, n < N)
    {y y' : ℕ → ι → ℝ} (h : ∀ n < N, y n = y' n) (z : Fin M × Fin N × ι → ℝ) : ∀ n < N, rowNext f p β α lamda dt sigma i J y z n = rowNext f p β α lamda dt sigma i J y' z n := by
  intro n hn
  unfold rowNext
  rw [rowCons_congr f α hJ h, h n hn]

theorem ms_total_of {env : Env ℝ (ι → ℝ)} {f : (ι → ℝ) → ℝ} {ν : ℕ → ℝ → ℕ → ℕ → (ι → ℝ) → ι → ℝ} {p : (ι → ℝ) → ι → ℝ} (hE : Standard env f ν p)
    (rule : (ι → ℝ) → (ι → ℝ) → ι → ℝ) {m N' : ℕ} {lamda dt sigma : ℝ} {s : St ℝ (ι → ℝ)} (hs : MsOK m N' lamda dt sigma s) {M N : ℕ} (hM : s.M = M) (hN : s.N = N) (z : Fin M × Fin N × ι → ℝ) :
    ∃ s', step (withSample env rule M N z) (cboInner (withSample env rule M N z)) s = .ok s' ∧ MsOK m N' lamda dt sigma s' := by
  subst hM
  subst hN
  exact ms_total hE rule hs z

theorem row_step_of {env : Env ℝ (ι → ℝ)} {f : (ι → ℝ) → ℝ} {ν : ℕ → ℝ → ℕ → ℕ → (ι → ℝ) → ι → ℝ} {p : (ι → ℝ) → ι → ℝ} (hE : Standard env f ν p)
    {rule : (ι → ℝ) → (ι → ℝ) → ι → ℝ} {β : (ι → ℝ) → ι → ℝ} (hr : ∀ d z l, rule d z l = β d l * z l) {s : St ℝ (ι → ℝ)} {m N' : ℕ} {lamda dt sigma : ℝ} (hs : MsOK m N' lamda dt sigma s)
    {M N i : ℕ} (hM : s.M = M) (hN : s.N = N) (hi : i < s.active.length) (hmi : s.active.getD i 0 = m) (hiM : i < M) :
    batchList env s i ≠ [] ∧ (∀ n ∈ batchList env s i, n < N) ∧
      ∀ z s', step (withSample env rule M N z) (cboInner (withSample env rule M N z)) s = .ok s' →
        (∃ cm, s'.cons = some cm ∧ cm.get i 0 = rowCons f (s.alpha m) (batchList env s i) (s.x.get m)) ∧
        ∀ n < N, s'.x.get m n = rowNext f p β (s.alpha m) lamda dt sigma ⟨i, hiM⟩ (batchList env s i) (s.x.get m) z n := by
  subst hM
  subst hN
  obtain ⟨h1, h2, h3⟩ := row_step hE hr hs.wf hs.bs hs.full hi hmi hiM
  refine ⟨h1, h2, fun z s' h => ?_⟩
  have h4 := h3 z s' h
  rw [hs.lamda, hs.dt, hs.sigma] at h4
  exact h4

/-- What holds along a path: nothing raises, the batches do not depend on the random numbers, and the positions of run `m` follow the recursion. -/
theorem path_rows_of {env : Env ℝ (ι → ℝ)} {f : (ι → ℝ) → ℝ} {ν : ℕ → ℝ → ℕ → ℕ → (ι → ℝ) → ι → ℝ} {p : (ι → ℝ) → ι → ℝ} (hE : Standard env f ν p)
    {rule : (ι → ℝ) → (ι → ℝ) → ι → ℝ} {β : (ι → ℝ) → ι → ℝ} (hr : ∀ d z l, rule d z l = β d l * z l) {m : ℕ} {s : St ℝ (ι → ℝ)} (hs : MsOK m s.N s.lamda s.dt s.sigma s) :
    ∃ (i : Fin s.M) (J : ℕ → List ℕ), s.active.getD i 0 = m ∧ (∀ k, J k ≠ []) ∧ (∀ k, ∀ n ∈ J k, n < s.N) ∧ (s.batched = false → ∀ k, J k = List.range s.N) ∧
      ∀ Z : ℕ → Fin s.M × Fin s.N × ι → ℝ, ∃ σ : ℕ → St ℝ (ι → ℝ), (∀ k, path env rule s.M s.N Z s k = .ok (σ k)) ∧
        (∀ k, ∀ n < s.N, (σ k).x.get m n = recur (fun k => rowNext f p β (s.alpha m) s.lamda s.dt s.sigma i (J k)) (s.x.get m) Z k n) ∧
        (∀ k, ∃ cm, (σ (k + 1)).cons = some cm ∧ cm.get i 0 = rowCons f (s.alpha m) (J k) (recur (fun k => rowNext f p β (s.alpha m) s.lamda s.dt s.sigma i (J k)) (s.x.get m) Z k)) ∧
        (∀ k, step (withSample env rule s.M s.N (Z k)) (cboInner (withSample env rule s.M s.N (Z k))) (σ k) = .ok (σ (k + 1))) ∧ ∀ k, ∀ n ∈ J k, (σ (k + 1)).cIdx.Sel m n := by
  obtain ⟨i, hi, hmi⟩ := mem_getD hs.mem
  have hiM : i < s.M := by
    have := hs.wf.act.length_le
    rw [List.length_range] at this
    omega
  have hpath : ∀ Z : ℕ → Fin s.M × Fin s.N × ι → ℝ, ∀ k, ∃ q, path env rule s.M s.N Z s k = .ok q ∧ MsOK m s.N s.lamda s.dt s.sigma q ∧ q.M = s.M ∧ q.active = s.active ∧ q.alpha = s.alpha ∧ q.batched = s.batched := by
    intro Z k
    induction k with
    | zero => exact ⟨s, rfl, hs, rfl, rfl, rfl, rfl⟩
    | succ k ih =>
      obtain ⟨q, h1, h2, h3, h4, h5, h8⟩ := ih
      obtain ⟨q', h6, h7⟩ := ms_total_of hE rule h2 h3 h2.N (Z k)
      have fr := step_frame (by rw [cboInner_eq]; exact consThen_frame (cboMove_ok _)) h6
      exact ⟨q', by simp only [path, h1]; exact h6, h7, fr.M.trans h3, fr.active.trans h4, fr.alpha.trans h5, fr.batched.trans h8⟩
  choose σ hσ hok hM hA hα hbt using hpath
  have hstep : ∀ Z k, step (withSample env rule s.M s.N (Z k)) (cboInner (withSample env rule s.M s.N (Z k))) (σ Z k) = .ok (σ Z (k + 1)) := by
    intro Z k
    have h := hσ Z (k + 1)
    simp only [path, hσ Z k] at h
    exact h
  have h0 : ∀ Z, σ Z 0 = s := by
    intro Z
    have h := hσ Z 0
    simp only [path] at h
    injection h with h
    exact h.symm
  have hsame : ∀ Z Z' k, SameBatch (σ Z k) (σ Z' k) := by
    intro Z Z' k
    induction k with
    | zero => rw [h0, h0]; exact ⟨rfl, rfl, rfl, rfl, rfl, rfl, rfl, rfl, rfl⟩
    | succ k ih =>
      have f1 := step_frame (by rw [cboInner_eq]; exact consThen_frame (cboMove_ok _)) (hstep Z k)
      have f2 := step_frame (by rw [cboInner_eq]; exact consThen_frame (cboMove_ok _)) (hstep Z' k)
      obtain ⟨b1, b2, b3⟩ := ih.pre (env := env)
      constructor
      · rw [f1.M, f2.M]; exact ih.M
      · rw [f1.N, f2.N]; exact ih.N
      · rw [f1.active, f2.active]; exact ih.active
      · rw [f1.batchSize, f2.batchSize]; exact ih.batchSize
      · rw [f1.batched, f2.batched]; exact ih.batched
      · rw [f1.batchPartial, f2.batchPartial]; exact ih.batchPartial
      · rw [f1.batchConcat, f2.batchConcat]; exact ih.batchConcat
      · rw [f1.indices, f2.indices]; exact b2
      · rw [f1.perms, f2.perms]; exact b3
  have hrow := fun Z k => row_step_of hE hr (hok Z k) (hM Z k) (hok Z k).N (by rw [hA]; exact hi) (by rw [hA]; exact hmi) hiM
  have hJ : ∀ Z k, batchList env (σ Z k) i = batchList env (σ 0 k) i := by
    intro Z k
    unfold batchList
    rw [((hsame 0 Z k).pre (env := env)).1]
  refine ⟨⟨i, hiM⟩, fun k => batchList env (σ 0 k) i, hmi, fun k => (hrow 0 k).1, fun k => (hrow 0 k).2.1, fun hnb k => ?_, fun Z => ⟨σ Z, hσ Z, ?_⟩⟩
  · obtain ⟨e1, -, e3, -, e5⟩ := (preStep_pIdx env (σ 0 k) (hok 0 k).wf).2.2 ((hbt 0 k).trans hnb)
    show (List.range (preStep env (σ 0 k)).cIdx.cols).map ((preStep env (σ 0 k)).cIdx.par i) = List.range s.N
    rw [← e1, e3, (hok 0 k).N]
    conv_rhs => rw [← List.map_id (List.range s.N)]
    exact List.map_congr_left fun j _ => e5 i j
  have hx : ∀ k, ∀ n < s.N, (σ Z k).x.get m n = recur (fun k => rowNext f p β (s.alpha m) s.lamda s.dt s.sigma ⟨i, hiM⟩ (batchList env (σ 0 k) i)) (s.x.get m) Z k n := by
    intro k
    induction k with
    | zero => intro n _; rw [h0]; rfl
    | succ k ih =>
      intro n hn
      rw [((hrow Z k).2.2 (Z k) _ (hstep Z k)).2 n hn, hα, hJ]
      exact rowNext_congr f p β _ _ _ _ _ (hrow 0 k).2.1 ih (Z k) n hn
  refine ⟨hx, fun k => ?_, hstep Z, fun k n hn => ?_⟩
  · obtain ⟨cm, e1, e2⟩ := ((hrow Z k).2.2 (Z k) _ (hstep Z k)).1
    refine ⟨cm, e1, ?_⟩
    rw [e2, hα, hJ]
    exact rowCons_congr f _ (hrow 0 k).2.1 (hx k)
  · have hn : n ∈ batchList env (σ 0 k) i := hn
    rw [← hJ Z k] at hn
    obtain ⟨j, hj, rfl⟩ := List.mem_map.1 hn
    have hix := preStep_idx env hE.perm (hok Z k).wf
    have hcI : (σ Z (k + 1)).cIdx = (preStep env (σ Z k)).cIdx := (step_frame (by rw [cboInner_eq]; exact consThen_frame (cboMove_ok _)) (hstep Z k)).cIdx
    rw [hcI]
    exact ⟨i, by rw [hix.cRows, hA]; exact hi, j, List.mem_range.1 hj, by rw [hix.cRun i (by rw [hA]; exact hi), hA, hmi], rfl⟩

theorem path_rows {env : Env ℝ (ι → ℝ)} {f : (ι → ℝ) → ℝ} {ν : ℕ → ℝ → ℕ → ℕ → (ι → ℝ) → ι → ℝ} {p : (ι → ℝ) → ι → ℝ} (hE : Standard env f ν p)
    {rule : (ι → ℝ) → (ι → ℝ) → ι → ℝ} {β : (ι → ℝ) → ι → ℝ} {κ : ℝ} (hr : RuleCoeff rule β κ) {m : ℕ} {s : St ℝ (ι → ℝ)} (hs : MsOK m s.N s.lamda s.dt s.sigma s) :
    ∃ (i : Fin s.M) (J : ℕ → List ℕ), s.active.getD i 0 = m ∧ (∀ k, J k ≠ []) ∧ (∀ k, ∀ n ∈ J k, n < s.N) ∧ (s.batched = false → ∀ k, J k = List.range s.N) ∧
      ∀ Z : ℕ → Fin s.M × Fin s.N × ι → ℝ, ∃ σ : ℕ → St ℝ (ι → ℝ), (∀ k, path env rule s.M s.N Z s k = .ok (σ k)) ∧
        (∀ k, ∀ n < s.N, (σ k).x.get m n = recur (fun k => rowNext f p β (s.alpha m) s.lamda s.dt s.sigma i (J k)) (s.x.get m) Z k n) ∧
        ∀ k, ∃ cm, (σ (k + 1)).cons = some cm ∧ cm.get i 0 = rowCons f (s.alpha m) (J k) (recur (fun k => rowNext f p β (s.alpha m) s.lamda s.dt s.sigma i (J k)) (s.x.get m) Z k) := by
  obtain ⟨i, J, h1, h2, h3, h4, h5⟩ := path_rows_of hE hr.rule hs
  refine ⟨i, J, h1, h2, h3, h4, fun Z => ?_⟩
  obtain ⟨σ, g1, g2, g3, -⟩ := h5 Z
  exact ⟨σ, g1, g2, g3⟩

end

end Verif
