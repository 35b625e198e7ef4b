import Verif.Proofs.Affine
import Verif.Proofs.AlmostSure
import Mathlib.Topology.ContinuousMap.Weierstrass
import Mathlib.MeasureTheory.Constructions.Projective

/-! Helper lemmas for C112, law of the whole sequence of steps. -/

set_option linter.unusedSectionVars false

namespace Verif

open Matrix MeasureTheory ProbabilityTheory Filter Topology
open scoped ENNReal

section
variable {Ω Ω' A B : Type} [MeasurableSpace Ω] [MeasurableSpace Ω'] [MeasurableSpace A] [MeasurableSpace B] {P : Measure Ω} [IsProbabilityMeasure P] {P' : Measure Ω'} [IsProbabilityMeasure P']

/-- The law of a recursion after a step. -/
theorem recur_next {Φ : ℕ → A → B → A} (hΦ : ∀ k, Measurable fun q : A × B => Φ k q.1 q.2) (a : A) {Z : ℕ → Ω → B} (hZ : ∀ k, Measurable (Z k)) (hi : iIndepFun Z P)
    {μ : Measure B} (hμ : ∀ k, P.map (Z k) = μ) (k : ℕ) {F : A → ℝ≥0∞} (hF : Measurable F) :
    ∫⁻ ω, F (recur Φ a (fun j => Z j ω) (k + 1)) ∂P = ∫⁻ ω, ∫⁻ z, F (Φ k (recur Φ a (fun j => Z j ω) k) z) ∂μ ∂P := by
  have := indep_lintegral (X := fun ω => recur Φ a (fun j => Z j ω) k) ((recur_measurable hΦ a k).comp (measurable_pi_lambda _ hZ)) (hZ k) (recur_indep hΦ a hZ hi k)
    (F := fun q => F (Φ k q.1 q.2)) (hF.comp (hΦ k))
  rw [hμ k] at this
  exact this

/-- If one step commutes with `G` in law, the recursion does. -/
theorem recur_law {Φ Φ' : ℕ → A → B → A} (hΦ : ∀ k, Measurable fun q : A × B => Φ k q.1 q.2) (hΦ' : ∀ k, Measurable fun q : A × B => Φ' k q.1 q.2) {G : A → A} (hG : Measurable G) (a : A)
    {Z : ℕ → Ω → B} (hZ : ∀ k, Measurable (Z k)) (hi : iIndepFun Z P) {Z' : ℕ → Ω' → B} (hZ' : ∀ k, Measurable (Z' k)) (hi' : iIndepFun Z' P')
    {μ : Measure B} [SFinite μ] (hμ : ∀ k, P.map (Z k) = μ) (hμ' : ∀ k, P'.map (Z' k) = μ)
    (hstep : ∀ k y, ∀ S : Set A, MeasurableSet S → μ {z | G (Φ k y z) ∈ S} = μ {z | Φ' k (G y) z ∈ S}) (k : ℕ) :
    P.map (fun ω => G (recur Φ a (fun j => Z j ω) k)) = P'.map fun ω => recur Φ' (G a) (fun j => Z' j ω) k := by
  have m1 : ∀ k, Measurable fun ω => recur Φ a (fun j => Z j ω) k := fun k => (recur_measurable hΦ a k).comp (measurable_pi_lambda _ hZ)
  have m2 : ∀ k, Measurable fun ω => recur Φ' (G a) (fun j => Z' j ω) k := fun k => (recur_measurable hΦ' (G a) k).comp (measurable_pi_lambda _ hZ')
  induction k with
  | zero =>
    simp only [recur, Measure.map_const, measure_univ]
  | succ k ih =>
    ext S hS
    have hind : ∀ (ν : Measure B) (T : B → A), Measurable T → ∫⁻ z, S.indicator (1 : A → ℝ≥0∞) (T z) ∂ν = ν {z | T z ∈ S} := by
      intro ν T hT
      have : (fun z => S.indicator (1 : A → ℝ≥0∞) (T z)) = (T ⁻¹' S).indicator 1 := by funext z; rfl
      rw [this, lintegral_indicator_one (hT hS)]
      rfl
    have hF : Measurable (S.indicator (1 : A → ℝ≥0∞)) := measurable_one.indicator hS
    have e1 := recur_next hΦ a hZ hi hμ k (hF.comp hG)
    have e2 := recur_next hΦ' (G a) hZ' hi' hμ' k hF
    have l1 : (P.map fun ω => G (recur Φ a (fun j => Z j ω) (k + 1))) S = ∫⁻ ω, S.indicator (1 : A → ℝ≥0∞) (G (recur Φ a (fun j => Z j ω) (k + 1))) ∂P := by
      have mG : Measurable fun ω => G (recur Φ a (fun j => Z j ω) (k + 1)) := hG.comp (m1 _)
      rw [← lintegral_indicator_one hS, lintegral_map hF mG]
    have l2 : (P'.map fun ω => recur Φ' (G a) (fun j => Z' j ω) (k + 1)) S = ∫⁻ ω, S.indicator (1 : A → ℝ≥0∞) (recur Φ' (G a) (fun j => Z' j ω) (k + 1)) ∂P' := by
      rw [← lintegral_indicator_one hS, lintegral_map hF (m2 _)]
    have hs : ∀ k, Measurable fun y : A => ∫⁻ z, S.indicator (1 : A → ℝ≥0∞) (Φ' k y z) ∂μ := fun k => (hF.comp (hΦ' k)).lintegral_prod_right'
    rw [l1, l2, e2]
    refine e1.trans ?_
    have e3 : ∀ y, ∫⁻ z, (S.indicator (1 : A → ℝ≥0∞) ∘ G) (Φ k y z) ∂μ = ∫⁻ z, S.indicator (1 : A → ℝ≥0∞) (Φ' k (G y) z) ∂μ := by
      intro y
      have := hstep k y S hS
      rw [← hind μ (fun z => G (Φ k y z)) (hG.comp ((hΦ k).comp measurable_prodMk_left)), ← hind μ (fun z => Φ' k (G y) z) ((hΦ' k).comp measurable_prodMk_left)] at this
      exact this
    simp only [e3]
    rw [← lintegral_map (f := fun y => ∫⁻ z, S.indicator (1 : A → ℝ≥0∞) (Φ' k y z) ∂μ) (g := fun ω => G (recur Φ a (fun j => Z j ω) k)) (hs k) (hG.comp (m1 k)), ih,
      lintegral_map (hs k) (m2 k)]

/-- The history of a recursion: entry `j` is kept from step `j` on. -/
def histNext (Ψ : A → B → A) (k : ℕ) (H : ℕ → A) (z : B) : ℕ → A := fun j => if j ≤ k then H j else Ψ (H k) z

theorem histNext_measurable {Ψ : A → B → A} (hΨ : Measurable fun q : A × B => Ψ q.1 q.2) (k : ℕ) : Measurable fun q : (ℕ → A) × B => histNext Ψ k q.1 q.2 := by
  refine measurable_pi_lambda _ fun j => ?_
  unfold histNext
  split
  · exact (measurable_pi_apply j).comp measurable_fst
  · have h : Measurable fun q : (ℕ → A) × B => (q.1 k, q.2) := ((measurable_pi_apply k).comp measurable_fst).prodMk measurable_snd
    exact hΨ.comp h

theorem hist_recur (Ψ : A → B → A) (a : A) (z : ℕ → B) (k j : ℕ) : recur (histNext Ψ) (fun _ => a) z k j = recur (fun _ => Ψ) a z (min j k) := by
  induction k generalizing j with
  | zero => simp [recur]
  | succ k ih =>
    simp only [recur, histNext]
    split_ifs with h
    · rw [ih, Nat.min_eq_left h, Nat.min_eq_left (by omega)]
    · rw [ih, Nat.min_self, Nat.min_eq_right (by omega)]
      rfl

/-- **Law of a trajectory.** If one step commutes with `G` in law, the trajectories do. -/
theorem traj_law {Ψ Ψ' : A → B → A} (hΨ : Measurable fun q : A × B => Ψ q.1 q.2) (hΨ' : Measurable fun q : A × B => Ψ' q.1 q.2) {G : A → A} (hG : Measurable G) (a : A)
    {Z : ℕ → Ω → B} (hZ : ∀ k, Measurable (Z k)) (hi : iIndepFun Z P) {Z' : ℕ → Ω' → B} (hZ' : ∀ k, Measurable (Z' k)) (hi' : iIndepFun Z' P')
    {μ : Measure B} [SFinite μ] (hμ : ∀ k, P.map (Z k) = μ) (hμ' : ∀ k, P'.map (Z' k) = μ)
    (hstep : ∀ y, ∀ S : Set A, MeasurableSet S → μ {z | G (Ψ y z) ∈ S} = μ {z | Ψ' (G y) z ∈ S}) :
    P.map (fun ω k => G (recur (fun _ => Ψ) a (fun j => Z j ω) k)) = P'.map fun ω k => recur (fun _ => Ψ') (G a) (fun j => Z' j ω) k := by
  have m1 : Measurable fun ω k => G (recur (fun _ => Ψ) a (fun j => Z j ω) k) :=
    measurable_pi_lambda _ fun k => hG.comp ((recur_measurable (fun _ => hΨ) a k).comp (measurable_pi_lambda _ hZ))
  have m2 : Measurable fun ω k => recur (fun _ => Ψ') (G a) (fun j => Z' j ω) k :=
    measurable_pi_lambda _ fun k => (recur_measurable (fun _ => hΨ') (G a) k).comp (measurable_pi_lambda _ hZ')
  have hGG : Measurable fun (H : ℕ → A) j => G (H j) := measurable_pi_lambda _ fun j => hG.comp (measurable_pi_apply j)
  have key : ∀ K, P.map (fun ω j => G (recur (fun _ => Ψ) a (fun j => Z j ω) (min j K))) = P'.map fun ω j => recur (fun _ => Ψ') (G a) (fun j => Z' j ω) (min j K) := by
    intro K
    have := recur_law (P := P) (P' := P') (fun k => histNext_measurable hΨ k) (fun k => histNext_measurable hΨ' k) hGG (fun _ => a) hZ hi hZ' hi' hμ hμ' (by
      intro k H S hS
      let L : A → ℕ → A := fun v j => if j ≤ k then G (H j) else v
      have hL : Measurable L := by
        refine measurable_pi_lambda _ fun j => ?_
        by_cases h : j ≤ k
        · simp only [L, if_pos h]; exact measurable_const
        · simp only [L, if_neg h]; exact measurable_id
      have e := hstep (H k) (L ⁻¹' S) (hL hS)
      have e1 : ∀ z, (fun j => G (histNext Ψ k H z j)) = L (G (Ψ (H k) z)) := by
        intro z
        funext j
        simp only [histNext, L]
        split_ifs <;> rfl
      simp only [e1]
      exact e) K
    have e2 : (fun ω => recur (histNext Ψ') (fun j => G ((fun _ => a) j)) (fun j => Z' j ω) K) = fun ω j => recur (fun _ => Ψ') (G a) (fun j => Z' j ω) (min j K) := by
      funext ω j
      exact hist_recur Ψ' (G a) _ K j
    rw [e2] at this
    simp only [hist_recur] at this
    exact this
  have := Measure.isProbabilityMeasure_map (μ := P') m2.aemeasurable
  have := Measure.isProbabilityMeasure_map (μ := P) m1.aemeasurable
  have hres : ∀ I : Finset ℕ, (P.map fun ω k => G (recur (fun _ => Ψ) a (fun j => Z j ω) k)).map I.restrict = (P'.map fun ω k => recur (fun _ => Ψ') (G a) (fun j => Z' j ω) k).map I.restrict := by
    intro I
    have hI : Measurable (I.restrict : (ℕ → A) → _) := measurable_pi_lambda _ fun i => measurable_pi_apply _
    have mK : Measurable fun (u : ℕ → A) j => u (min j (I.sup id)) := measurable_pi_lambda _ fun j => measurable_pi_apply _
    have e : (I.restrict : (ℕ → A) → _) = I.restrict ∘ fun (u : ℕ → A) j => u (min j (I.sup id)) := by
      funext u i
      have : (i : ℕ) ≤ I.sup id := Finset.le_sup (f := id) i.2
      simp [Finset.restrict, Nat.min_eq_left this]
    rw [e, ← Measure.map_map hI mK, ← Measure.map_map hI mK, Measure.map_map mK m1, Measure.map_map mK m2]
    congr 1
    exact key (I.sup id)
  exact IsProjectiveLimit.unique (P := fun I : Finset ℕ => (P'.map fun ω k => recur (fun _ => Ψ') (G a) (fun j => Z' j ω) k).map I.restrict) hres fun _ => rfl

end

section
variable {ι : Type} [Fintype ι] [DecidableEq ι]

/-- Polynomials with limit `√(max x 0)` at every `x`. -/
theorem sqrt_poly : ∃ q : ℕ → Polynomial ℝ, ∀ x : ℝ, Tendsto (fun n => (q n).eval x) atTop (𝓝 (Real.sqrt (max x 0))) := by
  have hc : Continuous fun x : ℝ => Real.sqrt (max x 0) := (continuous_id.max continuous_const).sqrt
  have h : ∀ n : ℕ, ∃ q : Polynomial ℝ, ∀ x ∈ Set.Icc (-(n : ℝ)) n, |q.eval x - Real.sqrt (max x 0)| < 1 / ((n : ℝ) + 1) := fun n =>
    exists_polynomial_near_of_continuousOn _ _ _ hc.continuousOn _ (by positivity)
  choose q hq using h
  refine ⟨q, fun x => ?_⟩
  rw [tendsto_iff_dist_tendsto_zero]
  refine squeeze_zero' (Eventually.of_forall fun _ => dist_nonneg) ?_ tendsto_one_div_add_atTop_nhds_zero_nat
  obtain ⟨n₀, hn₀⟩ := exists_nat_ge |x|
  filter_upwards [eventually_ge_atTop n₀] with n hn
  have : |x| ≤ n := hn₀.trans (by exact_mod_cast hn)
  rw [Real.dist_eq]
  exact (hq n x ⟨by linarith [neg_abs_le x], (le_abs_self x).trans this⟩).le

/-- A polynomial of a symmetric matrix in its eigenbasis. -/
theorem aeval_eig {Q : Matrix ι ι ℝ} (hQ : Qᵀ * Q = 1) (B : ι → ℝ) (q : Polynomial ℝ) :
    Polynomial.aeval (Q * diagonal B * Qᵀ) q = Q * (diagonal fun i => q.eval (B i)) * Qᵀ := by
  have hp : ∀ n : ℕ, (Q * diagonal B * Qᵀ) ^ n = Q * (diagonal fun i => B i ^ n) * Qᵀ := by
    intro n
    induction n with
    | zero => simp only [pow_zero, diagonal_one, Matrix.mul_one]; exact (mul_eq_one_comm.1 hQ).symm
    | succ n ih =>
      rw [pow_succ, ih]
      calc Q * (diagonal fun i => B i ^ n) * Qᵀ * (Q * diagonal B * Qᵀ) = Q * (diagonal fun i => B i ^ n) * (Qᵀ * Q) * diagonal B * Qᵀ := by simp only [Matrix.mul_assoc]
        _ = Q * ((diagonal fun i => B i ^ n) * diagonal B) * Qᵀ := by rw [hQ, Matrix.mul_one]; simp only [Matrix.mul_assoc]
        _ = _ := by rw [diagonal_mul_diagonal]; simp only [pow_succ]
  induction q using Polynomial.induction_on' with
  | add p q h1 h2 =>
    rw [map_add, h1, h2, ← add_mul, ← mul_add, diagonal_add]
    simp only [Polynomial.eval_add]
  | monomial n a =>
    rw [Polynomial.aeval_monomial, hp, ← Algebra.smul_def]
    have : (diagonal fun i => Polynomial.eval (B i) (Polynomial.monomial n a)) = a • diagonal fun i => B i ^ n := by
      rw [← diagonal_smul]
      congr 1
      funext i
      simp
    rw [this, Matrix.mul_smul, Matrix.smul_mul]

/-- The square root of a symmetric matrix that depends measurably on something does so as well, whatever the eigenvalue solver does. -/
theorem matSqrt_measurable {X : Type} [MeasurableSpace X] {eigh : Matrix ι ι ℝ → (ι → ℝ) × Matrix ι ι ℝ} (he : EighOK eigh) {C : X → Matrix ι ι ℝ} (hC : ∀ i j, Measurable fun x => C x i j)
    (hs : ∀ x, (C x)ᵀ = C x) (i j : ι) : Measurable fun x => matSqrt eigh (C x) i j := by
  obtain ⟨q, hq⟩ := sqrt_poly
  have hpow : ∀ n : ℕ, ∀ i j, Measurable fun x => (C x ^ n) i j := by
    intro n
    induction n with
    | zero => intro i j; simp only [pow_zero]; exact measurable_const
    | succ n ih =>
      intro i j
      simp only [pow_succ, Matrix.mul_apply]
      exact Finset.measurable_sum _ fun l _ => (ih i l).mul (hC l j)
  have hpoly : ∀ (r : Polynomial ℝ), Measurable fun x => (Polynomial.aeval (C x) r) i j := by
    intro r
    simp only [Polynomial.aeval_eq_sum_range, Matrix.sum_apply, Matrix.smul_apply, smul_eq_mul]
    exact Finset.measurable_sum _ fun n _ => (hpow n i j).const_mul _
  refine measurable_of_tendsto_metrizable (fun n => hpoly (q n)) ?_
  rw [tendsto_pi_nhds]
  intro x
  obtain ⟨h1, h2⟩ := he (C x) (hs x)
  have e1 : ∀ n, (Polynomial.aeval (C x) (q n)) i j = ∑ l, (eigh (C x)).2 i l * (q n).eval ((eigh (C x)).1 l) * (eigh (C x)).2 j l := by
    intro n
    conv_lhs => rw [h2, aeval_eig h1]
    rw [Matrix.mul_apply]
    simp only [Matrix.mul_diagonal, transpose_apply]
  have e2 : matSqrt eigh (C x) i j = ∑ l, (eigh (C x)).2 i l * Real.sqrt (max ((eigh (C x)).1 l) 0) * (eigh (C x)).2 j l := by
    simp [matSqrt, Matrix.mul_apply, mul_assoc]
  simp only [e1, e2]
  exact tendsto_finsetSum _ fun l _ => ((hq _).const_mul _).mul_const _

/-- The ensemble after a step, as a function of the ensemble and the random vectors. -/
noncomputable def ensNext (f : (ι → ℝ) → ℝ) (p : (ι → ℝ) → ι → ℝ) (eigh : Matrix ι ι ℝ → (ι → ℝ) × Matrix ι ι ℝ) (sampling : Bool) (α : ℕ → ℝ) (lamda dt sigma : ℝ) (N : ℕ)
    (y : ℕ → ℕ → ι → ℝ) (z : ℕ × ℕ → ι → ℝ) : ℕ → ℕ → ι → ℝ := fun m n =>
  p (y m n - (lamda * dt) • (y m n - rowCons f (α m) (List.range N) (y m)) + sigma • ((Real.sqrt (2 * dt * (if sampling then 1 + α m else 1)) •
    matSqrt eigh (weightedCov (α m) N (fun n => f (y m n)) (y m) (rowCons f (α m) (List.range N) (y m)))) *ᵥ z (m, n)))

theorem ensNext_measurable {f : (ι → ℝ) → ℝ} (hf : Measurable f) {p : (ι → ℝ) → ι → ℝ} (hp : Measurable p) {eigh : Matrix ι ι ℝ → (ι → ℝ) × Matrix ι ι ℝ} (he : EighOK eigh) (sampling : Bool) (α : ℕ → ℝ)
    (lamda dt sigma : ℝ) (N : ℕ) : Measurable fun q : (ℕ → ℕ → ι → ℝ) × (ℕ × ℕ → ι → ℝ) => ensNext f p eigh sampling α lamda dt sigma N q.1 q.2 := by
  refine measurable_pi_lambda _ fun m => measurable_pi_lambda _ fun n => ?_
  unfold ensNext
  refine hp.comp (measurable_pi_lambda _ fun l => ?_)
  have hm : Measurable fun q : (ℕ → ℕ → ι → ℝ) × (ℕ × ℕ → ι → ℝ) => q.1 m := (measurable_pi_apply m).comp measurable_fst
  have hmn : ∀ n, Measurable fun q : (ℕ → ℕ → ι → ℝ) × (ℕ × ℕ → ι → ℝ) => q.1 m n := fun n => (measurable_pi_apply n).comp hm
  have hc : Measurable fun q : (ℕ → ℕ → ι → ℝ) × (ℕ × ℕ → ι → ℝ) => rowCons f (α m) (List.range N) (q.1 m) := (rowCons_measurable hf _ _).comp hm
  have hw : ∀ n, Measurable fun q : (ℕ → ℕ → ι → ℝ) × (ℕ × ℕ → ι → ℝ) => Real.exp (-(α m * f (q.1 m n))) := fun n => Real.measurable_exp.comp ((hf.comp (hmn n)).const_mul _).neg
  have hC : ∀ i j, Measurable fun q : (ℕ → ℕ → ι → ℝ) × (ℕ × ℕ → ι → ℝ) => weightedCov (α m) N (fun n => f (q.1 m n)) (q.1 m) (rowCons f (α m) (List.range N) (q.1 m)) i j := by
    intro i j
    simp only [weightedCov, Matrix.of_apply]
    exact Finset.measurable_sum _ fun n _ => ((hw n).div (Finset.measurable_sum _ fun k _ => hw k)).mul
      ((((measurable_pi_apply i).comp (hmn n)).sub ((measurable_pi_apply i).comp hc)).mul (((measurable_pi_apply j).comp (hmn n)).sub ((measurable_pi_apply j).comp hc)))
  have hS := fun i j => matSqrt_measurable he hC (fun q => (weightedCov_psd _ _ _ _ _).1) i j
  have hz : ∀ l, Measurable fun q : (ℕ → ℕ → ι → ℝ) × (ℕ × ℕ → ι → ℝ) => q.2 (m, n) l := fun l => (measurable_pi_apply l).comp ((measurable_pi_apply (m, n)).comp measurable_snd)
  simp only [Pi.add_apply, Pi.sub_apply, Pi.smul_apply, smul_eq_mul, Matrix.mulVec, dotProduct, Matrix.smul_apply]
  refine Measurable.add (Measurable.sub ((measurable_pi_apply l).comp (hmn n)) ((((measurable_pi_apply l).comp (hmn n)).sub ((measurable_pi_apply l).comp hc)).const_mul _)) ?_
  exact (Finset.measurable_sum _ fun k _ => ((hS l k).const_mul _).mul (hz k)).const_mul _

theorem ensNext_congr (f : (ι → ℝ) → ℝ) (p : (ι → ℝ) → ι → ℝ) (eigh : Matrix ι ι ℝ → (ι → ℝ) × Matrix ι ι ℝ) (sampling : Bool) (α : ℕ → ℝ) (lamda dt sigma : ℝ) {N : ℕ} {y y' : ℕ → ℕ → ι → ℝ}
    (z : ℕ × ℕ → ι → ℝ) {m n : ℕ} (hn : n < N) (h : ∀ n < N, y m n = y' m n) : ensNext f p eigh sampling α lamda dt sigma N y z m n = ensNext f p eigh sampling α lamda dt sigma N y' z m n := by
  have e1 : rowCons f (α m) (List.range N) (y m) = rowCons f (α m) (List.range N) (y' m) := rowCons_congr f (α m) (fun n hn => List.mem_range.1 hn) h
  have e2 : ∀ c, weightedCov (α m) N (fun n => f (y m n)) (y m) c = weightedCov (α m) N (fun n => f (y' m n)) (y' m) c := by
    intro c
    ext i j
    simp only [weightedCov, Matrix.of_apply]
    have h1 : ∀ n ∈ Finset.range N, Real.exp (-(α m * f (y m n))) = Real.exp (-(α m * f (y' m n))) := fun n hn => by rw [h n (Finset.mem_range.1 hn)]
    rw [Finset.sum_congr rfl h1]
    exact Finset.sum_congr rfl fun n hn => by rw [h1 n hn, h n (Finset.mem_range.1 hn)]
  unfold ensNext
  rw [h n hn, e1, e2]

instance : IsProbabilityMeasure (stepLaw ι) := by unfold stepLaw; infer_instance

theorem stepLaw_rots {Q : ℕ × ℕ → Matrix ι ι ℝ} (hQ : ∀ q, (Q q)ᵀ * Q q = 1) {S : Set (ℕ × ℕ → ι → ℝ)} (hS : MeasurableSet S) :
    stepLaw ι {z | (fun q => Q q *ᵥ z q) ∈ S} = stepLaw ι S := by
  have hm : ∀ q, Measurable fun v : ι → ℝ => Q q *ᵥ v := fun q => (Continuous.matrix_mulVec continuous_const continuous_id).measurable
  have h : MeasurePreserving (fun (z : ℕ × ℕ → ι → ℝ) q => Q q *ᵥ z q) (stepLaw ι) (stepLaw ι) := by
    refine ⟨measurable_pi_lambda _ fun q => (hm q).comp (measurable_pi_apply q), ?_⟩
    have := Measure.infinitePi_map_pi (μ := fun _ : ℕ × ℕ => Measure.pi fun _ : ι => gaussianReal 0 1) (f := fun q v => Q q *ᵥ v) hm
    simp only [normal_rot (hQ _)] at this
    exact this
  exact h.measure_preimage hS.nullMeasurableSet

theorem rowCons_consDefault (f : (ι → ℝ) → ℝ) (α : ℝ) (N : ℕ) (y : ℕ → ι → ℝ) :
    consDefault ((List.range N).map fun n => (α, Flt.fin (f (y n)), y n)) = rowCons f α (List.range N) y := by
  have := consDefault_fin α ((List.range N).map fun n => (f (y n), y n))
  rw [finSample, List.map_map] at this
  exact this

variable {f f' : (ι → ℝ) → ℝ} {p p' : (ι → ℝ) → ι → ℝ} {A : Matrix ι ι ℝ} {b : ι → ℝ} {eigh eigh' : Matrix ι ι ℝ → (ι → ℝ) × Matrix ι ι ℝ}

/-- One step of the image, with rotated random vectors. -/
theorem ensNext_affine (hff : ∀ v, f' (affMap A b v) = f v) (hpp : ∀ v, p' (affMap A b v) = affMap A b (p v)) (sampling : Bool) (α : ℕ → ℝ) (lamda dt sigma : ℝ) {N : ℕ} (hN : 0 < N) (y : ℕ → ℕ → ι → ℝ)
    (U : ℕ → Matrix ι ι ℝ) (hU : ∀ m, A * matSqrt eigh (weightedCov (α m) N (fun n => f (y m n)) (y m) (rowCons f (α m) (List.range N) (y m))) =
      matSqrt eigh' (A * weightedCov (α m) N (fun n => f (y m n)) (y m) (rowCons f (α m) (List.range N) (y m)) * Aᵀ) * U m) (z : ℕ × ℕ → ι → ℝ) :
    ensNext f' p' eigh' sampling α lamda dt sigma N (fun m n => affMap A b (y m n)) (fun q => U q.1 *ᵥ z q) = fun m n => affMap A b (ensNext f p eigh sampling α lamda dt sigma N y z m n) := by
  funext m n
  have hc : rowCons f' (α m) (List.range N) (fun n => affMap A b (y m n)) = affMap A b (rowCons f (α m) (List.range N) (y m)) := by
    rw [← rowCons_consDefault, ← rowCons_consDefault, ← consDefault_aff A b _ (by simp; omega) (by
      intro q hq
      obtain ⟨n, -, rfl⟩ := List.mem_map.1 hq
      exact ⟨_, rfl⟩), List.map_map]
    congr 1
    refine List.map_congr_left fun n _ => ?_
    simp only [Function.comp_apply, hff]
  unfold ensNext
  rw [← hpp]
  congr 1
  simp only [hff]
  rw [hc, weightedCov_affine A b _ _ _ (y m) _ _ fun n _ => rfl, smul_mulVec, smul_mulVec, mulVec_mulVec, ← hU m, ← mulVec_mulVec]
  simp only [affMap, mulVec_add, mulVec_sub, mulVec_smul]
  rw [add_sub_add_right_eq_sub]
  abel

/-- The law of one step of the image. -/
theorem ensNext_law (he : EighOK eigh) (he' : EighOK eigh') (hf' : Measurable f') (hp' : Measurable p') (hff : ∀ v, f' (affMap A b v) = f v) (hpp : ∀ v, p' (affMap A b v) = affMap A b (p v)) (sampling : Bool) (α : ℕ → ℝ)
    (lamda dt sigma : ℝ) {N : ℕ} (hN : 0 < N) (y : ℕ → ℕ → ι → ℝ) (S : Set (ℕ → ℕ → ι → ℝ)) (hS : MeasurableSet S) :
    stepLaw ι {z | (fun m n => affMap A b (ensNext f p eigh sampling α lamda dt sigma N y z m n)) ∈ S} =
      stepLaw ι {z | ensNext f' p' eigh' sampling α lamda dt sigma N (fun m n => affMap A b (y m n)) z ∈ S} := by
  choose U U1 U2 using fun m => affRot_exists he he' A (weightedCov (α m) N (fun n => f (y m n)) (y m) (rowCons f (α m) (List.range N) (y m))) (weightedCov_psd _ _ _ _ _)
  have hm : Measurable fun z => ensNext f' p' eigh' sampling α lamda dt sigma N (fun m n => affMap A b (y m n)) z :=
    (ensNext_measurable hf' hp' he' sampling α lamda dt sigma N).comp measurable_prodMk_left
  refine Eq.trans ?_ (stepLaw_rots (Q := fun q => U q.1) (fun q => U1 _) (hm hS))
  congr 1
  ext z
  show _ ∈ S ↔ ensNext f' p' eigh' sampling α lamda dt sigma N (fun m n => affMap A b (y m n)) (fun q => U q.1 *ᵥ z q) ∈ S
  rw [ensNext_affine hff hpp sampling α lamda dt sigma hN y U U2 z]

/-- The positions along a sequence of steps follow the recursion. -/
theorem cov_recur {env : Env ℝ (ι → ℝ)} {sampling : Bool} {z : ℕ → ℕ × ℕ → ι → ℝ} (hE : CovCBO env f p eigh sampling fun k i j => z k (i, j)) {σ : ℕ → St ℝ (ι → ℝ)} (hw : WF (σ 0))
    (hact : (σ 0).active = List.range (σ 0).M) (hbat : (σ 0).batched = false) (hσ : ∀ k, step env (cboInner env) (σ k) = .ok (σ (k + 1))) (k : ℕ) :
    ∀ m < (σ 0).M, ∀ n < (σ 0).N, (σ k).x.get m n =
      recur (fun _ => ensNext f p eigh sampling (σ 0).alpha (σ 0).lamda (σ 0).dt (σ 0).sigma (σ 0).N) (σ 0).x.get (fun j => z ((σ 0).draws + j)) k m n := by
  have hpo := hE.post.ok
  have hi : InnerFrame (cboInner env) := by rw [cboInner_eq]; exact consThen_frame (cboMove_ok env)
  have key : (WF (σ k) ∧ (σ k).active = List.range (σ k).M ∧ (σ k).batched = false ∧ (σ k).M = (σ 0).M ∧ (σ k).draws = (σ 0).draws + k) ∧
      ((σ k).N = (σ 0).N ∧ (σ k).alpha = (σ 0).alpha ∧ (σ k).lamda = (σ 0).lamda ∧ (σ k).dt = (σ 0).dt ∧ (σ k).sigma = (σ 0).sigma) ∧
      ∀ m < (σ 0).M, ∀ n < (σ 0).N, (σ k).x.get m n =
        recur (fun _ => ensNext f p eigh sampling (σ 0).alpha (σ 0).lamda (σ 0).dt (σ 0).sigma (σ 0).N) (σ 0).x.get (fun j => z ((σ 0).draws + j)) k m n := by
    induction k with
    | zero => exact ⟨⟨hw, hact, hbat, rfl, rfl⟩, ⟨rfl, rfl, rfl, rfl, rfl⟩, fun _ _ _ _ => rfl⟩
    | succ k ih =>
      obtain ⟨⟨w, i1, i2, i3, i4⟩, ⟨j1, j2, j3, j4, j5⟩, ih⟩ := ih
      have fr := step_frame hi (hσ k)
      obtain ⟨c, d, n, xm, cs⟩ := cboStep_facts hE.corr (covNoise_shape hE.noise) hE.cons hE.perm w (hσ k)
      refine ⟨⟨step_wf (cboMove_ok env) hpo hE.perm w (by rw [← cboInner_eq]; exact hσ k), by rw [fr.active, fr.M, i1], by rw [fr.batched, i2], by rw [fr.M, i3], by rw [cs.draws, i4]; omega⟩,
        ⟨by rw [fr.N, j1], by rw [fr.alpha, j2], by rw [fr.lamda, j3], by rw [fr.dt, j4], by rw [fr.sigma, j5]⟩, fun m hm n hn => ?_⟩
      obtain ⟨-, kx⟩ := cov_full hE.corr hE.cons hE.obj hE.noise hE.post hE.perm w i1 i2 (hσ k)
      rw [kx m (by omega) n (by omega)]
      simp only [recur]
      rw [← ensNext_congr f p eigh sampling _ _ _ _ _ hn (fun n hn => ih m hm n hn)]
      simp only [ensNext, fullCov, fullCons, rowCons_consDefault, j1, j2, j3, j4, j5, i4]
  exact key.2.2

theorem ens_recur_congr (f : (ι → ℝ) → ℝ) (p : (ι → ℝ) → ι → ℝ) (eigh : Matrix ι ι ℝ → (ι → ℝ) × Matrix ι ι ℝ) (sampling : Bool) (α : ℕ → ℝ) (lamda dt sigma : ℝ) {M N : ℕ} {y y' : ℕ → ℕ → ι → ℝ}
    (h : ∀ m < M, ∀ n < N, y m n = y' m n) (z : ℕ → ℕ × ℕ → ι → ℝ) (k : ℕ) : ∀ m < M, ∀ n < N,
    recur (fun _ => ensNext f p eigh sampling α lamda dt sigma N) y z k m n = recur (fun _ => ensNext f p eigh sampling α lamda dt sigma N) y' z k m n := by
  induction k with
  | zero => exact h
  | succ k ih =>
    intro m hm n hn
    exact ensNext_congr f p eigh sampling α lamda dt sigma _ hn fun n hn => ih m hm n hn

end

end Verif
