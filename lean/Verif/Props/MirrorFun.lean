import Verif.Proofs.MirrorFun
import Mathlib.Analysis.SpecialFunctions.Log.Deriv
import Mathlib.Analysis.SpecialFunctions.Log.NegMulLog
import Mathlib.Analysis.Complex.ExponentialBounds

/-! Properties C68 (derivatives of the mirror maps) and C69 (Bregman distances). -/

namespace Verif

open Matrix Mirror

variable {ι : Type} [Fintype ι] [DecidableEq ι]

/-- **C68, L2.** `grad` is the gradient of the function; for `lamda = 1` `hessian` is the Hessian. Other `lamda`: `C68_l2_hessian_false`. -/
theorem C68_l2_partial (lamda : ℝ) (theta : ι → ℝ) : IsGrad (l2Call lamda) (l2Grad lamda theta) theta ∧ IsHessAt (l2Call 1) l2Hess theta := by
  have d1 : ∀ (lamda t : ℝ), HasDerivAt (fun t : ℝ => lamda * 0.5 * t ^ 2) (lamda * t) t := fun lamda t => by
    refine ((hasDerivAt_pow 2 t).const_mul (lamda * 0.5)).congr_deriv ?_
    simp
    ring
  constructor
  · refine (isGrad_sep (fun t => lamda * 0.5 * t ^ 2) (fun i => lamda * theta i) theta fun i => d1 lamda _).congr (fun y => ?_) fun i => rfl
    simp only [l2Call, Finset.mul_sum]
  · refine (isHessAt_sep (fun t => 1 * 0.5 * t ^ 2) (fun t => 1 * t) (fun _ => 1) theta (fun i => Filter.Eventually.of_forall fun t => d1 1 t) fun i => ?_).congr (fun y => ?_)
      fun i j => ?_
    · simpa using (hasDerivAt_id (theta i)).const_mul 1
    · simp only [l2Call, Finset.mul_sum]
    · simp [l2Hess]

/-- **C68 is false for the Hessian of L2** with `lamda ≠ 1`, at every point, in every dimension. -/
theorem C68_l2_hessian_false [Nonempty ι] (lamda : ℝ) (h : lamda ≠ 1) (theta : ι → ℝ) : ¬ IsHessAt (l2Call lamda) l2Hess theta := by
  intro hh
  have d1 : ∀ t : ℝ, HasDerivAt (fun t : ℝ => lamda * 0.5 * t ^ 2) (lamda * t) t := fun t => by
    refine ((hasDerivAt_pow 2 t).const_mul (lamda * 0.5)).congr_deriv ?_
    simp
    ring
  have h2 : IsHessAt (l2Call lamda) (fun i j => lamda * if i = j then 1 else 0) theta := by
    refine (isHessAt_sep (fun t => lamda * 0.5 * t ^ 2) (fun t => lamda * t) (fun _ => lamda) theta (fun i => Filter.Eventually.of_forall d1) fun i => ?_).congr (fun y => ?_)
      fun i j => rfl
    · simpa using (hasDerivAt_id (theta i)).const_mul lamda
    · simp only [l2Call, Finset.mul_sum]
  obtain ⟨i⟩ := ‹Nonempty ι›
  have := congrFun (congrFun (hh.unique h2) i) i
  simp [l2Hess] at this
  exact h this.symm

/-- **C68, logarithmic barrier.** In the open box `grad` is finite and is the gradient, `hessian` (diagonal) the Hessian of the function. -/
theorem C68_log_barrier (theta : ι → ℝ) (h : ∀ i, -1 < theta i ∧ theta i < 1) :
    (∃ g : ι → ℝ, (∀ i, logBarrierGrad (theta i) = .fin (g i)) ∧ IsGrad logBarrierCall g theta) ∧
    IsHessAt logBarrierCall (fun i j => logBarrierHessDiag (theta i) * if i = j then 1 else 0) theta := by
  refine ⟨⟨fun i => 1 / (1 - theta i) - 1 / (1 + theta i), fun i => logBarrierGrad_fin (h i).1 (h i).2, ?_⟩, ?_⟩
  · exact isGrad_sep _ _ theta fun i => logBarrier_deriv (h i).1 (h i).2
  · refine isHessAt_sep (fun t => Real.log (1 / (1 - t)) + Real.log (1 / (1 + t))) (fun t => 1 / (1 - t) - 1 / (1 + t)) logBarrierHessDiag theta (fun i => ?_) fun i => logBarrier_deriv2 (h i).1 (h i).2
    filter_upwards [open_box (h i).1 (h i).2] with u hu
    exact logBarrier_deriv hu.1 hu.2

/-- **C68, non-smooth barrier**, for one particle in the open box without zero coordinates (where the function has a gradient at all): `grad` is the gradient, `hessian` the Hessian. -/
theorem C68_nonsmooth_partial (theta : ι → ℝ) (h : ∀ i, |theta i| < 1) (h0 : ∀ i, theta i ≠ 0) :
    (∃ g : ι → ℝ, (∀ i, nonsmoothGrad (theta i) = .fin (g i)) ∧ IsGrad (fun x => nonsmoothCall 1 fun _ => x) g theta) ∧
    IsHessAt (fun x => nonsmoothCall 1 fun _ => x) (fun i j => nonsmoothHessDiag (theta i) * if i = j then 1 else 0) theta := by
  refine ⟨⟨fun i => npSign (theta i) / (1 - |theta i|) ^ 2, fun i => nonsmoothGrad_fin (h i), ?_⟩, ?_⟩
  · exact (isGrad_sep _ _ theta fun i => nonsmooth_deriv (h0 i) (h i)).congr (fun y => by simp [nonsmoothCall]) fun _ => rfl
  · refine (isHessAt_sep (fun t => |t| / (1 - |t|)) (fun t => npSign t / (1 - |t|) ^ 2) nonsmoothHessDiag theta (fun i => ?_) fun i => nonsmooth_deriv2 (h0 i) (h i)).congr
      (fun y => by simp [nonsmoothCall]) fun _ _ => rfl
    have e1 : ∀ᶠ u in nhds (theta i), u ≠ 0 := isOpen_ne.eventually_mem (h0 i)
    have e2 : ∀ᶠ u in nhds (theta i), |u| < 1 := continuous_abs.continuousAt.eventually (eventually_lt_nhds (h i))
    filter_upwards [e1, e2] with u h1 h2
    exact nonsmooth_deriv h1 h2

/-- **C68, elastic net**, at points without zero coordinates. -/
theorem C68_elastic (delta lamda : ℝ) (theta : ι → ℝ) (h0 : ∀ i, theta i ≠ 0) : IsGrad (elasticCall delta lamda) (elasticGrad delta lamda theta) theta := by
  refine (isGrad_sep (fun t => 1 / (2 * delta) * t ^ 2 + lamda * |t|) (fun i => 1 / delta * theta i + lamda * npSign (theta i)) theta
    fun i => elastic_deriv delta lamda (h0 i)).congr (fun y => ?_) fun i => rfl
  simp only [elasticCall, Finset.mul_sum, Finset.sum_add_distrib]

/-- **C68, weighted L2**, for a single vector: `grad` is the gradient and `hessian` the Hessian for every matrix. For arrays: `C69_weighted_false`. -/
theorem C68_weighted_partial (A : Matrix ι ι ℝ) (theta : ι → ℝ) : IsGrad (weightedCall A) (weightedGrad A theta) theta ∧ IsHessAt (weightedCall A) (weightedHess A) theta := by
  have hg : ∀ theta : ι → ℝ, IsGrad (weightedCall A) (weightedGrad A theta) theta := by
    intro theta
    have hx : ∀ i, IsGrad (fun y : ι → ℝ => y i) (Pi.single i 1) theta := fun i => isGrad_comp (fun t => t) 1 i theta (hasDerivAt_id _)
    have hi : ∀ i, IsGrad (fun y : ι → ℝ => ∑ j, A i j * y j) (A i) theta := fun i => isGrad_linear (A i) theta
    have := (IsGrad.sum Finset.univ fun i _ => (hx i).mul (hi i)).const_mul 0.5
    refine this.congr (fun y => rfl) fun k => ?_
    simp only [weightedGrad, Matrix.mulVec, dotProduct, Pi.smul_apply, Finset.sum_apply, Pi.add_apply, smul_eq_mul, Matrix.smul_apply, Matrix.add_apply, Matrix.transpose_apply]
    rw [Finset.sum_add_distrib, mul_add, Finset.mul_sum, Finset.mul_sum, ← Finset.sum_add_distrib]
    have e : ∀ i, (∑ j, A i j * theta j) * (Pi.single i (1 : ℝ) : ι → ℝ) k = if k = i then ∑ j, A k j * theta j else 0 := by
      intro i
      by_cases hki : k = i
      · subst hki; simp
      · simp [hki]
    simp only [e]
    have e2 : ∑ i, 0.5 * (if k = i then ∑ j, A k j * theta j else 0) = ∑ i, 0.5 * (A k i * theta i) := by
      rw [← Finset.mul_sum, Finset.sum_ite_eq, if_pos (Finset.mem_univ k), Finset.mul_sum]
    rw [Finset.sum_add_distrib, e2, ← Finset.sum_add_distrib]
    refine Finset.sum_congr rfl fun j _ => ?_
    ring
  refine ⟨hg theta, fun y => weightedGrad A y, Filter.Eventually.of_forall hg, fun i => ?_⟩
  refine (isGrad_linear (weightedHess A i) theta).congr (fun y => ?_) fun _ => rfl
  simp only [weightedGrad, Matrix.mulVec, dotProduct, weightedHess, Matrix.smul_apply, Matrix.add_apply, Matrix.transpose_apply, smul_eq_mul]
  refine Finset.sum_congr rfl fun j _ => ?_
  ring

/-- **C68 is false for Entropy**: because of the constant added in `grad` it is not the gradient of the function, at any positive point. -/
theorem C68_entropy_false [Nonempty ι] (x : ι → ℝ) (hx : ∀ i, 0 < x i) : ¬ IsGrad entropyCall (entropyGrad x) x := by
  intro h
  have d : ∀ t : ℝ, 0 < t → HasDerivAt (fun t : ℝ => t * Real.log (1 / t)) (Real.log (1 / t) - 1) t := by
    intro t ht
    have e : (fun t : ℝ => t * Real.log (1 / t)) = fun t => -(t * Real.log t) := by
      funext t; simp [Real.log_inv]
    rw [e]
    have := (Real.hasDerivAt_mul_log ht.ne').neg
    refine this.congr_deriv ?_
    rw [one_div, Real.log_inv]
    ring
  have h2 := isGrad_sep _ (fun i => Real.log (1 / x i) - 1) x fun i => d (x i) (hx i)
  have e := h.unique h2
  obtain ⟨i⟩ := ‹Nonempty ι›
  have := congrFun e i
  simp only [entropyGrad] at this
  have hlt : Real.log (1 / (x i + 1 / 2 ^ 23)) < Real.log (1 / x i) := by
    have h1 := hx i
    apply Real.log_lt_log (by positivity)
    apply one_div_lt_one_div_of_lt h1
    have : (0 : ℝ) < 1 / 2 ^ 23 := by positivity
    linarith
  linarith

/-- **C68 is false for the Hessians on ensembles**: the methods raise except on arrays with two axes, in particular on an ensemble of shape `(M, N, d)`. -/
theorem C68_hessian_raises (axes : ℕ) : (∃ e, hessAxes axes = .error e) ↔ axes ≠ 2 := by
  unfold hessAxes
  split_ifs with h <;> simp [h]

omit [DecidableEq ι] in
/-- **C69, L2.** The Bregman distance is `lamda / 2` times the squared distance. -/
theorem C69_l2 (lamda : ℝ) (p q : ι → ℝ) :
    bregman (.fin (l2Call lamda p)) (.fin (l2Call lamda q)) (l2Grad lamda q) p q = .fin (lamda / 2 * ∑ i, (p i - q i) ^ 2) := by
  simp only [bregman, Flt.sub, Flt.neg, Flt.add, l2Call, l2Grad]
  congr 1
  simp only [Finset.mul_sum]
  rw [← Finset.sum_neg_distrib, ← Finset.sum_neg_distrib, ← Finset.sum_add_distrib, ← Finset.sum_add_distrib]
  refine Finset.sum_congr rfl fun i _ => ?_
  ring

omit [DecidableEq ι] in
/-- **C69, projection on a ball with centre 0**: in the ball the Bregman distance is half the squared distance. Missing: other centres, see `C69_ball_false`. -/
theorem C69_ball_partial (radius : ℝ) (p q : ι → ℝ) (hp : euclid p ≤ radius) (hq : euclid q ≤ radius) :
    bregman (ballCall radius p) (ballCall radius q) (projGrad q) p q = .fin (1 / 2 * ∑ i, (p i - q i) ^ 2) := by
  have hf : ∀ v : ι → ℝ, euclid v ≤ radius → ballCall radius v = .fin (0.5 * ∑ i, v i ^ 2) := fun v hv => by
    unfold ballCall
    rw [if_neg (by linarith), euclid_sq_sum]
  rw [hf p hp, hf q hq]
  simp only [bregman, Flt.sub, Flt.neg, Flt.add, projGrad]
  congr 1
  simp only [Finset.mul_sum]
  rw [← Finset.sum_neg_distrib, ← Finset.sum_neg_distrib, ← Finset.sum_add_distrib, ← Finset.sum_add_distrib]
  refine Finset.sum_congr rfl fun i _ => ?_
  ring

/-- **C69, logarithmic barrier**: in the open box the Bregman distance is finite, non-negative, and zero only for equal points. -/
theorem C69_log_barrier (p q : ι → ℝ) (hp : ∀ i, -1 < p i ∧ p i < 1) (hq : ∀ i, -1 < q i ∧ q i < 1) :
    ∃ g : ι → ℝ, (∀ i, logBarrierGrad (q i) = .fin (g i)) ∧
      ∃ D, bregman (.fin (logBarrierCall p)) (.fin (logBarrierCall q)) g p q = .fin D ∧ 0 ≤ D ∧ (D = 0 ↔ p = q) := by
  refine ⟨fun i => 1 / (1 - q i) - 1 / (1 + q i), fun i => logBarrierGrad_fin (hq i).1 (hq i).2, _, rfl, ?_⟩
  have h := sum_bregman (p := p) (q := q) fun i => logBarrier_bregman (hp i).1 (hp i).2 (hq i).1 (hq i).2
  have e : logBarrierCall p + -logBarrierCall q + -∑ i, (1 / (1 - q i) - 1 / (1 + q i)) * (p i - q i) = ∑ i, ((Real.log (1 / (1 - p i)) + Real.log (1 / (1 + p i))) -
      (Real.log (1 / (1 - q i)) + Real.log (1 / (1 + q i))) - (1 / (1 - q i) - 1 / (1 + q i)) * (p i - q i)) := by
    simp only [logBarrierCall, Finset.sum_sub_distrib]
    ring
  rw [e]
  refine ⟨h.1, h.2, ?_⟩
  rintro rfl
  simp

/-- **C69, elastic net**, everywhere (at zero coordinates `grad` is a subgradient). -/
theorem C69_elastic (delta lamda : ℝ) (hd : 0 < delta) (hl : 0 ≤ lamda) (p q : ι → ℝ) :
    ∃ D, bregman (.fin (elasticCall delta lamda p)) (.fin (elasticCall delta lamda q)) (elasticGrad delta lamda q) p q = .fin D ∧ 0 ≤ D ∧ (D = 0 ↔ p = q) := by
  refine ⟨_, rfl, ?_⟩
  have h := sum_bregman (p := p) (q := q) fun i => elastic_bregman hd hl (p i) (q i)
  have e : elasticCall delta lamda p + -elasticCall delta lamda q + -∑ i, elasticGrad delta lamda q i * (p i - q i) =
      ∑ i, ((1 / (2 * delta) * p i ^ 2 + lamda * |p i|) - (1 / (2 * delta) * q i ^ 2 + lamda * |q i|) - (1 / delta * q i + lamda * npSign (q i)) * (p i - q i)) := by
    simp only [elasticCall, elasticGrad, Finset.sum_sub_distrib, Finset.sum_add_distrib, Finset.mul_sum]
    ring
  rw [e]
  refine ⟨h.1, h.2, ?_⟩
  rintro rfl
  simp

/-- **C69, non-smooth barrier, one particle** in the open box. Missing: several particles, see `C69_nonsmooth_false`. -/
theorem C69_nonsmooth_partial (p q : ι → ℝ) (hp : ∀ i, |p i| < 1) (hq : ∀ i, |q i| < 1) :
    ∃ g : ι → ℝ, (∀ i, nonsmoothGrad (q i) = .fin (g i)) ∧
      ∃ D, bregman (.fin (nonsmoothCall 1 fun _ => p)) (.fin (nonsmoothCall 1 fun _ => q)) g p q = .fin D ∧ 0 ≤ D ∧ (D = 0 ↔ p = q) := by
  refine ⟨fun i => npSign (q i) / (1 - |q i|) ^ 2, fun i => nonsmoothGrad_fin (hq i), _, rfl, ?_⟩
  have h := sum_bregman (p := p) (q := q) fun i => nonsmooth_bregman (hp i) (hq i)
  have e : (nonsmoothCall 1 fun _ => p) + -(nonsmoothCall 1 fun _ => q) + -∑ i, npSign (q i) / (1 - |q i|) ^ 2 * (p i - q i) =
      ∑ i, (|p i| / (1 - |p i|) - |q i| / (1 - |q i|) - npSign (q i) / (1 - |q i|) ^ 2 * (p i - q i)) := by
    simp only [nonsmoothCall, Finset.sum_range_one, Finset.sum_sub_distrib]
    ring
  rw [e]
  refine ⟨h.1, h.2, ?_⟩
  rintro rfl
  simp

/-- **C69 is false for the ball with another centre**: the projection maps onto the ball around the centre, the function is infinite outside the ball around 0. Here a feasible point has an undefined (NaN) distance to itself. -/
theorem C69_ball_false : ballConj 1 (fun _ : Unit => 3) (fun _ => 3) = (fun _ => 3) ∧
    bregman (ballCall 1 fun _ : Unit => 3) (ballCall 1 fun _ : Unit => 3) (projGrad fun _ : Unit => 3) (fun _ => 3) (fun _ => 3) = .nan := by
  constructor
  · funext i; simp [ballConj]
  · have h : ballCall 1 (fun _ : Unit => (3 : ℝ)) = .pinf := by
      unfold ballCall
      have : euclid (fun _ : Unit => (3 : ℝ)) = 3 := by
        unfold euclid
        simp
      rw [this, if_pos (by norm_num)]
    rw [h]
    rfl

/-- **C69 is false for the non-smooth barrier on several particles**: the function adds up all particles. Two particles, of which the first does not move (`p = q` there): its distance is negative. -/
theorem C69_nonsmooth_false :
    let p : ℕ → Unit → ℝ := fun k _ => if k = 0 then 1 / 2 else 0
    let q : ℕ → Unit → ℝ := fun _ _ => 1 / 2
    p 0 = q 0 ∧ ∃ g : Unit → ℝ, (∀ i, nonsmoothGrad (q 0 i) = .fin (g i)) ∧ bregman (.fin (nonsmoothCall 2 p)) (.fin (nonsmoothCall 2 q)) g (p 0) (q 0) = .fin (-1) := by
  refine ⟨by simp, fun _ => npSign (1 / 2) / (1 - |1 / 2|) ^ 2, fun i => nonsmoothGrad_fin (by rw [abs_of_pos] <;> norm_num), ?_⟩
  have h : |(1 : ℝ) / 2| = 1 / 2 := abs_of_pos (by norm_num)
  simp only [bregman, Flt.sub, Flt.neg, Flt.add, nonsmoothCall, Finset.sum_range_succ, Finset.sum_range_zero]
  congr 1
  simp
  norm_num

/-- **C69 is false for Entropy**, which is concave: the distance is negative (here between 1 and 2 in dimension 1). -/
theorem C69_entropy_false : ∃ D, bregman (.fin (entropyCall fun _ : Unit => 1)) (.fin (entropyCall fun _ : Unit => 2)) (entropyGrad fun _ : Unit => 2) (fun _ => 1) (fun _ => 2) = .fin D ∧ D < 0 := by
  refine ⟨_, rfl, ?_⟩
  simp only [entropyCall, entropyGrad, Finset.univ_unique, Finset.sum_singleton, one_div, Real.log_inv, inv_one, Real.log_one]
  have h1 : Real.log 2 ≤ Real.log (2 + (2 ^ 23)⁻¹) := Real.log_le_log (by norm_num) (by norm_num)
  have h2 := Real.log_two_lt_d9
  linarith

/-- **C69 is false for weighted L2 on arrays**: no array with one or two axes is accepted by both `__call__` and `grad` except `(m, m)`, and then the function returns an `(m, m)` array instead of one value per particle. -/
theorem C69_weighted_false (m : ℕ) (sh : List ℕ) (_ : sh.length ≤ 2) (r s : List ℕ) (h1 : weightedCallShape m sh = .ok r) (h2 : weightedGradShape m sh = .ok s) :
    sh = [m, m] ∧ r = [m, m] ∧ s = [m, m] := by
  match sh with
  | [] => simp [weightedGradShape] at h2
  | [k] => simp [weightedGradShape] at h2
  | [n, k] =>
    simp only [weightedCallShape, weightedGradShape] at h1 h2
    split_ifs at h1 h2 with a b
    subst a b
    injection h1 with h1
    injection h2 with h2
    exact ⟨rfl, h1.symm, h2.symm⟩
  | _ :: _ :: _ :: _ => simp [weightedGradShape] at h2

/-- C68, C69: points that meet all the hypotheses. -/
example : ∃ p q : Fin 2 → ℝ, p ≠ q ∧ (∀ i, -1 < p i ∧ p i < 1) ∧ (∀ i, -1 < q i ∧ q i < 1) ∧ (∀ i, |p i| < 1) ∧ (∀ i, |q i| < 1) ∧ (∀ i, p i ≠ 0) ∧
    euclid p ≤ 1 ∧ euclid q ≤ 1 := by
  have hb : ∀ v : Fin 2 → ℝ, v 0 ^ 2 + v 1 ^ 2 ≤ 1 → euclid v ≤ 1 := by
    intro v hv
    have h0 : 0 ≤ euclid v := Real.sqrt_nonneg _
    have h1 : euclid v ^ 2 ≤ 1 := by rw [euclid_sq_sum, Fin.sum_univ_two]; exact hv
    nlinarith
  refine ⟨![1 / 2, -1 / 4], ![0, 1 / 3], ?_, ?_, ?_, ?_, ?_, ?_, hb _ (by norm_num), hb _ (by norm_num)⟩
  · intro h
    have := congrFun h 0
    norm_num at this
  all_goals intro i; fin_cases i <;> norm_num [abs_lt]

end Verif
