import Verif.Model.MirrorFun
import Verif.Spec.MirrorFun
import Verif.Proofs.Constraints
import Mathlib.Analysis.SpecialFunctions.Log.Deriv
import Mathlib.Analysis.Calculus.Deriv.Inv
import Mathlib.Analysis.Calculus.Deriv.Abs
import Mathlib.Analysis.Calculus.Deriv.Pow

/-! Lemmas about mirror maps as functions: separable functions, one-dimensional derivatives and inequalities. -/

namespace Verif

open Matrix Mirror

variable {ι : Type} [Fintype ι] [DecidableEq ι]

theorem isGrad_comp (φ : ℝ → ℝ) (a : ℝ) (i : ι) (x : ι → ℝ) (h : HasDerivAt φ a (x i)) : IsGrad (fun y => φ (y i)) (Pi.single i a) x := by
  have hp : HasFDerivAt (fun y : ι → ℝ => y i) (ContinuousLinearMap.proj (R := ℝ) (φ := fun _ : ι => ℝ) i) x := hasFDerivAt_apply i x
  have := h.hasFDerivAt.comp x hp
  unfold IsGrad
  refine this.congr_fderiv ?_
  ext v
  simp [dotForm_apply, Pi.single_apply, mul_comm]

/-- Gradient of a separable function. -/
theorem isGrad_sep (φ : ℝ → ℝ) (g x : ι → ℝ) (h : ∀ i, HasDerivAt φ (g i) (x i)) : IsGrad (fun y => ∑ i, φ (y i)) g x := by
  have := IsGrad.sum Finset.univ (f := fun i (y : ι → ℝ) => φ (y i)) (g := fun i => Pi.single i (g i)) (x := x) fun i _ => isGrad_comp φ (g i) i x (h i)
  refine this.congr (fun _ => rfl) fun i => ?_
  rw [Finset.sum_apply, Finset.sum_eq_single i]
  · simp
  · intro j _ hj
    simp [Pi.single_apply, hj.symm]
  · simp

/-- Hessian of a separable function that is smooth near the coordinates of the point. -/
theorem isHessAt_sep (φ φ' φ'' : ℝ → ℝ) (x : ι → ℝ) (h1 : ∀ i, ∀ᶠ t in nhds (x i), HasDerivAt φ (φ' t) t) (h2 : ∀ i, HasDerivAt φ' (φ'' (x i)) (x i)) :
    IsHessAt (fun y => ∑ i, φ (y i)) (fun i j => φ'' (x i) * if i = j then 1 else 0) x := by
  refine ⟨fun y i => φ' (y i), ?_, ?_⟩
  · have hh : ∀ i, ∀ᶠ y in nhds x, HasDerivAt φ (φ' (y i)) (y i) := fun i => (continuous_apply i).continuousAt.eventually (h1 i)
    filter_upwards [Filter.eventually_all.2 hh] with y hy
    exact isGrad_sep φ _ y hy
  · intro i
    have := isGrad_comp φ' (φ'' (x i)) i x (h2 i)
    unfold IsGrad at this
    refine this.congr_fderiv ?_
    congr 1
    funext j
    by_cases hij : i = j
    · subst hij; simp
    · simp [hij, Pi.single_apply, Ne.symm hij]

omit [DecidableEq ι] in
theorem IsHessAt.congr {f f' : (ι → ℝ) → ℝ} {H H' : Matrix ι ι ℝ} {x : ι → ℝ} (h : IsHessAt f' H' x) (hf : ∀ y, f y = f' y) (hH : ∀ i j, H i j = H' i j) :
    IsHessAt f H x := by
  obtain rfl : f = f' := funext hf
  obtain rfl : H = H' := funext fun i => funext fun j => hH i j
  exact h

/-- There is at most one Hessian. -/
theorem IsHessAt.unique {f : (ι → ℝ) → ℝ} {H H' : Matrix ι ι ℝ} {x : ι → ℝ} (h₁ : IsHessAt f H x) (h₂ : IsHessAt f H' x) : H = H' := by
  obtain ⟨g, hg, h⟩ := h₁
  obtain ⟨g', hg', h'⟩ := h₂
  funext i
  refine dotForm_inj ((h i).unique ((h' i).congr_of_eventuallyEq ?_))
  filter_upwards [hg, hg'] with y a b
  rw [a.unique b]

/-! One coordinate: logarithmic barrier -/

theorem logBarrier_deriv {t : ℝ} (h1 : -1 < t) (h2 : t < 1) :
    HasDerivAt (fun t => Real.log (1 / (1 - t)) + Real.log (1 / (1 + t))) (1 / (1 - t) - 1 / (1 + t)) t := by
  have p1 : (1 - t) ≠ 0 := by linarith
  have p2 : (1 + t) ≠ 0 := by linarith
  have d1 : HasDerivAt (fun t : ℝ => 1 - t) (-1) t := by simpa using (hasDerivAt_id t).const_sub 1
  have d2 : HasDerivAt (fun t : ℝ => 1 + t) 1 t := by simpa using (hasDerivAt_id t).const_add 1
  have e : (fun t : ℝ => Real.log (1 / (1 - t)) + Real.log (1 / (1 + t))) = fun t => -Real.log (1 - t) + -Real.log (1 + t) := by
    funext t; simp [Real.log_inv]
  rw [e]
  have := (d1.log p1).neg.add (d2.log p2).neg
  refine this.congr_deriv ?_
  ring

theorem logBarrier_deriv2 {t : ℝ} (h1 : -1 < t) (h2 : t < 1) : HasDerivAt (fun t : ℝ => 1 / (1 - t) - 1 / (1 + t)) (logBarrierHessDiag t) t := by
  have p1 : (1 - t) ≠ 0 := by linarith
  have p2 : (1 + t) ≠ 0 := by linarith
  have d1 : HasDerivAt (fun t : ℝ => 1 - t) (-1) t := by simpa using (hasDerivAt_id t).const_sub 1
  have d2 : HasDerivAt (fun t : ℝ => 1 + t) 1 t := by simpa using (hasDerivAt_id t).const_add 1
  have := (d1.inv p1).sub (d2.inv p2)
  simp only [one_div]
  refine this.congr_deriv ?_
  unfold logBarrierHessDiag
  field_simp
  ring

theorem open_box {t : ℝ} (h1 : -1 < t) (h2 : t < 1) : ∀ᶠ u in nhds t, -1 < u ∧ u < 1 :=
  (eventually_gt_nhds h1).and (eventually_lt_nhds h2)

theorem logBarrierGrad_fin {t : ℝ} (h1 : -1 < t) (h2 : t < 1) : logBarrierGrad t = .fin (1 / (1 - t) - 1 / (1 + t)) := by
  have p1 : (1 - t) ≠ 0 := by linarith
  have p2 : (1 + t) ≠ 0 := by linarith
  simp only [logBarrierGrad, Flt.div, ne_eq, p1, p2, not_false_iff, if_true, Flt.sub, Flt.neg, Flt.add]
  congr 1

theorem logBarrier_bregman {p q : ℝ} (p1 : -1 < p) (p2 : p < 1) (q1 : -1 < q) (q2 : q < 1) :
    0 ≤ (Real.log (1 / (1 - p)) + Real.log (1 / (1 + p))) - (Real.log (1 / (1 - q)) + Real.log (1 / (1 + q))) - (1 / (1 - q) - 1 / (1 + q)) * (p - q) ∧
    ((Real.log (1 / (1 - p)) + Real.log (1 / (1 + p))) - (Real.log (1 / (1 - q)) + Real.log (1 / (1 + q))) - (1 / (1 - q) - 1 / (1 + q)) * (p - q) = 0 → p = q) := by
  have a1 : 0 < 1 - p := by linarith
  have a2 : 0 < 1 + p := by linarith
  have b1 : 0 < 1 - q := by linarith
  have b2 : 0 < 1 + q := by linarith
  have u1 : 0 < (1 - p) / (1 - q) := div_pos a1 b1
  have u2 : 0 < (1 + p) / (1 + q) := div_pos a2 b2
  have l1 : Real.log ((1 - p) / (1 - q)) = Real.log (1 - p) - Real.log (1 - q) := Real.log_div a1.ne' b1.ne'
  have l2 : Real.log ((1 + p) / (1 + q)) = Real.log (1 + p) - Real.log (1 + q) := Real.log_div a2.ne' b2.ne'
  have e : (Real.log (1 / (1 - p)) + Real.log (1 / (1 + p))) - (Real.log (1 / (1 - q)) + Real.log (1 / (1 + q))) - (1 / (1 - q) - 1 / (1 + q)) * (p - q) =
      ((1 - p) / (1 - q) - 1 - Real.log ((1 - p) / (1 - q))) + ((1 + p) / (1 + q) - 1 - Real.log ((1 + p) / (1 + q))) := by
    rw [l1, l2]
    simp only [one_div, Real.log_inv]
    field_simp
    ring
  rw [e]
  have i1 := Real.log_le_sub_one_of_pos u1
  have i2 := Real.log_le_sub_one_of_pos u2
  refine ⟨by linarith, fun h => ?_⟩
  by_contra hne
  have hn : (1 - p) / (1 - q) ≠ 1 := by
    intro h'
    rw [div_eq_one_iff_eq b1.ne'] at h'
    exact hne (by linarith)
  have := Real.log_lt_sub_one_of_pos u1 hn
  linarith

/-! One coordinate: non-smooth barrier -/

theorem nonsmooth_deriv {t : ℝ} (h0 : t ≠ 0) (h : |t| < 1) : HasDerivAt (fun t : ℝ => |t| / (1 - |t|)) (npSign t / (1 - |t|) ^ 2) t := by
  have p : (1 - |t|) ≠ 0 := by linarith
  have hs : HasDerivAt (fun t : ℝ => |t|) (npSign t) t := by
    rcases lt_or_gt_of_ne h0 with h | h
    · have := hasDerivAt_abs_neg h
      simpa [npSign, not_lt.2 h.le, h] using this
    · have := hasDerivAt_abs_pos h
      simpa [npSign, h] using this
  have := hs.div (hs.const_sub 1) p
  refine this.congr_deriv ?_
  congr 1
  ring

theorem nonsmoothGrad_fin {t : ℝ} (h : |t| < 1) : nonsmoothGrad t = .fin (npSign t / (1 - |t|) ^ 2) := by
  have p : 0 < 1 - |t| := by linarith
  have e : 1 + |t| ^ 2 - 2 * |t| = (1 - |t|) ^ 2 := by ring
  simp only [nonsmoothGrad, e, Flt.div]
  rw [if_pos (pow_ne_zero 2 p.ne')]

theorem nonsmooth_deriv2 {t : ℝ} (h0 : t ≠ 0) (h : |t| < 1) : HasDerivAt (fun t : ℝ => npSign t / (1 - |t|) ^ 2) (nonsmoothHessDiag t) t := by
  have p : (1 - |t|) ≠ 0 := by linarith
  have hd : -4 * |t| - 4 * |t| ^ 3 + |t| ^ 4 + 6 * |t| ^ 2 + 1 = (1 - |t|) ^ 4 := by ring
  rcases lt_or_gt_of_ne h0 with h1 | h1
  · have e : (fun t : ℝ => npSign t / (1 - |t|) ^ 2) =ᶠ[nhds t] fun t => -((1 + t) ^ 2)⁻¹ := by
      filter_upwards [eventually_lt_nhds h1] with u hu
      rw [abs_of_neg hu]
      simp [npSign, not_lt.2 hu.le, hu, neg_div]
    have p' : (1 + t) ≠ 0 := by rw [abs_of_neg h1] at p; simpa using p
    have d2 : HasDerivAt (fun t : ℝ => 1 + t) 1 t := by simpa using (hasDerivAt_id t).const_add 1
    have := ((d2.pow 2).inv (pow_ne_zero 2 p')).neg
    refine (this.congr_of_eventuallyEq e).congr_deriv ?_
    unfold nonsmoothHessDiag
    rw [hd, abs_of_neg h1, sub_neg_eq_add]
    simp only [Pi.pow_apply]
    field_simp
    push_cast
    ring
  · have e : (fun t : ℝ => npSign t / (1 - |t|) ^ 2) =ᶠ[nhds t] fun t => ((1 - t) ^ 2)⁻¹ := by
      filter_upwards [eventually_gt_nhds h1] with u hu
      rw [abs_of_pos hu]
      simp [npSign, hu]
    have p' : (1 - t) ≠ 0 := by rwa [abs_of_pos h1] at p
    have d1 : HasDerivAt (fun t : ℝ => 1 - t) (-1) t := by simpa using (hasDerivAt_id t).const_sub 1
    have := (d1.pow 2).inv (pow_ne_zero 2 p')
    refine (this.congr_of_eventuallyEq e).congr_deriv ?_
    unfold nonsmoothHessDiag
    rw [hd, abs_of_pos h1]
    simp only [Pi.pow_apply]
    field_simp
    push_cast
    ring

theorem npSign_le (q z : ℝ) : npSign q * z ≤ |z| := by
  unfold npSign
  split_ifs
  · rw [one_mul]; exact le_abs_self z
  · rw [neg_one_mul]; exact neg_le_abs z
  · rw [zero_mul]; exact abs_nonneg z

theorem npSign_self (q : ℝ) : npSign q * q = |q| := by
  unfold npSign
  split_ifs with h1 h2
  · rw [one_mul, abs_of_pos h1]
  · rw [neg_one_mul, abs_of_neg h2]
  · obtain rfl : q = 0 := le_antisymm (not_lt.1 h1) (not_lt.1 h2)
    simp

theorem nonsmooth_bregman {p q : ℝ} (hp : |p| < 1) (hq : |q| < 1) :
    0 ≤ |p| / (1 - |p|) - |q| / (1 - |q|) - npSign q / (1 - |q|) ^ 2 * (p - q) ∧
    (|p| / (1 - |p|) - |q| / (1 - |q|) - npSign q / (1 - |q|) ^ 2 * (p - q) = 0 → p = q) := by
  have a : 0 < 1 - |p| := by linarith
  have b : 0 < 1 - |q| := by linarith
  have hs : npSign q * (p - q) ≤ |p| - |q| := by
    rw [mul_sub, npSign_self]
    linarith [npSign_le q p]
  have e : |p| / (1 - |p|) - |q| / (1 - |q|) - npSign q / (1 - |q|) ^ 2 * (p - q) =
      (|p| - |q|) ^ 2 / ((1 - |p|) * (1 - |q|) ^ 2) + (|p| - |q| - npSign q * (p - q)) / (1 - |q|) ^ 2 := by
    field_simp
    ring
  rw [e]
  have t1 : 0 ≤ (|p| - |q|) ^ 2 / ((1 - |p|) * (1 - |q|) ^ 2) := by positivity
  have t2 : 0 ≤ (|p| - |q| - npSign q * (p - q)) / (1 - |q|) ^ 2 := div_nonneg (by linarith) (by positivity)
  refine ⟨add_nonneg t1 t2, fun h => ?_⟩
  have z1 : (|p| - |q|) ^ 2 / ((1 - |p|) * (1 - |q|) ^ 2) = 0 := by linarith
  have z2 : (|p| - |q| - npSign q * (p - q)) / (1 - |q|) ^ 2 = 0 := by linarith
  have y1 : |p| - |q| = 0 := by
    rcases div_eq_zero_iff.1 z1 with h | h
    · exact pow_eq_zero_iff two_ne_zero |>.1 h
    · exact absurd h (by positivity)
  have y2 : |p| - |q| - npSign q * (p - q) = 0 := by
    rcases div_eq_zero_iff.1 z2 with h | h
    · exact h
    · exact absurd h (by positivity)
  have y3 : npSign q * (p - q) = 0 := by linarith
  rcases mul_eq_zero.1 y3 with h | h
  · unfold npSign at h
    split_ifs at h with h1 h2
    · norm_num at h
    · norm_num at h
    · obtain rfl : q = 0 := le_antisymm (not_lt.1 h1) (not_lt.1 h2)
      have : |p| = 0 := by simpa using y1
      exact abs_eq_zero.1 this
  · linarith

/-! One coordinate: elastic net -/

theorem elastic_deriv (delta lamda : ℝ) {t : ℝ} (h0 : t ≠ 0) :
    HasDerivAt (fun t : ℝ => 1 / (2 * delta) * t ^ 2 + lamda * |t|) (1 / delta * t + lamda * npSign t) t := by
  have hs : HasDerivAt (fun t : ℝ => |t|) (npSign t) t := by
    rcases lt_or_gt_of_ne h0 with h | h
    · have := hasDerivAt_abs_neg h
      simpa [npSign, not_lt.2 h.le, h] using this
    · have := hasDerivAt_abs_pos h
      simpa [npSign, h] using this
  have := ((hasDerivAt_pow 2 t).const_mul (1 / (2 * delta))).add (hs.const_mul lamda)
  refine this.congr_deriv ?_
  simp
  ring

theorem elastic_bregman {delta lamda : ℝ} (hd : 0 < delta) (hl : 0 ≤ lamda) (p q : ℝ) :
    0 ≤ (1 / (2 * delta) * p ^ 2 + lamda * |p|) - (1 / (2 * delta) * q ^ 2 + lamda * |q|) - (1 / delta * q + lamda * npSign q) * (p - q) ∧
    ((1 / (2 * delta) * p ^ 2 + lamda * |p|) - (1 / (2 * delta) * q ^ 2 + lamda * |q|) - (1 / delta * q + lamda * npSign q) * (p - q) = 0 → p = q) := by
  have hs : npSign q * (p - q) ≤ |p| - |q| := by
    rw [mul_sub, npSign_self]
    linarith [npSign_le q p]
  have e : (1 / (2 * delta) * p ^ 2 + lamda * |p|) - (1 / (2 * delta) * q ^ 2 + lamda * |q|) - (1 / delta * q + lamda * npSign q) * (p - q) =
      (p - q) ^ 2 / (2 * delta) + lamda * (|p| - |q| - npSign q * (p - q)) := by
    field_simp
    ring
  rw [e]
  have t1 : 0 ≤ (p - q) ^ 2 / (2 * delta) := by positivity
  have t2 : 0 ≤ lamda * (|p| - |q| - npSign q * (p - q)) := mul_nonneg hl (by linarith)
  refine ⟨add_nonneg t1 t2, fun h => ?_⟩
  have z1 : (p - q) ^ 2 / (2 * delta) = 0 := by linarith
  rcases div_eq_zero_iff.1 z1 with h | h
  · have := pow_eq_zero_iff two_ne_zero |>.1 h
    linarith
  · exact absurd h (by positivity)

/-- From coordinates to particles. -/
theorem sum_bregman {p q : ι → ℝ} {D : ι → ℝ} (h : ∀ i, 0 ≤ D i ∧ (D i = 0 → p i = q i)) : 0 ≤ ∑ i, D i ∧ (∑ i, D i = 0 → p = q) := by
  refine ⟨Finset.sum_nonneg fun i _ => (h i).1, fun h0 => funext fun i => (h i).2 ?_⟩
  exact (Finset.sum_eq_zero_iff_of_nonneg fun i _ => (h i).1).1 h0 i (Finset.mem_univ i)

end Verif
