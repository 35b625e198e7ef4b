import Verif.Spec.Normal
import Mathlib.MeasureTheory.Integral.Pi

/-! Moments of independent standard normal numbers. -/

set_option linter.unusedSectionVars false

namespace Verif

variable {ι : Type} [Fintype ι] [DecidableEq ι]

open MeasureTheory ProbabilityTheory

theorem normal_pair (a b : ι) (z : ι → ℝ) : z a * z b = ∏ i, ((if i = a then z i else 1) * (if i = b then z i else 1)) := by
  rw [Finset.prod_mul_distrib, Finset.prod_ite_eq' Finset.univ a z, Finset.prod_ite_eq' Finset.univ b z]
  simp

theorem normal_sq : ∫ x, x * x ∂gaussianReal 0 1 = 1 := by
  have h := variance_id_gaussianReal (μ := 0) (v := 1)
  rw [variance_eq_integral aemeasurable_id] at h
  simp only [id_eq, integral_id_gaussianReal, sub_zero, NNReal.coe_one] at h
  rw [← h]
  refine integral_congr_ae (Filter.Eventually.of_forall fun x => ?_)
  simp [pow_two]

theorem normal_int (a b i : ι) :
    Integrable (fun x : ℝ => (if i = a then x else 1) * (if i = b then x else 1)) (gaussianReal 0 1) := by
  have h1 : Integrable (fun x : ℝ => x) (gaussianReal 0 1) := (memLp_id_gaussianReal (μ := 0) (v := 1) 1).integrable le_rfl
  have h2 : Integrable (fun x : ℝ => x * x) (gaussianReal 0 1) := by
    have := (memLp_id_gaussianReal (μ := 0) (v := 1) 2).integrable_sq
    simpa [pow_two] using this
  by_cases e1 : i = a <;> by_cases e2 : i = b <;> simp only [if_pos, if_neg, e1, e2, mul_one, one_mul] <;>
    first | exact h2 | exact h1 | exact integrable_const _ | skip
  all_goals simp_all

theorem normal_moment (a b : ι) :
    Integrable (fun z : ι → ℝ => z a * z b) (stdNormal ι) ∧ ∫ z, z a * z b ∂stdNormal ι = if a = b then 1 else 0 := by
  have e : (fun z : ι → ℝ => z a * z b) =
      fun z => ∏ i, (fun x : ℝ => (if i = a then x else 1) * (if i = b then x else 1)) (z i) := by
    funext z; exact normal_pair a b z
  constructor
  · rw [e]
    exact Integrable.fintype_prod fun i => normal_int a b i
  · rw [e, stdNormal, integral_fintype_prod_eq_prod (fun i x => (if i = a then x else 1) * (if i = b then x else 1))]
    by_cases h : a = b
    · subst h
      rw [if_pos rfl, Finset.prod_eq_one]
      intro i _
      by_cases hi : i = a
      · simp only [if_pos hi]; exact normal_sq
      · simp [if_neg hi]
    · rw [if_neg h, Finset.prod_eq_zero (Finset.mem_univ a)]
      simp only [if_true, if_neg h, mul_one]
      exact integral_id_gaussianReal

theorem normal_mean (a : ι) : Integrable (fun z : ι → ℝ => z a) (stdNormal ι) ∧ ∫ z, z a ∂stdNormal ι = 0 := by
  have e : (fun z : ι → ℝ => z a) = fun z => ∏ i, (fun x : ℝ => if i = a then x else 1) (z i) := by
    funext z; simp
  have hi : ∀ i, Integrable (fun x : ℝ => if i = a then x else 1) (gaussianReal 0 1) := by
    intro i
    by_cases hi : i = a
    · simp only [if_pos hi]; exact (memLp_id_gaussianReal (μ := 0) (v := 1) 1).integrable le_rfl
    · simp only [if_neg hi]; exact integrable_const _
  constructor
  · rw [e]; exact Integrable.fintype_prod hi
  · rw [e, stdNormal, integral_fintype_prod_eq_prod (fun i x => if i = a then x else 1),
      Finset.prod_eq_zero (Finset.mem_univ a)]
    simp only [if_true]
    exact integral_id_gaussianReal

/-- The mean square of an affine combination of two different numbers. -/
theorem normal_sq_two (u v : ι) (huv : u ≠ v) (a b c : ℝ) :
    Integrable (fun z : ι → ℝ => (a + b * z u - c * z v) ^ 2) (stdNormal ι) ∧ ∫ z, (a + b * z u - c * z v) ^ 2 ∂stdNormal ι = a ^ 2 + b ^ 2 + c ^ 2 := by
  have e : (fun z : ι → ℝ => (a + b * z u - c * z v) ^ 2) = fun z => a ^ 2 + 2 * a * b * z u + (-(2 * a * c)) * z v + b ^ 2 * (z u * z u) + c ^ 2 * (z v * z v) + (-(2 * b * c)) * (z u * z v) := by
    funext z; ring
  haveI : IsProbabilityMeasure (stdNormal ι) := by unfold stdNormal; infer_instance
  have i0 : Integrable (fun _ : ι → ℝ => a ^ 2) (stdNormal ι) := integrable_const _
  have i1 := (normal_mean u).1.const_mul (2 * a * b)
  have i2 := (normal_mean v).1.const_mul (-(2 * a * c))
  have i3 := (normal_moment u u).1.const_mul (b ^ 2)
  have i4 := (normal_moment v v).1.const_mul (c ^ 2)
  have i5 := (normal_moment u v).1.const_mul (-(2 * b * c))
  rw [e]
  have j1 : Integrable (fun z : ι → ℝ => a ^ 2 + 2 * a * b * z u) (stdNormal ι) := i0.add i1
  have j2 : Integrable (fun z : ι → ℝ => a ^ 2 + 2 * a * b * z u + (-(2 * a * c)) * z v) (stdNormal ι) := j1.add i2
  have j3 : Integrable (fun z : ι → ℝ => a ^ 2 + 2 * a * b * z u + (-(2 * a * c)) * z v + b ^ 2 * (z u * z u)) (stdNormal ι) := j2.add i3
  have j4 : Integrable (fun z : ι → ℝ => a ^ 2 + 2 * a * b * z u + (-(2 * a * c)) * z v + b ^ 2 * (z u * z u) + c ^ 2 * (z v * z v)) (stdNormal ι) := j3.add i4
  refine ⟨j4.add i5, ?_⟩
  rw [integral_add j4 i5, integral_add j3 i4, integral_add j2 i3, integral_add j1 i2, integral_add i0 i1]
  simp only [integral_const_mul, (normal_mean _).2, (normal_moment _ _).2, if_true, if_neg huv]
  simp

end Verif
