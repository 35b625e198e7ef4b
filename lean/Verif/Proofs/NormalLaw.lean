import Mathlib.Probability.Distributions.Gaussian.Multivariate
import Mathlib.Probability.ProductMeasure

/-! Invariance of independent standard normal vectors under a rotation (for C109). -/

set_option linter.unusedSectionVars false

namespace Verif

open Matrix MeasureTheory ProbabilityTheory

variable {ι : Type} [Fintype ι] [DecidableEq ι]

/-- Multiplication by an orthogonal matrix is an isometry. -/
noncomputable def orthIso {Q : Matrix ι ι ℝ} (hQ : Qᵀ * Q = 1) : EuclideanSpace ℝ ι ≃ₗᵢ[ℝ] EuclideanSpace ℝ ι :=
  LinearIsometryEquiv.mk
    { toFun := fun v => WithLp.toLp 2 (Q *ᵥ v.ofLp)
      invFun := fun v => WithLp.toLp 2 (Qᵀ *ᵥ v.ofLp)
      map_add' := fun u v => by simp [mulVec_add]
      map_smul' := fun c v => by simp [mulVec_smul]
      left_inv := fun v => by simp [mulVec_mulVec, hQ]
      right_inv := fun v => by simp [mulVec_mulVec, mul_eq_one_comm.1 hQ] }
    (fun v => by
      have h : ∀ u : ι → ℝ, ∑ i, u i ^ 2 = u ⬝ᵥ u := fun u => by simp [dotProduct, sq]
      have : ‖WithLp.toLp 2 (Q *ᵥ v.ofLp)‖ ^ 2 = ‖v‖ ^ 2 := by
        rw [EuclideanSpace.real_norm_sq_eq, EuclideanSpace.real_norm_sq_eq]
        show ∑ i, (Q *ᵥ v.ofLp) i ^ 2 = ∑ i, v.ofLp i ^ 2
        rw [h, h, dotProduct_mulVec, vecMul_mulVec, ← dotProduct_mulVec, hQ, one_mulVec]
      exact (sq_eq_sq₀ (norm_nonneg _) (norm_nonneg _)).1 this)

/-- A standard normal vector multiplied by an orthogonal matrix is a standard normal vector. -/
theorem normal_rot {Q : Matrix ι ι ℝ} (hQ : Qᵀ * Q = 1) :
    (Measure.pi fun _ : ι => gaussianReal 0 1).map (fun v => Q *ᵥ v) = Measure.pi fun _ : ι => gaussianReal 0 1 := by
  have hm : Measurable (WithLp.toLp 2 : (ι → ℝ) → EuclideanSpace ℝ ι) := by fun_prop
  have hm' : Measurable (WithLp.ofLp : EuclideanSpace ℝ ι → ι → ℝ) := by fun_prop
  have hi : Measurable (orthIso hQ) := (orthIso hQ).continuous.measurable
  have e : (fun v : ι → ℝ => Q *ᵥ v) = WithLp.ofLp ∘ (orthIso hQ) ∘ WithLp.toLp 2 := by
    funext v
    rfl
  have hid : (Measure.pi fun _ : ι => gaussianReal 0 1) = ((Measure.pi fun _ : ι => gaussianReal 0 1).map (WithLp.toLp 2 : (ι → ℝ) → EuclideanSpace ℝ ι)).map WithLp.ofLp := by
    rw [Measure.map_map hm' hm]
    exact Measure.map_id.symm
  rw [e, ← Measure.map_map hm' (hi.comp hm), ← Measure.map_map hi hm, map_pi_eq_stdGaussian, stdGaussian_map, ← map_pi_eq_stdGaussian, ← hid]

/-- The law of the random numbers of a default sampler: draw `k`, run `i`, row `j` is a vector of independent standard normal numbers, all draws, runs and rows are independent. -/
noncomputable def normalLaw (ι : Type) [Fintype ι] : Measure (ℕ × ℕ × ℕ → ι → ℝ) := Measure.infinitePi fun _ => Measure.pi fun _ => gaussianReal 0 1

/-- The same rotation of all random vectors, as a measurable equivalence. -/
noncomputable def rotEquiv {Q : Matrix ι ι ℝ} (hQ : Qᵀ * Q = 1) : (ℕ × ℕ × ℕ → ι → ℝ) ≃ᵐ (ℕ × ℕ × ℕ → ι → ℝ) where
  toFun z q := Q *ᵥ z q
  invFun z q := Qᵀ *ᵥ z q
  left_inv z := by funext q; simp [mulVec_mulVec, hQ]
  right_inv z := by funext q; simp [mulVec_mulVec, mul_eq_one_comm.1 hQ]
  measurable_toFun := by
    refine measurable_pi_lambda _ fun q => ?_
    exact (Continuous.matrix_mulVec continuous_const continuous_id).measurable.comp (measurable_pi_apply q)
  measurable_invFun := by
    refine measurable_pi_lambda _ fun q => ?_
    exact (Continuous.matrix_mulVec continuous_const continuous_id).measurable.comp (measurable_pi_apply q)

/-- All random vectors rotated have the law of the random vectors; this holds for every event, measurable or not. -/
theorem normalLaw_rot {Q : Matrix ι ι ℝ} (hQ : Qᵀ * Q = 1) (S : Set (ℕ × ℕ × ℕ → ι → ℝ)) : normalLaw ι {z | (fun q => Q *ᵥ z q) ∈ S} = normalLaw ι S := by
  have hmv : Measurable fun v : ι → ℝ => Q *ᵥ v := (Continuous.matrix_mulVec continuous_const continuous_id).measurable
  have h : MeasurePreserving (rotEquiv hQ) (normalLaw ι) (normalLaw ι) := by
    refine ⟨(rotEquiv hQ).measurable, ?_⟩
    have := Measure.infinitePi_map_pi (μ := fun _ : ℕ × ℕ × ℕ => Measure.pi fun _ : ι => gaussianReal 0 1) (f := fun _ v => Q *ᵥ v) (fun _ => hmv)
    simp only [normal_rot hQ] at this
    exact this
  exact h.measure_preimage_equiv S

end Verif
