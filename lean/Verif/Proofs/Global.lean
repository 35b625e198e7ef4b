import Verif.Spec.Smooth
import Verif.Proofs.Bounded
import Mathlib.MeasureTheory.Constructions.BorelSpace.Metrizable
import Mathlib.MeasureTheory.Function.LpSpace.Indicator
import Mathlib.MeasureTheory.Integral.Bochner.Set

/-! Helper lemmas for C111: how the weights `exp(-alpha (f - b))` of the particles change in a step. -/

set_option linter.unusedSectionVars false

namespace Verif

open MeasureTheory ProbabilityTheory Filter
open scoped ENNReal Topology

variable {ι : Type} [Fintype ι]

theorem Curved.continuous {f : (ι → ℝ) → ℝ} {G : (ι → ℝ) → ι → ℝ} {L L' : ℝ} (h : Curved f G L L') : Continuous f := by
  refine continuous_iff_continuousAt.2 fun x => ?_
  have c : ∀ K : ℝ, Tendsto (fun y : ι → ℝ => f x + ∑ l, G x l * (y l - x l) + K * ∑ l, (y l - x l) ^ 2) (𝓝 x) (𝓝 (f x)) := by
    intro K
    have : Continuous fun y : ι → ℝ => f x + ∑ l, G x l * (y l - x l) + K * ∑ l, (y l - x l) ^ 2 := by fun_prop
    have h2 := this.tendsto x
    simpa using h2
  refine tendsto_of_tendsto_of_tendsto_of_le_of_le (c (-(L' / 2))) (c (L / 2)) (fun y => ?_) fun y => h.upper x y
  have := h.lower x y
  show _ + -(L' / 2) * _ ≤ _
  linarith

/-- One-sided monotonicity of the slopes. -/
theorem Curved.mono {f : (ι → ℝ) → ℝ} {G : (ι → ℝ) → ι → ℝ} {L L' : ℝ} (h : Curved f G L L') (x c : ι → ℝ) :
    ∑ l, G c l * (x l - c l) - L' * ∑ l, (x l - c l) ^ 2 ≤ ∑ l, G x l * (x l - c l) := by
  have h1 := h.lower x c
  have h2 := h.lower c x
  have e1 : ∑ l, G x l * (c l - x l) = -∑ l, G x l * (x l - c l) := by rw [← Finset.sum_neg_distrib]; exact Finset.sum_congr rfl fun l _ => by ring
  have e2 : ∑ l, (c l - x l) ^ 2 = ∑ l, (x l - c l) ^ 2 := Finset.sum_congr rfl fun l _ => by ring
  rw [e1, e2] at h1
  linarith

/-- The weight of a point. -/
noncomputable def wt (f : (ι → ℝ) → ℝ) (α b : ℝ) (x : ι → ℝ) : ℝ := Real.exp (-(α * (f x - b)))

theorem wt_pos (f : (ι → ℝ) → ℝ) (α b : ℝ) (x : ι → ℝ) : 0 < wt f α b x := Real.exp_pos _

theorem wt_le_one {f : (ι → ℝ) → ℝ} {α b : ℝ} (hα : 0 ≤ α) (hb : ∀ x, b ≤ f x) (x : ι → ℝ) : wt f α b x ≤ 1 := by
  refine Real.exp_le_one_iff.2 ?_
  have := mul_nonneg hα (sub_nonneg.2 (hb x))
  linarith

/-- The weighted distances from the consensus point vanish. -/
theorem wt_centre (f : (ι → ℝ) → ℝ) (α b : ℝ) {N : ℕ} (hN : 0 < N) (y : ℕ → ι → ℝ) (l : ι) :
    ∑ n ∈ Finset.range N, wt f α b (y n) * (y n l - rowCons f α (List.range N) y l) = 0 := by
  have W : 0 < ∑ k ∈ Finset.range N, Real.exp (-(α * f (y k))) := Finset.sum_pos (fun _ _ => Real.exp_pos _) ⟨0, Finset.mem_range.2 hN⟩
  have e : ∀ n, wt f α b (y n) = Real.exp (α * b) * Real.exp (-(α * f (y n))) := fun n => by rw [wt, ← Real.exp_add]; congr 1; ring
  have e2 : rowCons f α (List.range N) y l * ∑ k ∈ Finset.range N, Real.exp (-(α * f (y k))) = ∑ n ∈ Finset.range N, Real.exp (-(α * f (y n))) * y n l := by
    rw [rowCons_range, Finset.sum_mul]
    refine Finset.sum_congr rfl fun n _ => ?_
    field_simp
  simp only [e, mul_sub, Finset.sum_sub_distrib, mul_assoc, ← Finset.mul_sum, ← Finset.sum_mul]
  rw [← e2]
  ring

/-- The weighted squared distances from the consensus point are at most the squared distances from the centre of mass. -/
theorem wt_dist {f : (ι → ℝ) → ℝ} {α b : ℝ} (hα : 0 ≤ α) (hb : ∀ x, b ≤ f x) {N : ℕ} (hN : 0 < N) (y : ℕ → ι → ℝ) :
    ∑ n ∈ Finset.range N, wt f α b (y n) * ∑ l, (y n l - rowCons f α (List.range N) y l) ^ 2 ≤ 1 / (2 * N) * spread (oneRow y) N 0 := by
  have hN' : (0 : ℝ) < N := by exact_mod_cast hN
  set c := rowCons f α (List.range N) y with hc
  set m : ι → ℝ := fun l => (∑ n ∈ Finset.range N, y n l) / N with hm
  have h1 : ∀ l, ∑ n ∈ Finset.range N, wt f α b (y n) * (y n l - c l) ^ 2 ≤ ∑ n ∈ Finset.range N, (y n l - m l) ^ 2 := by
    intro l
    have e : ∑ n ∈ Finset.range N, wt f α b (y n) * (y n l - m l) ^ 2 = ∑ n ∈ Finset.range N, wt f α b (y n) * (y n l - c l) ^ 2 + (∑ n ∈ Finset.range N, wt f α b (y n)) * (c l - m l) ^ 2 := by
      have : ∀ n, wt f α b (y n) * (y n l - m l) ^ 2 = wt f α b (y n) * (y n l - c l) ^ 2 + wt f α b (y n) * (c l - m l) ^ 2 + 2 * (c l - m l) * (wt f α b (y n) * (y n l - c l)) := fun n => by ring
      simp only [this, Finset.sum_add_distrib, ← Finset.mul_sum, ← Finset.sum_mul, hc, wt_centre f α b hN y l]
      ring
    have h2 : 0 ≤ (∑ n ∈ Finset.range N, wt f α b (y n)) * (c l - m l) ^ 2 := mul_nonneg (Finset.sum_nonneg fun n _ => (wt_pos _ _ _ _).le) (sq_nonneg _)
    have h3 : ∑ n ∈ Finset.range N, wt f α b (y n) * (y n l - m l) ^ 2 ≤ ∑ n ∈ Finset.range N, (y n l - m l) ^ 2 :=
      Finset.sum_le_sum fun n _ => mul_le_of_le_one_left (sq_nonneg _) (wt_le_one hα hb _)
    linarith
  have h4 : ∀ l, ∑ n ∈ Finset.range N, ∑ k ∈ Finset.range N, (y n l - y k l) ^ 2 = 2 * N * ∑ n ∈ Finset.range N, (y n l - m l) ^ 2 := by
    intro l
    have hs0 : ∑ n ∈ Finset.range N, (y n l - m l) = 0 := by
      rw [Finset.sum_sub_distrib, Finset.sum_const, Finset.card_range, nsmul_eq_mul, hm]
      field_simp
      ring
    have e : ∀ n, ∑ k ∈ Finset.range N, (y n l - y k l) ^ 2 = N * (y n l - m l) ^ 2 + ∑ n ∈ Finset.range N, (y n l - m l) ^ 2 := by
      intro n
      have : ∀ k, (y n l - y k l) ^ 2 = (y n l - m l) ^ 2 - 2 * (y n l - m l) * (y k l - m l) + (y k l - m l) ^ 2 := fun k => by ring
      simp only [this, Finset.sum_add_distrib, Finset.sum_sub_distrib, Finset.sum_const, Finset.card_range, nsmul_eq_mul, ← Finset.mul_sum, hs0]
      ring
    rw [Finset.sum_congr rfl fun n _ => e n, Finset.sum_add_distrib, ← Finset.mul_sum, Finset.sum_const, Finset.card_range, nsmul_eq_mul]
    ring
  have h5 : spread (oneRow y) N 0 = ∑ l, ∑ n ∈ Finset.range N, ∑ k ∈ Finset.range N, (y n l - y k l) ^ 2 := by
    unfold spread
    simp only [oneRow]
    rw [Finset.sum_congr rfl fun n _ => Finset.sum_comm, Finset.sum_comm]
  rw [h5, Finset.sum_congr rfl fun l _ => h4 l, ← Finset.mul_sum]
  have h6 : ∑ n ∈ Finset.range N, wt f α b (y n) * ∑ l, (y n l - c l) ^ 2 = ∑ l, ∑ n ∈ Finset.range N, wt f α b (y n) * (y n l - c l) ^ 2 := by
    simp only [Finset.mul_sum]
    exact Finset.sum_comm
  rw [h6]
  refine (Finset.sum_le_sum fun l _ => h1 l).trans_eq ?_
  field_simp

/-- Sum of what is missing from the weights to 1. -/
noncomputable def lack (f : (ι → ℝ) → ℝ) (α b : ℝ) (N : ℕ) (y : ℕ → ι → ℝ) : ℝ := ∑ n ∈ Finset.range N, (1 - wt f α b (y n))

theorem lack_nonneg {f : (ι → ℝ) → ℝ} {α b : ℝ} (hα : 0 ≤ α) (hb : ∀ x, b ≤ f x) (N : ℕ) (y : ℕ → ι → ℝ) : 0 ≤ lack f α b N y :=
  Finset.sum_nonneg fun _ _ => sub_nonneg.2 (wt_le_one hα hb _)

theorem wt_measurable {f : (ι → ℝ) → ℝ} (hf : Measurable f) (α b : ℝ) : Measurable (wt f α b) :=
  Real.measurable_exp.comp ((hf.sub_const b).const_mul α).neg

theorem lack_measurable {f : (ι → ℝ) → ℝ} (hf : Measurable f) (α b : ℝ) (N : ℕ) : Measurable (lack f α b N) :=
  Finset.measurable_sum _ fun n _ => ((wt_measurable hf α b).comp (measurable_pi_apply n)).const_sub 1

variable [DecidableEq ι]

/-- The mean of a quadratic function of the normal numbers. -/
theorem normal_quad {M N : ℕ} (i : Fin M) (u : ℕ → ℝ) (g w a c : ℕ → ι → ℝ) :
    Integrable (fun z => ∑ n ∈ Finset.range N, (u n + ∑ l, (g n l * (a n l + c n l * drawn M N z i n l) + w n l * (a n l + c n l * drawn M N z i n l) ^ 2))) (stdNormal (Fin M × Fin N × ι)) ∧
    ∫ z, ∑ n ∈ Finset.range N, (u n + ∑ l, (g n l * (a n l + c n l * drawn M N z i n l) + w n l * (a n l + c n l * drawn M N z i n l) ^ 2)) ∂stdNormal (Fin M × Fin N × ι) =
      ∑ n ∈ Finset.range N, (u n + ∑ l, (g n l * a n l + w n l * (a n l ^ 2 + c n l ^ 2))) := by
  haveI : IsProbabilityMeasure (stdNormal (Fin M × Fin N × ι)) := by unfold stdNormal; infer_instance
  have hz : ∀ (z : Fin M × Fin N × ι → ℝ) (n : Fin N) l, drawn M N z i n l = z (i, n, l) := by
    intro z n l
    simp [drawn]
  have key : ∀ (n : Fin N) l, Integrable (fun z : Fin M × Fin N × ι → ℝ => g n l * (a n l + c n l * z (i, n, l)) + w n l * (a n l + c n l * z (i, n, l)) ^ 2) (stdNormal (Fin M × Fin N × ι)) ∧
      ∫ z, (g n l * (a n l + c n l * z (i, n, l)) + w n l * (a n l + c n l * z (i, n, l)) ^ 2) ∂stdNormal (Fin M × Fin N × ι) = g n l * a n l + w n l * (a n l ^ 2 + c n l ^ 2) := by
    intro n l
    have e : (fun z : Fin M × Fin N × ι → ℝ => g n l * (a n l + c n l * z (i, n, l)) + w n l * (a n l + c n l * z (i, n, l)) ^ 2) =
        fun z => (g n l * a n l + w n l * a n l ^ 2) + (g n l * c n l + w n l * (2 * a n l * c n l)) * z (i, n, l) + w n l * c n l ^ 2 * (z (i, n, l) * z (i, n, l)) := by funext z; ring
    have i0 : Integrable (fun _ : Fin M × Fin N × ι → ℝ => g n l * a n l + w n l * a n l ^ 2) (stdNormal (Fin M × Fin N × ι)) := integrable_const _
    have i1 := (normal_mean (i, n, l)).1.const_mul (g n l * c n l + w n l * (2 * a n l * c n l))
    have i2 := (normal_moment (i, n, l) (i, n, l)).1.const_mul (w n l * c n l ^ 2)
    rw [e]
    have i01 : Integrable (fun z : Fin M × Fin N × ι → ℝ => (g n l * a n l + w n l * a n l ^ 2) + (g n l * c n l + w n l * (2 * a n l * c n l)) * z (i, n, l)) (stdNormal (Fin M × Fin N × ι)) := i0.add i1
    refine ⟨i01.add i2, ?_⟩
    rw [integral_add i01 i2, integral_add i0 i1, integral_const_mul, integral_const_mul, (normal_mean _).2, (normal_moment _ _).2, if_pos rfl]
    simp
    ring
  simp only [Finset.sum_range, hz]
  have k2 : ∀ n : Fin N, Integrable (fun z : Fin M × Fin N × ι → ℝ => u n + ∑ l, (g n l * (a n l + c n l * z (i, n, l)) + w n l * (a n l + c n l * z (i, n, l)) ^ 2)) (stdNormal (Fin M × Fin N × ι)) :=
    fun n => (integrable_const _).add (integrable_finsetSum _ fun l _ => (key n l).1)
  refine ⟨integrable_finsetSum _ fun n _ => k2 n, ?_⟩
  rw [integral_finsetSum _ fun n _ => k2 n]
  refine Finset.sum_congr rfl fun n _ => ?_
  rw [integral_add (integrable_const _) (integrable_finsetSum _ fun l _ => (key n l).1), integral_finsetSum _ fun l _ => (key n l).1]
  simp [(key n _).2]

variable {f : (ι → ℝ) → ℝ} {G : (ι → ℝ) → ι → ℝ} {L L' : ℝ} (hC : Curved f G L L') (hL : 0 ≤ L) (hL' : 0 ≤ L') {p : (ι → ℝ) → ι → ℝ} (hfp : ∀ v, f (p v) ≤ f v)
  {rule : (ι → ℝ) → (ι → ℝ) → ι → ℝ} {β : (ι → ℝ) → ι → ℝ} {κ : ℝ} (hr : RuleCoeff rule β κ) (hκ : 0 ≤ κ)
  {α lamda dt sigma b : ℝ} (hα : 0 ≤ α) (hb : ∀ x, b ≤ f x) (hla : 0 ≤ lamda) (hdt : 0 ≤ dt) {M N : ℕ} (hN : 0 < N) (i : Fin M) (y : ℕ → ι → ℝ)

include hC hL hL' hfp hr hκ hα hb hla hdt hN

/-- **One step.** On average the weights do not lose more than a multiple of the spread. -/
theorem row_lack : ∫⁻ z, ENNReal.ofReal (lack f α b N (rowNext f p β α lamda dt sigma i (List.range N) y z)) ∂stdNormal (Fin M × Fin N × ι) ≤
    ENNReal.ofReal (lack f α b N y) + ENNReal.ofReal (α * (lamda * dt * L' + L / 2 * ((lamda * dt) ^ 2 + κ * sigma ^ 2 * dt)) * (1 / (2 * N)) * spread (oneRow y) N 0) := by
  set c := rowCons f α (List.range N) y with hc
  set a : ℕ → ι → ℝ := fun n l => -(lamda * dt * (y n l - c l)) with ha
  set e : ℕ → ι → ℝ := fun n l => sigma * (Real.sqrt dt * β (fun l => y n l - c l) l) with he
  set φ : ℕ → ℝ := fun n => wt f α b (y n) with hφ
  have φ0 : ∀ n, 0 ≤ φ n := fun n => (wt_pos _ _ _ _).le
  obtain ⟨hi, hint⟩ := normal_quad (M := M) (N := N) i (fun n => 1 - φ n) (fun n l => α * φ n * G (y n) l) (fun n _ => α * φ n * (L / 2)) a e
  have hpt : ∀ z, lack f α b N (rowNext f p β α lamda dt sigma i (List.range N) y z) ≤
      ∑ n ∈ Finset.range N, ((1 - φ n) + ∑ l, (α * φ n * G (y n) l * (a n l + e n l * drawn M N z i n l) + α * φ n * (L / 2) * (a n l + e n l * drawn M N z i n l) ^ 2)) := by
    intro z
    refine Finset.sum_le_sum fun n _ => ?_
    set x' : ι → ℝ := fun l => (y n l - lamda * dt * (y n l - c l)) + (sigma * (Real.sqrt dt * β (fun l => y n l - c l) l)) * drawn M N z i n l with hx'
    have hh : ∀ l, x' l - y n l = a n l + e n l * drawn M N z i n l := fun l => by simp only [hx', ha, he]; ring
    have h1 := hC.upper (y n) x'
    have h2 : f (rowNext f p β α lamda dt sigma i (List.range N) y z n) ≤ f x' := hfp x'
    simp only [hh] at h1
    set t : ℝ := ∑ l, G (y n) l * (a n l + e n l * drawn M N z i n l) + L / 2 * ∑ l, (a n l + e n l * drawn M N z i n l) ^ 2 with ht
    have h3 : φ n * (1 - α * t) ≤ wt f α b (rowNext f p β α lamda dt sigma i (List.range N) y z n) := by
      have h4 : 1 - α * t ≤ Real.exp (-(α * t)) := by have := Real.add_one_le_exp (-(α * t)); linarith
      refine (mul_le_mul_of_nonneg_left h4 (φ0 n)).trans ?_
      simp only [hφ, wt]
      rw [← Real.exp_add]
      refine Real.exp_le_exp.2 ?_
      have h5 : f (rowNext f p β α lamda dt sigma i (List.range N) y z n) ≤ f (y n) + t := by linarith
      have := mul_le_mul_of_nonneg_left h5 hα
      linarith
    have h6 : ∑ l, (α * φ n * G (y n) l * (a n l + e n l * drawn M N z i n l) + α * φ n * (L / 2) * (a n l + e n l * drawn M N z i n l) ^ 2) = φ n * (α * t) := by
      rw [Finset.sum_add_distrib, ht]
      simp only [mul_assoc, ← Finset.mul_sum]
      ring
    rw [h6]
    linarith
  have hval : ∑ n ∈ Finset.range N, ((1 - φ n) + ∑ l, (α * φ n * G (y n) l * a n l + α * φ n * (L / 2) * (a n l ^ 2 + e n l ^ 2))) ≤
      lack f α b N y + α * (lamda * dt * L' + L / 2 * ((lamda * dt) ^ 2 + κ * sigma ^ 2 * dt)) * (1 / (2 * N)) * spread (oneRow y) N 0 := by
    have h7 : ∀ n, ∑ l, (α * φ n * G (y n) l * a n l + α * φ n * (L / 2) * (a n l ^ 2 + e n l ^ 2)) =
        -(α * (lamda * dt)) * (φ n * ∑ l, G (y n) l * (y n l - c l)) + α * (L / 2) * ((lamda * dt) ^ 2 + κ * sigma ^ 2 * dt) * (φ n * ∑ l, (y n l - c l) ^ 2) := by
      intro n
      have h8 : ∑ l, (a n l ^ 2 + e n l ^ 2) = ((lamda * dt) ^ 2 + κ * sigma ^ 2 * dt) * ∑ l, (y n l - c l) ^ 2 := by
        have := hr.sq fun l => y n l - c l
        simp only [ha, he, neg_sq, mul_pow, Finset.sum_add_distrib, ← Finset.mul_sum, this, Real.sq_sqrt hdt]
        ring
      have h9 : ∑ l, α * φ n * G (y n) l * a n l = -(α * (lamda * dt)) * (φ n * ∑ l, G (y n) l * (y n l - c l)) := by
        simp only [Finset.mul_sum]
        exact Finset.sum_congr rfl fun l _ => by simp only [ha]; ring
      rw [Finset.sum_add_distrib, ← Finset.mul_sum, h8, h9]
      ring
    have h10 : -(L' * ∑ n ∈ Finset.range N, φ n * ∑ l, (y n l - c l) ^ 2) ≤ ∑ n ∈ Finset.range N, φ n * ∑ l, G (y n) l * (y n l - c l) := by
      have h11 : ∑ n ∈ Finset.range N, φ n * ∑ l, G c l * (y n l - c l) = 0 := by
        have : ∀ n, φ n * ∑ l, G c l * (y n l - c l) = ∑ l, G c l * (φ n * (y n l - c l)) := fun n => by
          rw [Finset.mul_sum]
          exact Finset.sum_congr rfl fun l _ => by ring
        simp only [this]
        rw [Finset.sum_comm]
        simp only [← Finset.mul_sum, hφ, hc, wt_centre f α b hN y, mul_zero, Finset.sum_const_zero]
      have h12 : ∑ n ∈ Finset.range N, φ n * (∑ l, G c l * (y n l - c l) - L' * ∑ l, (y n l - c l) ^ 2) ≤ ∑ n ∈ Finset.range N, φ n * ∑ l, G (y n) l * (y n l - c l) :=
        Finset.sum_le_sum fun n _ => mul_le_mul_of_nonneg_left (hC.mono (y n) c) (φ0 n)
      have h13 : ∑ n ∈ Finset.range N, φ n * (∑ l, G c l * (y n l - c l) - L' * ∑ l, (y n l - c l) ^ 2) =
          ∑ n ∈ Finset.range N, φ n * ∑ l, G c l * (y n l - c l) - L' * ∑ n ∈ Finset.range N, φ n * ∑ l, (y n l - c l) ^ 2 := by
        rw [Finset.mul_sum, ← Finset.sum_sub_distrib]
        exact Finset.sum_congr rfl fun n _ => by ring
      rw [h13, h11] at h12
      linarith
    have h14 := wt_dist hα hb hN y
    rw [Finset.sum_add_distrib, Finset.sum_congr rfl fun n _ => h7 n, Finset.sum_add_distrib, ← Finset.mul_sum, ← Finset.mul_sum]
    have h15 := mul_le_mul_of_nonneg_left h10 (show 0 ≤ α * (lamda * dt) by positivity)
    have h16 := mul_le_mul_of_nonneg_left h14 (show 0 ≤ α * (lamda * dt * L' + L / 2 * ((lamda * dt) ^ 2 + κ * sigma ^ 2 * dt)) by positivity)
    simp only [lack]
    change _ ≤ _ at h16
    simp only [← hc, ← hφ] at h16
    show _ + _ ≤ ∑ n ∈ Finset.range N, (1 - φ n) + _
    generalize ∑ n ∈ Finset.range N, φ n * ∑ l, G (y n) l * (y n l - c l) = X at *
    generalize ∑ n ∈ Finset.range N, φ n * ∑ l, (y n l - c l) ^ 2 = Y at *
    linarith
  calc _ ≤ ∫⁻ z, ENNReal.ofReal (∑ n ∈ Finset.range N, ((1 - φ n) + ∑ l, (α * φ n * G (y n) l * (a n l + e n l * drawn M N z i n l) + α * φ n * (L / 2) * (a n l + e n l * drawn M N z i n l) ^ 2)))
        ∂stdNormal (Fin M × Fin N × ι) := lintegral_mono fun z => ENNReal.ofReal_le_ofReal (hpt z)
    _ = ENNReal.ofReal (∫ z, ∑ n ∈ Finset.range N, ((1 - φ n) + ∑ l, (α * φ n * G (y n) l * (a n l + e n l * drawn M N z i n l) + α * φ n * (L / 2) * (a n l + e n l * drawn M N z i n l) ^ 2))
        ∂stdNormal (Fin M × Fin N × ι)) :=
        (ofReal_integral_eq_lintegral_ofReal hi (Filter.Eventually.of_forall fun z => (lack_nonneg hα hb N _).trans (hpt z))).symm
    _ ≤ ENNReal.ofReal (lack f α b N y + α * (lamda * dt * L' + L / 2 * ((lamda * dt) ^ 2 + κ * sigma ^ 2 * dt)) * (1 / (2 * N)) * spread (oneRow y) N 0) := by
        rw [hint]
        exact ENNReal.ofReal_le_ofReal hval
    _ ≤ _ := ENNReal.ofReal_add_le

variable {Ω : Type} [MeasurableSpace Ω] {P : Measure Ω} [IsProbabilityMeasure P] {Z : ℕ → Ω → Fin M × Fin N × ι → ℝ} (hZ : IidNormal P Z) (hp : Measurable p) (hβ : Measurable β)
  {q : ℝ} (hq0 : 0 ≤ q) (hq1 : q < 1)
  (hS : ∀ k, ∫⁻ ω, ENNReal.ofReal (spread (oneRow (recur (fun _ => rowNext f p β α lamda dt sigma i (List.range N)) y (fun j => Z j ω) k)) N 0) ∂P ≤ ENNReal.ofReal (q ^ k * spread (oneRow y) N 0))

include hZ hp hβ hq0 hq1 hS

/-- **All steps.** -/
theorem rows_lack (k : ℕ) : ∫⁻ ω, ENNReal.ofReal (lack f α b N (recur (fun _ => rowNext f p β α lamda dt sigma i (List.range N)) y (fun j => Z j ω) k)) ∂P ≤
    ENNReal.ofReal (lack f α b N y + α * (lamda * dt * L' + L / 2 * ((lamda * dt) ^ 2 + κ * sigma ^ 2 * dt)) * (1 / (2 * N)) * spread (oneRow y) N 0 / (1 - q)) := by
  have hf := hC.continuous.measurable
  set E : ℝ := α * (lamda * dt * L' + L / 2 * ((lamda * dt) ^ 2 + κ * sigma ^ 2 * dt)) * (1 / (2 * N)) with hE
  have hE0 : 0 ≤ E := by rw [hE]; positivity
  have hsp : 0 ≤ spread (oneRow y) N 0 := Finset.sum_nonneg fun _ _ => Finset.sum_nonneg fun _ _ => Finset.sum_nonneg fun _ _ => sq_nonneg _
  have mΦ : ∀ _ : ℕ, Measurable fun q : (ℕ → ι → ℝ) × (Fin M × Fin N × ι → ℝ) => rowNext f p β α lamda dt sigma i (List.range N) q.1 q.2 := fun _ => rowNext_measurable hf hp hβ α lamda dt sigma i _
  have mX : ∀ k, Measurable fun ω => recur (fun _ => rowNext f p β α lamda dt sigma i (List.range N)) y (fun j => Z j ω) k := fun k => (recur_measurable mΦ y k).comp (measurable_pi_lambda _ hZ.meas)
  have key : ∀ k, ∫⁻ ω, ENNReal.ofReal (lack f α b N (recur (fun _ => rowNext f p β α lamda dt sigma i (List.range N)) y (fun j => Z j ω) k)) ∂P ≤
      ENNReal.ofReal (lack f α b N y + E * spread (oneRow y) N 0 * ∑ j ∈ Finset.range k, q ^ j) := by
    intro k
    induction k with
    | zero => simp [recur]
    | succ k ih =>
      have h1 := recur_step (P := P) mΦ y hZ.meas hZ.indep hZ.law k (F := fun q => ENNReal.ofReal (lack f α b N (rowNext f p β α lamda dt sigma i (List.range N) q.1 q.2)))
        ((lack_measurable hf α b N).comp (mΦ 0)).ennreal_ofReal (G := fun x => ENNReal.ofReal (lack f α b N x) + ENNReal.ofReal E * ENNReal.ofReal (spread (oneRow x) N 0)) fun x => by
          rw [← ENNReal.ofReal_mul hE0]
          exact row_lack hC hL hL' hfp hr hκ hα hb hla hdt hN i x
      have mL : Measurable fun ω => ENNReal.ofReal (lack f α b N (recur (fun _ => rowNext f p β α lamda dt sigma i (List.range N)) y (fun j => Z j ω) k)) := ((lack_measurable hf α b N).comp (mX k)).ennreal_ofReal
      have mV : Measurable fun ω => ENNReal.ofReal (spread (oneRow (recur (fun _ => rowNext f p β α lamda dt sigma i (List.range N)) y (fun j => Z j ω) k)) N 0) := ((spread_measurable N).comp (mX k)).ennreal_ofReal
      rw [lintegral_add_left mL, lintegral_const_mul _ mV] at h1
      calc _ ≤ _ := h1
        _ ≤ ENNReal.ofReal (lack f α b N y + E * spread (oneRow y) N 0 * ∑ j ∈ Finset.range k, q ^ j) + ENNReal.ofReal E * ENNReal.ofReal (q ^ k * spread (oneRow y) N 0) := by
          exact add_le_add ih (mul_le_mul_right (hS k) _)
        _ = _ := by
          have h0 := lack_nonneg hα hb N y
          have h2 : 0 ≤ ∑ j ∈ Finset.range k, q ^ j := Finset.sum_nonneg fun j _ => pow_nonneg hq0 j
          rw [← ENNReal.ofReal_mul hE0, ← ENNReal.ofReal_add (by positivity) (by positivity), Finset.sum_range_succ]
          congr 1
          ring
  refine (key k).trans (ENNReal.ofReal_le_ofReal ?_)
  have h3 : ∑ j ∈ Finset.range k, q ^ j ≤ 1 / (1 - q) := by
    have h4 : (∑ j ∈ Finset.range k, q ^ j) * (1 - q) = 1 - q ^ k := by
      have := geom_sum_mul q k
      linarith
    rw [le_div_iff₀ (by linarith), h4]
    have := pow_nonneg hq0 k
    linarith
  have h5 := mul_le_mul_of_nonneg_left h3 (mul_nonneg hE0 hsp)
  rw [mul_one_div] at h5
  linarith

/-- **The limit.** -/
theorem row_limit (hconv : ∀ᵐ ω ∂P, ∃ v : ι → ℝ, ∀ n < N, Tendsto (fun k => recur (fun _ => rowNext f p β α lamda dt sigma i (List.range N)) y (fun j => Z j ω) k n) atTop (𝓝 v)) :
    ∃ v : Ω → ι → ℝ, Measurable v ∧ (∀ᵐ ω ∂P, ∀ n < N, Tendsto (fun k => recur (fun _ => rowNext f p β α lamda dt sigma i (List.range N)) y (fun j => Z j ω) k n) atTop (𝓝 (v ω))) ∧
      (1 / (N : ℝ)) * ∑ n ∈ Finset.range N, wt f α b (y n) - α * (lamda * dt * L' + L / 2 * ((lamda * dt) ^ 2 + κ * sigma ^ 2 * dt)) * (spread (oneRow y) N 0 / (2 * (N : ℝ) ^ 2)) / (1 - q) ≤ ∫ ω, wt f α b (v ω) ∂P := by
  have hf := hC.continuous.measurable
  have hN' : (0 : ℝ) < N := by exact_mod_cast hN
  have mΦ : ∀ _ : ℕ, Measurable fun q : (ℕ → ι → ℝ) × (Fin M × Fin N × ι → ℝ) => rowNext f p β α lamda dt sigma i (List.range N) q.1 q.2 := fun _ => rowNext_measurable hf hp hβ α lamda dt sigma i _
  set X : ℕ → Ω → ℕ → ι → ℝ := fun k ω => recur (fun _ => rowNext f p β α lamda dt sigma i (List.range N)) y (fun j => Z j ω) k with hX
  have mX : ∀ k, Measurable (X k) := fun k => (recur_measurable mΦ y k).comp (measurable_pi_lambda _ hZ.meas)
  obtain ⟨v, mv, hv⟩ := measurable_limit_of_tendsto_metrizable_ae (μ := P) (f := fun k ω => X k ω 0) (L := atTop) (fun k => ((measurable_pi_apply 0).comp (mX k)).aemeasurable)
    (hconv.mono fun ω ⟨v, h⟩ => ⟨v, h 0 hN⟩)
  have hall : ∀ᵐ ω ∂P, ∀ n < N, Tendsto (fun k => X k ω n) atTop (𝓝 (v ω)) := by
    filter_upwards [hconv, hv] with ω ⟨w, h1⟩ h2 n hn
    rw [tendsto_nhds_unique h2 (h1 0 hN)]
    exact h1 n hn
  refine ⟨v, mv, hall, ?_⟩
  set R : ℝ := lack f α b N y + α * (lamda * dt * L' + L / 2 * ((lamda * dt) ^ 2 + κ * sigma ^ 2 * dt)) * (1 / (2 * N)) * spread (oneRow y) N 0 / (1 - q) with hR
  have hsp : 0 ≤ spread (oneRow y) N 0 := Finset.sum_nonneg fun _ _ => Finset.sum_nonneg fun _ _ => Finset.sum_nonneg fun _ _ => sq_nonneg _
  have hR0 : 0 ≤ R := by
    have h0 := lack_nonneg hα hb N y
    have h1 : 0 < 1 - q := by linarith
    rw [hR]
    positivity
  have hwc : Continuous (wt f α b) := by unfold wt; exact Real.continuous_exp.comp ((hC.continuous.sub continuous_const).const_mul α |>.neg)
  have hlim : ∀ᵐ ω ∂P, Tendsto (fun k => ENNReal.ofReal (lack f α b N (X k ω))) atTop (𝓝 (ENNReal.ofReal (N * (1 - wt f α b (v ω))))) := by
    filter_upwards [hall] with ω h
    refine ENNReal.tendsto_ofReal ?_
    have h1 : Tendsto (fun k => ∑ n ∈ Finset.range N, (1 - wt f α b (X k ω n))) atTop (𝓝 (∑ n ∈ Finset.range N, (1 - wt f α b (v ω)))) :=
      tendsto_finset_sum _ fun n hn => (hwc.tendsto (v ω) |>.comp (h n (Finset.mem_range.1 hn))).const_sub 1
    rw [Finset.sum_const, Finset.card_range, nsmul_eq_mul] at h1
    exact h1
  have hFatou : ∫⁻ ω, ENNReal.ofReal (N * (1 - wt f α b (v ω))) ∂P ≤ ENNReal.ofReal R := by
    calc _ = ∫⁻ ω, liminf (fun k => ENNReal.ofReal (lack f α b N (X k ω))) atTop ∂P := lintegral_congr_ae (hlim.mono fun ω h => h.liminf_eq.symm)
      _ ≤ liminf (fun k => ∫⁻ ω, ENNReal.ofReal (lack f α b N (X k ω)) ∂P) atTop := lintegral_liminf_le fun k => ((lack_measurable hf α b N).comp (mX k)).ennreal_ofReal
      _ ≤ _ := by
        refine liminf_le_of_le (by isBoundedDefault) fun t ht => ?_
        obtain ⟨k, hk⟩ := ht.exists
        exact hk.trans (rows_lack hC hL hL' hfp hr hκ hα hb hla hdt hN i y hZ hp hβ hq0 hq1 hS k)
  have hwi : Integrable (fun ω => wt f α b (v ω)) P := by
    refine Integrable.of_bound ((wt_measurable hf α b).comp mv).aestronglyMeasurable 1 (Filter.Eventually.of_forall fun ω => ?_)
    rw [Real.norm_eq_abs, abs_of_pos (wt_pos _ _ _ _)]
    exact wt_le_one hα hb _
  have hni : Integrable (fun ω => (N : ℝ) * (1 - wt f α b (v ω))) P := ((integrable_const 1).sub hwi).const_mul (N : ℝ)
  rw [← ofReal_integral_eq_lintegral_ofReal hni (Filter.Eventually.of_forall fun ω => mul_nonneg hN'.le (sub_nonneg.2 (wt_le_one hα hb _))),
    ENNReal.ofReal_le_ofReal_iff hR0, integral_const_mul, integral_sub (integrable_const 1) hwi] at hFatou
  simp only [integral_const, probReal_univ, smul_eq_mul, mul_one] at hFatou
  have e1 : lack f α b N y = N - ∑ n ∈ Finset.range N, wt f α b (y n) := by simp [lack]
  rw [hR, e1] at hFatou
  have h6 : (1 / (N : ℝ)) * (N * (1 - ∫ ω, wt f α b (v ω) ∂P)) ≤ (1 / (N : ℝ)) * (N - ∑ n ∈ Finset.range N, wt f α b (y n) +
      α * (lamda * dt * L' + L / 2 * ((lamda * dt) ^ 2 + κ * sigma ^ 2 * dt)) * (1 / (2 * N)) * spread (oneRow y) N 0 / (1 - q)) := mul_le_mul_of_nonneg_left hFatou (by positivity)
  have e2 : (1 / (N : ℝ)) * (N * (1 - ∫ ω, wt f α b (v ω) ∂P)) = 1 - ∫ ω, wt f α b (v ω) ∂P := by field_simp
  have h1q : (1 - q) ≠ 0 := by linarith
  have e3 : (1 / (N : ℝ)) * (N - ∑ n ∈ Finset.range N, wt f α b (y n) + α * (lamda * dt * L' + L / 2 * ((lamda * dt) ^ 2 + κ * sigma ^ 2 * dt)) * (1 / (2 * N)) * spread (oneRow y) N 0 / (1 - q)) =
      1 - (1 / (N : ℝ)) * ∑ n ∈ Finset.range N, wt f α b (y n) + α * (lamda * dt * L' + L / 2 * ((lamda * dt) ^ 2 + κ * sigma ^ 2 * dt)) * (spread (oneRow y) N 0 / (2 * (N : ℝ) ^ 2)) / (1 - q) := by
    field_simp
  rw [e2, e3] at h6
  linarith

end Verif
