import Verif.Proofs.RoundedErr
import Mathlib.Algebra.Order.Chebyshev

/-! Rounding error analysis of the effective sample size. -/

set_option linter.unusedSectionVars false

namespace Verif

variable {n : ℕ}

theorem lse_lipschitz [NeZero n] {w w' : Fin n → ℝ} {δ : ℝ} (h : ∀ i, |w i - w' i| ≤ δ) :
    |Real.log (∑ i, Real.exp (w i)) - Real.log (∑ i, Real.exp (w' i))| ≤ δ := by
  have i₀ : Fin n := ⟨0, Nat.pos_of_ne_zero (NeZero.ne n)⟩
  have key : ∀ a b : Fin n → ℝ, (∀ i, a i ≤ b i + δ) → Real.log (∑ i, Real.exp (a i)) ≤ Real.log (∑ i, Real.exp (b i)) + δ := by
    intro a b hab
    have hb : 0 < ∑ i, Real.exp (b i) := Finset.sum_pos (fun _ _ => Real.exp_pos _) ⟨i₀, Finset.mem_univ _⟩
    have ha : 0 < ∑ i, Real.exp (a i) := Finset.sum_pos (fun _ _ => Real.exp_pos _) ⟨i₀, Finset.mem_univ _⟩
    rw [← Real.log_exp δ, ← Real.log_mul hb.ne' (Real.exp_pos δ).ne']
    refine Real.log_le_log ha ?_
    rw [Finset.sum_mul]
    exact Finset.sum_le_sum fun i _ => by rw [← Real.exp_add, Real.exp_le_exp]; exact hab i
  have h1 := key w w' fun i => by linarith [(abs_le.1 (h i)).2]
  have h2 := key w' w fun i => by linarith [(abs_le.1 (h i)).1]
  exact abs_le.2 ⟨by linarith, by linarith⟩

/-- `logsumexp` of rounded weights. -/
theorem lse_weights {A : Arith} {u η W : ℝ} (S : StdModel A u η) [NeZero n] {t : SumTree (Fin n)} (ht : t.Covers) {w w' : Fin n → ℝ}
    (hW : ∀ i, |w' i| ≤ W) (hw : ∀ i, |w i - w' i| ≤ u * W + η) (hv : u * W + 16 * ((n : ℝ) ^ 2 * (u + η)) ≤ 1) :
    |A.lse t w - Real.log (∑ i, Real.exp (w' i))| ≤ 2 * (u * W) + 16 * ((n : ℝ) ^ 2 * (u + η)) := by
  have hu := S.u_nonneg
  have hη := S.η_nonneg
  have i₀ : Fin n := ⟨0, Nat.pos_of_ne_zero (NeZero.ne n)⟩
  have hW0 : 0 ≤ W := (abs_nonneg _).trans (hW i₀)
  have huW : 0 ≤ u * W := mul_nonneg hu hW0
  have hn : (1 : ℝ) ≤ n := by exact_mod_cast Nat.one_le_iff_ne_zero.2 (NeZero.ne n)
  have hn2 : (1 : ℝ) ≤ (n : ℝ) ^ 2 := by nlinarith
  have hv1 : u + η ≤ (n : ℝ) ^ 2 * (u + η) := by nlinarith
  have hm : ∀ i, |w i| ≤ W + (u * W + η) := fun i => by
    have := abs_add_le (w i - w' i) (w' i)
    rw [sub_add_cancel] at this
    linarith [hw i, hW i]
  have h1 := lse_err S ht w (by linarith)
  have h2 := lse_lipschitz hw
  have h3 := mul_le_mul_of_nonneg_left (iSup_abs_le hm) hu
  have h4 := abs_add_le (A.lse t w - Real.log (∑ i, Real.exp (w i))) (Real.log (∑ i, Real.exp (w i)) - Real.log (∑ i, Real.exp (w' i)))
  rw [sub_add_sub_cancel] at h4
  have h5 : u * (W + (u * W + η)) ≤ u * W + u := by
    have : u * (u * W + η) ≤ u * 1 := mul_le_mul_of_nonneg_left (by linarith) hu
    linarith
  linarith

/-- The exact effective sample size lies between `1` and `n` and is the exponential the code computes. -/
theorem exactEss_facts [NeZero n] (alpha : ℝ) (e : Fin n → ℝ) : 1 ≤ exactEss alpha e ∧ exactEss alpha e ≤ n ∧
    Real.log (exactEss alpha e) = 2 * Real.log (∑ i, Real.exp (-alpha * e i)) - Real.log (∑ i, Real.exp (-2 * alpha * e i)) := by
  have i₀ : Fin n := ⟨0, Nat.pos_of_ne_zero (NeZero.ne n)⟩
  have hpos : 0 < ∑ i, Real.exp (-alpha * e i) ^ 2 := Finset.sum_pos (fun i _ => by positivity) ⟨i₀, Finset.mem_univ _⟩
  have hpos1 : 0 < ∑ i, Real.exp (-alpha * e i) := Finset.sum_pos (fun i _ => by positivity) ⟨i₀, Finset.mem_univ _⟩
  have e1 : ∑ i, Real.exp (-2 * alpha * e i) = ∑ i, Real.exp (-alpha * e i) ^ 2 := Finset.sum_congr rfl fun i _ => by
    rw [← Real.exp_nat_mul]
    congr 1
    push_cast
    ring
  refine ⟨?_, ?_, ?_⟩
  · unfold exactEss
    rw [one_le_div hpos]
    exact Finset.sum_sq_le_sq_sum_of_nonneg fun i _ => (Real.exp_pos _).le
  · unfold exactEss
    rw [div_le_iff₀ hpos]
    have := sq_sum_le_card_mul_sum_sq (s := (Finset.univ : Finset (Fin n))) (f := fun i => Real.exp (-alpha * e i))
    rwa [Finset.card_univ, Fintype.card_fin] at this
  · unfold exactEss
    rw [Real.log_div (by positivity) hpos.ne', Real.log_pow, e1]
    push_cast
    ring

end Verif
