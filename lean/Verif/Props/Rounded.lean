import Verif.Proofs.RoundedErr

/-! Property C86: the consensus point computed in floating point arithmetic. -/

set_option linter.unusedSectionVars false

namespace Verif

variable {n : ℕ}

/-- **C86 (default rule, bounded weights).** In every arithmetic with relative error `u` and underflow error `η`, for every order of the additions: if `|alpha * energy| ≤ W` for all particles and
`10 u W + 130 n² (u + η) ≤ 1`, then every coordinate of the computed consensus point differs from that of the exact one by at most `(10 u W + 130 n² (u + η)) X + 2 n η`, where `X` bounds the
coordinates of the particles. If the first factor is at most `1/11`, the optional check of the coefficients does not raise. What is missing: weights with `u W > 1/10`, see `C86_lost`. -/
theorem C86_default_partial (A : Arith) (u η : ℝ) (S : StdModel A u η) [NeZero n] (t t' : SumTree (Fin n)) (ht : t.Covers) (ht' : t'.Covers) (alpha W X : ℝ) (e x : Fin n → ℝ)
    (hW : ∀ i, |alpha * e i| ≤ W) (hX : ∀ i, |x i| ≤ X) (hv : 10 * (u * W) + 130 * ((n : ℝ) ^ 2 * (u + η)) ≤ 1) :
    |A.consensus t t' alpha e x - ∑ i, gibbsWeight alpha e i * x i| ≤ (10 * (u * W) + 130 * ((n : ℝ) ^ 2 * (u + η))) * X + 2 * (n * η) ∧
      (10 * (u * W) + 130 * ((n : ℝ) ^ 2 * (u + η)) ≤ 1 / 11 → ¬ A.checkRaises t' (A.coeffs t (A.weights alpha e))) := by
  have hu := S.u_nonneg
  have hη := S.η_nonneg
  have i₀ : Fin n := ⟨0, Nat.pos_of_ne_zero (NeZero.ne n)⟩
  have huW : 0 ≤ u * W := mul_nonneg hu ((abs_nonneg _).trans (hW i₀))
  have hX0 : 0 ≤ X := (abs_nonneg _).trans (hX i₀)
  have hn : (1 : ℝ) ≤ n := by exact_mod_cast Nat.one_le_iff_ne_zero.2 (NeZero.ne n)
  have hnn : (n : ℝ) ≤ (n : ℝ) ^ 2 := by nlinarith
  have hNv : (n : ℝ) * (u + η) ≤ (n : ℝ) ^ 2 * (u + η) := mul_le_mul_of_nonneg_right hnn (by linarith)
  have hNu : (n : ℝ) * u ≤ (n : ℝ) * (u + η) := mul_le_mul_of_nonneg_left (by linarith) (by linarith)
  have hu1 : u ≤ n * u := by nlinarith
  have h0 : 0 ≤ (n : ℝ) * u := by positivity
  obtain ⟨h1, h2⟩ := weighted_err S ht' (by linarith) (by linarith) (gibbsWeight_sum alpha e) (fun i => S.exp_nonneg _) (default_coeffs S ht hW hv) hX hX0
    (by linarith) hn
  refine ⟨h2.trans ?_, fun hs hc => ?_⟩
  · have := mul_le_mul_of_nonneg_right (show 10 * (u * W) + 106 * ((n : ℝ) ^ 2 * (u + η)) + n * (6 * (u + η)) + 15 * (n * u) ≤
      10 * (u * W) + 130 * ((n : ℝ) ^ 2 * (u + η)) by linarith) hX0
    linarith
  · unfold Arith.checkRaises at hc
    have h3 := S.sub (t'.eval A.add (A.coeffs t (A.weights alpha e))) 1
    have h4 := abs_add_le (A.sub (t'.eval A.add (A.coeffs t (A.weights alpha e))) 1 - (t'.eval A.add (A.coeffs t (A.weights alpha e)) - 1))
      (t'.eval A.add (A.coeffs t (A.weights alpha e)) - 1)
    rw [sub_add_cancel] at h4
    have h5 : |t'.eval A.add (A.coeffs t (A.weights alpha e)) - 1| ≤ 1 / 11 := le_trans h1 (by linarith)
    have h6 := mul_le_mul (show u ≤ 1 / 11 by linarith) h5 (abs_nonneg _) (by norm_num)
    linarith

/-- **C86 (rescaled rule).** The rule of `HyperSurfaceCBO`, which subtracts the smallest energy first, needs no bound on the energies: for all energies, all `alpha ≥ 0` and all orders of the
additions, the computed consensus point differs from the exact one by at most `100 n² (u + η) X + 2 n η`, as soon as `100 n² (u + η) ≤ 1`. -/
theorem C86_rescaled (A : Arith) (u η : ℝ) (S : StdModel A u η) [NeZero n] (t t' : SumTree (Fin n)) (ht : t.Covers) (ht' : t'.Covers) (alpha X : ℝ) (e x : Fin n → ℝ)
    (ha : 0 ≤ alpha) (hX : ∀ i, |x i| ≤ X) (hv : 100 * ((n : ℝ) ^ 2 * (u + η)) ≤ 1) :
    |A.rescaled t t' alpha e x - ∑ i, gibbsWeight alpha e i * x i| ≤ 100 * ((n : ℝ) ^ 2 * (u + η)) * X + 2 * (n * η) := by
  have hu := S.u_nonneg
  have hη := S.η_nonneg
  have i₀ : Fin n := ⟨0, Nat.pos_of_ne_zero (NeZero.ne n)⟩
  have hX0 : 0 ≤ X := (abs_nonneg _).trans (hX i₀)
  have hn : (1 : ℝ) ≤ n := by exact_mod_cast Nat.one_le_iff_ne_zero.2 (NeZero.ne n)
  have hnn : (n : ℝ) ≤ (n : ℝ) ^ 2 := by nlinarith
  have hNv : (n : ℝ) * (u + η) ≤ (n : ℝ) ^ 2 * (u + η) := mul_le_mul_of_nonneg_right hnn (by linarith)
  have hNu : (n : ℝ) * u ≤ (n : ℝ) * (u + η) := mul_le_mul_of_nonneg_left (by linarith) (by linarith)
  have hu1 : u ≤ n * u := by nlinarith
  have h0 : 0 ≤ (n : ℝ) * u := by positivity
  obtain ⟨-, h2⟩ := weighted_err S ht' (by linarith) (by linarith) (gibbsWeight_sum alpha e) (fun i => S.exp_nonneg _) (rescaled_coeffs S ht ha hv) hX hX0
    (by linarith) hn
  refine h2.trans ?_
  have := mul_le_mul_of_nonneg_right (show 54 * ((n : ℝ) ^ 2 * (u + η)) + n * (24 * (u + η)) + 15 * (n * u) ≤ 100 * ((n : ℝ) ^ 2 * (u + η)) by linarith) hX0
  linarith

/-- **C86 (what happens for large weights).** Binary floating point arithmetic with `p` bits, rounding to nearest: if all particles have the same weight `w = - alpha * energy`, and it is so large
that `log n` is below half a unit in its last place (`|log n| < 2^k` and `2^(p+1+k) ≤ |w|`), then `logsumexp` returns `w`, every coefficient is `1` instead of `1/n`, and the consensus point is the sum
of the particles instead of their mean. -/
theorem C86_lost (p : ℕ) (hp : 1 ≤ p) (rd : ℝ → ℝ) (h : RoundNearest p rd) [NeZero n] (hn : n ≤ 2 ^ p) (t t' : SumTree (Fin n)) (ht : t.Covers) (alpha : ℝ) (e x : Fin n → ℝ) (w : ℝ)
    (k : ℕ) (hw : ∀ i, (Arith.ofRound rd).weights alpha e i = w) (hk : |rd (Real.log n)| < 2 ^ k) (hbig : (2 : ℝ) ^ (p + 1 + k) ≤ |w|) :
    (∀ i, (Arith.ofRound rd).coeffs t ((Arith.ofRound rd).weights alpha e) i = 1) ∧
      (Arith.ofRound rd).consensus t t' alpha e x = t'.eval (Arith.ofRound rd).add fun i => rd (x i) := by
  have hwe : (Arith.ofRound rd).weights alpha e = fun _ => w := funext hw
  have i₀ : Fin n := ⟨0, Nat.pos_of_ne_zero (NeZero.ne n)⟩
  have : Nonempty (Fin n) := ⟨i₀⟩
  have hfl : IsFloat p w := by rw [← hw i₀]; exact (h _).1
  have h0 : rd 0 = 0 := h.fix ⟨0, 0, by simp, by simp⟩
  have h1 : rd 1 = 1 := h.fix (by simpa using isFloat_int (m := 1) hp (by simpa using one_le_pow₀ (by norm_num : (1 : ℤ) ≤ 2)))
  have hsub : (Arith.ofRound rd).sub w w = 0 := by simp [Arith.ofRound, h0]
  have hexp : (Arith.ofRound rd).exp 0 = 1 := by simp [Arith.ofRound, h1]
  have hsum : t.eval (Arith.ofRound rd).add (fun _ => (1 : ℝ)) = n := by
    have := sum_ones hp h t (by rw [ht.length_eq, List.length_finRange]; exact hn)
    rw [this, ht.length_eq, List.length_finRange]
  have hlse : (Arith.ofRound rd).lse t (fun _ => w) = w := by
    unfold Arith.lse
    simp only [ciSup_const, hsub, hexp]
    rw [hsum]
    exact h.absorb hp hfl hbig hk
  have hc : ∀ i, (Arith.ofRound rd).coeffs t ((Arith.ofRound rd).weights alpha e) i = 1 := by
    intro i
    rw [hwe]
    unfold Arith.coeffs
    rw [hlse, hsub, hexp]
  refine ⟨hc, ?_⟩
  unfold Arith.consensus
  congr 1
  funext i
  rw [hc i]
  simp [Arith.ofRound]

/-- **C86 (false).** In every binary floating point arithmetic with rounding to nearest, for every number `2 ≤ n ≤ 2^p` of particles, all at `1` and with the same (large) energy: the exact consensus
point is `1`, the computed one is `n`. The optional check would raise. -/
theorem C86_false (p : ℕ) (hp : 1 ≤ p) (rd : ℝ → ℝ) (h : RoundNearest p rd) [NeZero n] (h2 : 2 ≤ n) (hn : n ≤ 2 ^ p) (t t' : SumTree (Fin n)) (ht : t.Covers) (ht' : t'.Covers) :
    ∃ e : Fin n → ℝ, (Arith.ofRound rd).consensus t t' 1 e (fun _ => 1) = n ∧ ∑ i, gibbsWeight 1 e i * 1 = 1 ∧
      (Arith.ofRound rd).checkRaises t' ((Arith.ofRound rd).coeffs t ((Arith.ofRound rd).weights 1 e)) := by
  have hfl : IsFloat p (-((2 : ℝ) ^ (p + 1 + n))) := ⟨-1, p + 1 + n, by simpa using one_lt_pow₀ (by norm_num : (1 : ℤ) < 2) (by omega),
    by push_cast; rw [neg_one_mul, ← zpow_natCast]; push_cast; rfl⟩
  have hw : ∀ i : Fin n, (Arith.ofRound rd).weights 1 (fun _ => (2 : ℝ) ^ (p + 1 + n)) i = -(2 : ℝ) ^ (p + 1 + n) := by
    intro i
    simp only [Arith.weights, Arith.ofRound, neg_one_mul]
    exact h.fix hfl
  have hn0 : (2 : ℝ) ≤ n := by exact_mod_cast h2
  have hlog : |rd (Real.log n)| < 2 ^ n := by
    have h3 := h.err hp (Real.log n)
    have h4 : 0 ≤ Real.log n := Real.log_nonneg (by linarith)
    rw [abs_of_nonneg h4] at h3
    have h5 : (2 : ℝ) ^ (-(p : ℤ)) ≤ 1 := by
      rw [zpow_neg, zpow_natCast]
      exact inv_le_one_of_one_le₀ (one_le_pow₀ (by norm_num))
    have h6 : Real.log n ≤ n / 2 := by
      have := Real.log_le_sub_one_of_pos (x := n / 2) (by linarith)
      rw [Real.log_div (by linarith) (by norm_num)] at this
      linarith [Real.log_two_lt_d9]
    have h7 := mul_le_mul_of_nonneg_right h5 h4
    have h8 := abs_add_le (rd (Real.log n) - Real.log n) (Real.log n)
    rw [sub_add_cancel, abs_of_nonneg h4] at h8
    have h9 : (n : ℝ) < 2 ^ n := by exact_mod_cast Nat.lt_two_pow_self
    linarith
  obtain ⟨hc, hx⟩ := C86_lost p hp rd h hn t t' ht 1 (fun _ => (2 : ℝ) ^ (p + 1 + n)) (fun _ => 1) _ n hw hlog (by rw [abs_neg, abs_of_pos (by positivity)])
  have h1 : rd 1 = 1 := h.fix (by simpa using isFloat_int (m := 1) hp (by simpa using one_le_pow₀ (by norm_num : (1 : ℤ) ≤ 2)))
  have hsum : t'.eval (Arith.ofRound rd).add (fun _ => (1 : ℝ)) = n := by
    have := sum_ones hp h t' (by rw [ht'.length_eq, List.length_finRange]; exact hn)
    rw [this, ht'.length_eq, List.length_finRange]
  refine ⟨fun _ => (2 : ℝ) ^ (p + 1 + n), ?_, ?_, ?_⟩
  · rw [hx]
    simp only [h1]
    exact hsum
  · simp only [mul_one]
    exact gibbsWeight_sum _ _
  · unfold Arith.checkRaises
    rw [funext hc, hsum]
    have h3 : rd (n - 1) = n - 1 := by
      have := isFloat_int (p := p) (m := n - 1) hp (by
        rw [abs_of_nonneg (by omega)]
        have : (n : ℤ) ≤ 2 ^ p := by exact_mod_cast hn
        omega)
      push_cast at this
      exact h.fix this
    simp only [Arith.ofRound]
    rw [h3, abs_of_nonneg (by linarith)]
    linarith

/-! ### Concrete cases -/

/-- C86: double precision obeys the hypotheses of `C86_default_partial` and `C86_rescaled`, for two particles with `|alpha * energy| ≤ 1000`; the error factor is below `10⁻¹¹`. -/
example : StdModel (Arith.ofRound (roundTo 53)) ((2 : ℝ) ^ (-((53 : ℕ) : ℤ))) 0 ∧ (SumTree.node (.leaf (0 : Fin 2)) (.leaf 1)).Covers ∧
    10 * ((2 : ℝ) ^ (-((53 : ℕ) : ℤ)) * 1000) + 130 * (((2 : ℕ) : ℝ) ^ 2 * ((2 : ℝ) ^ (-((53 : ℕ) : ℤ)) + 0)) ≤ 1 / 10 ^ 11 := by
  refine ⟨(roundTo_nearest (by norm_num)).std (by norm_num), ?_, ?_⟩
  · show [0, 1].Perm (List.finRange 2)
    decide
  · rw [zpow_neg, zpow_natCast]
    norm_num

/-- C86: single precision (PyTorch), `alpha = 10⁵` (the default maximum of the schedulers), two particles with objective value 400: the hypotheses of `C86_lost` hold, so the consensus point is the
sum of the particles. -/
example : RoundNearest 24 (roundTo 24) ∧ (∀ i : Fin 2, (Arith.ofRound (roundTo 24)).weights 100000 (fun _ => 400) i = -40000000) ∧
    |roundTo 24 (Real.log (2 : ℕ))| < 2 ^ 0 ∧ (2 : ℝ) ^ (24 + 1 + 0) ≤ |(-40000000 : ℝ)| := by
  have h := roundTo_nearest (p := 24) (by norm_num)
  refine ⟨h, fun i => ?_, ?_, by norm_num⟩
  · simp only [Arith.weights, Arith.ofRound]
    refine (h.fix ⟨-78125, 9, by norm_num, ?_⟩).trans ?_ <;> norm_num
  · have h3 := h.err (by norm_num) (Real.log (2 : ℕ))
    have h4 := Real.log_two_lt_d9
    have h5 := Real.log_two_gt_d9
    push_cast at h3 ⊢
    rw [abs_of_nonneg (by linarith : 0 ≤ Real.log 2)] at h3
    have h6 : (2 : ℝ) ^ (-(24 : ℤ)) ≤ 1 / 10 := by norm_num
    have h7 : (2 : ℝ) ^ (-(24 : ℤ)) * Real.log 2 ≤ 1 / 10 * Real.log 2 := mul_le_mul_of_nonneg_right h6 (by linarith)
    have := abs_le.1 (h3.trans h7)
    rw [pow_zero, abs_lt]
    constructor <;> linarith

end Verif
