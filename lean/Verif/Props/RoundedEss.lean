import Verif.Proofs.RoundedEss

/-! Property C87: the effective sample size computed in floating point arithmetic. -/

set_option linter.unusedSectionVars false

namespace Verif

variable {n : ℕ}

/-- **C87 (bounded weights).** In every arithmetic with relative error `u` and underflow error `η` in which doubling `alpha` is exact, for every order of the additions: if `|alpha * energy| ≤ W` for all
particles and `10 u W + 60 n² (u + η) ≤ 1`, then the computed effective sample size differs from the exact one by at most `n (20 u W + 110 n² (u + η))`. What is missing: large weights, see `C87_lost`. -/
theorem C87_ess_partial (A : Arith) (u η : ℝ) (S : StdModel A u η) [NeZero n] (t : SumTree (Fin n)) (ht : t.Covers) (alpha W : ℝ) (e : Fin n → ℝ)
    (h2 : A.mul (-2) alpha = -2 * alpha) (hW : ∀ i, |alpha * e i| ≤ W) (hv : 10 * (u * W) + 60 * ((n : ℝ) ^ 2 * (u + η)) ≤ 1) :
    |A.ess t alpha e - exactEss alpha e| ≤ n * (20 * (u * W) + 110 * ((n : ℝ) ^ 2 * (u + η))) := by
  have hu := S.u_nonneg
  have hη := S.η_nonneg
  have i₀ : Fin n := ⟨0, Nat.pos_of_ne_zero (NeZero.ne n)⟩
  have huW : 0 ≤ u * W := mul_nonneg hu ((abs_nonneg _).trans (hW i₀))
  have hn : (1 : ℝ) ≤ n := by exact_mod_cast Nat.one_le_iff_ne_zero.2 (NeZero.ne n)
  have hnn : (n : ℝ) ≤ (n : ℝ) ^ 2 := by nlinarith
  have hNv : (n : ℝ) * (u + η) ≤ (n : ℝ) ^ 2 * (u + η) := mul_le_mul_of_nonneg_right hnn (by linarith)
  have hNu : (n : ℝ) * u ≤ (n : ℝ) * (u + η) := mul_le_mul_of_nonneg_left (by linarith) (by linarith)
  have hv1 : u + η ≤ n * (u + η) := by nlinarith
  obtain ⟨hJ1, hJn, hJ⟩ := exactEss_facts alpha e
  -- nominator
  have hW' : ∀ i, |-alpha * e i| ≤ W := fun i => by rw [neg_mul, abs_neg]; exact hW i
  have hnom := lse_weights S ht (w := A.weights alpha e) (w' := fun i => -alpha * e i) hW' (fun i => by
    have := mul_le_mul_of_nonneg_left (hW' i) hu
    exact (S.mul (-alpha) (e i)).trans (by linarith)) (by linarith)
  -- denominator
  have hW2 : ∀ i, |-2 * alpha * e i| ≤ 2 * W := fun i => by
    rw [show -2 * alpha * e i = -(2 * (alpha * e i)) by ring, abs_neg, abs_mul, abs_of_pos (by norm_num : (0 : ℝ) < 2)]
    linarith [hW i]
  have hden := lse_weights S ht (w := fun i => A.mul (A.mul (-2) alpha) (e i)) (w' := fun i => -2 * alpha * e i) hW2 (fun i => by
    have := mul_le_mul_of_nonneg_left (hW2 i) hu
    rw [h2]
    exact (S.mul (-2 * alpha) (e i)).trans (by linarith)) (by rw [show u * (2 * W) = 2 * (u * W) by ring]; linarith)
  rw [show u * (2 * W) = 2 * (u * W) by ring] at hden
  unfold Arith.ess
  generalize A.lse t (A.weights alpha e) = a at *
  generalize A.lse t (fun i => A.mul (A.mul (-2) alpha) (e i)) = b at *
  -- size of the nominator
  have hlse : |Real.log (∑ i, Real.exp (-alpha * e i))| ≤ W + n := by
    have hz := lse_lipschitz (n := n) (w := fun i => -alpha * e i) (w' := fun _ => 0) (δ := W) (fun i => by rw [sub_zero]; exact hW' i)
    have e0 : ∑ _i : Fin n, Real.exp 0 = n := by simp
    rw [e0] at hz
    have h3 : 0 ≤ Real.log n := Real.log_nonneg hn
    have h4 : Real.log n ≤ n := (Real.log_le_sub_one_of_pos (by linarith)).trans (by linarith)
    obtain ⟨q1, q2⟩ := abs_le.1 hz
    exact abs_le.2 ⟨by linarith, by linarith⟩
  generalize Real.log (∑ i, Real.exp (-alpha * e i)) = a' at *
  generalize Real.log (∑ i, Real.exp (-2 * alpha * e i)) = b' at *
  have ha : |a| ≤ W + n + 1 := by
    have := abs_add_le (a - a') a'
    rw [sub_add_cancel] at this
    linarith
  have h3 : |A.mul 2 a - 2 * a| ≤ 2 * (u * W) + 2 * (n * u) + 2 * u + η := by
    have h4 := S.mul 2 a
    rw [abs_mul, abs_of_pos (by norm_num : (0 : ℝ) < 2)] at h4
    have h5 := mul_le_mul_of_nonneg_left ha hu
    linarith
  have h4 : |(A.mul 2 a - b) - (2 * a' - b')| ≤ 10 * (u * W) + 52 * ((n : ℝ) ^ 2 * (u + η)) := by
    have t1 := abs_add_le (A.mul 2 a - 2 * a) (2 * (a - a') - (b - b'))
    have t2 := abs_sub (2 * (a - a')) (b - b')
    rw [abs_mul, abs_of_pos (by norm_num : (0 : ℝ) < 2)] at t2
    rw [show A.mul 2 a - 2 * a + (2 * (a - a') - (b - b')) = (A.mul 2 a - b) - (2 * a' - b') by ring] at t1
    linarith
  rw [← hJ] at h4
  have h5 := S.sub (A.mul 2 a) b
  have hl0 : 0 ≤ Real.log (exactEss alpha e) := Real.log_nonneg hJ1
  have hl1 : Real.log (exactEss alpha e) ≤ n - 1 := (Real.log_le_sub_one_of_pos (by linarith)).trans (by linarith)
  have h6 : |A.mul 2 a - b| ≤ n := by
    obtain ⟨q1, q2⟩ := abs_le.1 h4
    exact abs_le.2 ⟨by linarith, by linarith⟩
  have h7 := mul_le_mul_of_nonneg_left h6 hu
  have h8 : |A.sub (A.mul 2 a) b - Real.log (exactEss alpha e)| ≤ 10 * (u * W) + 53 * ((n : ℝ) ^ 2 * (u + η)) := by
    have := abs_add_le (A.sub (A.mul 2 a) b - (A.mul 2 a - b)) ((A.mul 2 a - b) - Real.log (exactEss alpha e))
    rw [sub_add_sub_cancel] at this
    linarith
  have hJ0 : 0 < exactEss alpha e := by linarith
  have h9 := S.exp (A.sub (A.mul 2 a) b)
  generalize A.sub (A.mul 2 a) b = r at *
  have h10 := Real.abs_exp_sub_one_le (x := r - Real.log (exactEss alpha e)) (by linarith)
  have h11 : Real.exp r = exactEss alpha e * Real.exp (r - Real.log (exactEss alpha e)) := by
    rw [Real.exp_sub, Real.exp_log hJ0]
    field_simp
  generalize exactEss alpha e = J at *
  generalize Real.exp (r - Real.log J) = E at *
  have h12 : |Real.exp r - J| ≤ n * (20 * (u * W) + 106 * ((n : ℝ) ^ 2 * (u + η))) := by
    rw [h11, show J * E - J = J * (E - 1) by ring, abs_mul, abs_of_pos hJ0]
    exact mul_le_mul hJn (by linarith) (abs_nonneg _) (by linarith)
  have h13 : Real.exp r ≤ 3 * n := by
    rw [h11]
    have : E ≤ 3 := by
      have := (abs_le.1 h10).2
      linarith
    nlinarith
  have h14 : u * Real.exp r ≤ u * (3 * n) := mul_le_mul_of_nonneg_left h13 hu
  have h15 := abs_add_le (A.exp r - Real.exp r) (Real.exp r - J)
  rw [sub_add_sub_cancel] at h15
  have h16 : (n : ℝ) ^ 2 * (u + η) ≤ n * ((n : ℝ) ^ 2 * (u + η)) := by
    have : 0 ≤ (n : ℝ) ^ 2 * (u + η) := by positivity
    nlinarith
  linarith

/-- **C87 (what happens for large weights).** Binary floating point arithmetic with `p` bits, rounding to nearest: if all particles have the same energy `e`, and `alpha * e` is a floating point number
so large that `log n` is below half a unit in its last place (`|log n| < 2^k` and `2^(p+1+k) ≤ |alpha e|`), then the computed effective sample size is `1`, while the exact one is `n`. -/
theorem C87_lost (p : ℕ) (hp : 1 ≤ p) (rd : ℝ → ℝ) (h : RoundNearest p rd) [NeZero n] (hn : n ≤ 2 ^ p) (t : SumTree (Fin n)) (ht : t.Covers) (alpha e : ℝ) (ha : IsFloat p alpha)
    (hae : IsFloat p (alpha * e)) (k : ℕ) (hk : |rd (Real.log n)| < 2 ^ k) (hbig : (2 : ℝ) ^ (p + 1 + k) ≤ |alpha * e|) :
    (Arith.ofRound rd).ess t alpha (fun _ => e) = 1 ∧ exactEss alpha (fun _ : Fin n => e) = n := by
  have i₀ : Fin n := ⟨0, Nat.pos_of_ne_zero (NeZero.ne n)⟩
  have : Nonempty (Fin n) := ⟨i₀⟩
  have h0 : rd 0 = 0 := h.fix ⟨0, 0, by simp, by simp⟩
  have h1 : rd 1 = 1 := h.fix (by simpa using isFloat_int (m := 1) hp (by simpa using one_le_pow₀ (by norm_num : (1 : ℤ) ≤ 2)))
  have hsum : t.eval (Arith.ofRound rd).add (fun _ => (1 : ℝ)) = n := by
    have := sum_ones hp h t (by rw [ht.length_eq, List.length_finRange]; exact hn)
    rw [this, ht.length_eq, List.length_finRange]
  have hlse : ∀ w, IsFloat p w → (2 : ℝ) ^ (p + 1 + k) ≤ |w| → (Arith.ofRound rd).lse t (fun _ => w) = w := by
    intro w hw hb
    have hsub : (Arith.ofRound rd).sub w w = 0 := by simp [Arith.ofRound, h0]
    have hexp : (Arith.ofRound rd).exp 0 = 1 := by simp [Arith.ofRound, h1]
    unfold Arith.lse
    simp only [ciSup_const, hsub, hexp]
    rw [hsum]
    exact h.absorb hp hw hb hk
  have hdouble : ∀ w, IsFloat p w → IsFloat p (2 * w) := by
    rintro w ⟨m, f, hm, rfl⟩
    exact ⟨m, f + 1, hm, by rw [zpow_add₀ two_ne_zero]; ring⟩
  refine ⟨?_, ?_⟩
  · have e1 : rd (-alpha * e) = -(alpha * e) := by rw [neg_mul]; exact h.fix hae.neg
    have e2 : rd (-2 * alpha) = -(2 * alpha) := by rw [neg_mul]; exact h.fix (hdouble _ ha).neg
    have e3 : rd (-(2 * alpha) * e) = 2 * -(alpha * e) := by
      rw [show -(2 * alpha) * e = 2 * -(alpha * e) by ring]
      exact h.fix (hdouble _ hae.neg)
    have l1 := hlse (-(alpha * e)) hae.neg (by rw [abs_neg]; exact hbig)
    have l2 := hlse (2 * -(alpha * e)) (hdouble _ hae.neg) (by
      rw [abs_mul, abs_neg, abs_of_pos (by norm_num : (0 : ℝ) < 2)]
      linarith [abs_nonneg (alpha * e)])
    unfold Arith.ess Arith.weights
    simp only [Arith.ofRound] at l1 l2 ⊢
    simp only [e1, e2, e3]
    rw [l1, l2, h.fix (hdouble _ hae.neg), sub_self, h0, Real.exp_zero, h1]
  · unfold exactEss
    simp only [Finset.sum_const, Finset.card_univ, Fintype.card_fin, nsmul_eq_mul]
    have : (n : ℝ) ≠ 0 := by exact_mod_cast NeZero.ne n
    have := (Real.exp_pos (-alpha * e)).ne'
    field_simp

/-- **C87 (false).** In every binary floating point arithmetic with rounding to nearest, for every number `2 ≤ n ≤ 2^p` of particles there is an energy such that for `n` particles of this energy
and `alpha = 1` the computed effective sample size is `1` although all weights are equal; so with `eta = 1/2` and more than two particles the gap is negative and the scheduler lowers `alpha`,
although the exact gap is positive. -/
theorem C87_false (p : ℕ) (hp : 1 ≤ p) (rd : ℝ → ℝ) (h : RoundNearest p rd) [NeZero n] (h2 : 2 < n) (hn : n ≤ 2 ^ p) (t : SumTree (Fin n)) (ht : t.Covers) :
    ∃ e : Fin n → ℝ, (Arith.ofRound rd).ess t 1 e - 1 / 2 * n < 0 ∧ 0 < exactEss 1 e - 1 / 2 * n := by
  have hfl : IsFloat p ((2 : ℝ) ^ (p + 1 + n)) := ⟨1, p + 1 + n, by simpa using one_lt_pow₀ (by norm_num : (1 : ℤ) < 2) (by omega),
    by push_cast; rw [one_mul, ← zpow_natCast]; push_cast; rfl⟩
  have hn0 : (3 : ℝ) ≤ n := by exact_mod_cast h2
  have h1 : IsFloat p 1 := by simpa using isFloat_int (m := 1) hp (by simpa using one_le_pow₀ (by norm_num : (1 : ℤ) ≤ 2))
  have hlog : |rd (Real.log n)| < 2 ^ n := by
    have h3 := h.err hp (Real.log n)
    have h4 : 0 ≤ Real.log n := Real.log_nonneg (by linarith)
    rw [abs_of_nonneg h4] at h3
    have h5 : (2 : ℝ) ^ (-(p : ℤ)) ≤ 1 := by
      rw [zpow_neg, zpow_natCast]
      exact inv_le_one_of_one_le₀ (one_le_pow₀ (by norm_num))
    have h6 : Real.log n ≤ n / 2 := by
      have := Real.log_le_sub_one_of_pos (x := n / 2) (by linarith)
      rw [Real.log_div (by linarith) (by norm_num)] at this
      linarith [Real.log_two_lt_d9]
    have h7 := mul_le_mul_of_nonneg_right h5 h4
    have h8 := abs_add_le (rd (Real.log n) - Real.log n) (Real.log n)
    rw [sub_add_cancel, abs_of_nonneg h4] at h8
    have h9 : (n : ℝ) < 2 ^ n := by exact_mod_cast Nat.lt_two_pow_self
    linarith
  obtain ⟨r1, r2⟩ := C87_lost p hp rd h hn t ht 1 ((2 : ℝ) ^ (p + 1 + n)) h1 (by rw [one_mul]; exact hfl) n hlog (by rw [one_mul, abs_of_pos (by positivity)])
  refine ⟨fun _ => (2 : ℝ) ^ (p + 1 + n), ?_, ?_⟩
  · rw [r1]; linarith
  · rw [r2]; linarith

/-- C87: double precision obeys the hypotheses of `C87_ess_partial` for two particles with `|alpha * energy| ≤ 1000`, e.g. `alpha = 3`. -/
example : StdModel (Arith.ofRound (roundTo 53)) ((2 : ℝ) ^ (-((53 : ℕ) : ℤ))) 0 ∧ (Arith.ofRound (roundTo 53)).mul (-2) 3 = -2 * 3 ∧
    (SumTree.node (.leaf (0 : Fin 2)) (.leaf 1)).Covers ∧
    10 * ((2 : ℝ) ^ (-((53 : ℕ) : ℤ)) * 1000) + 60 * (((2 : ℕ) : ℝ) ^ 2 * ((2 : ℝ) ^ (-((53 : ℕ) : ℤ)) + 0)) ≤ 1 := by
  have h := roundTo_nearest (p := 53) (by norm_num)
  refine ⟨h.std (by norm_num), h.fix ⟨-6, 0, by norm_num, by norm_num⟩, ?_, ?_⟩
  · show [0, 1].Perm (List.finRange 2)
    decide
  · rw [zpow_neg, zpow_natCast]
    norm_num

/-- C87: in double precision `alpha = 10⁵` and energy `2⁴⁰` satisfy the hypotheses of `C87_lost` for three particles. -/
example : IsFloat 53 100000 ∧ IsFloat 53 (100000 * 2 ^ 40) ∧ (2 : ℝ) ^ (53 + 1 + 1) ≤ |(100000 : ℝ) * 2 ^ 40| ∧ |roundTo 53 (Real.log (3 : ℕ))| < 2 ^ 1 := by
  refine ⟨⟨100000, 0, by norm_num, by norm_num⟩, ⟨100000, 40, by norm_num, by norm_num⟩, by norm_num, ?_⟩
  have h3 := (roundTo_nearest (p := 53) (by norm_num)).err (by norm_num) (Real.log (3 : ℕ))
  have h4 : Real.log 3 ≤ 3 / 2 := by
    have := Real.log_le_sub_one_of_pos (x := 3 / 2) (by norm_num)
    rw [Real.log_div (by norm_num) (by norm_num)] at this
    linarith [Real.log_two_lt_d9]
  have h5 : 0 ≤ Real.log 3 := Real.log_nonneg (by norm_num)
  push_cast at h3 ⊢
  rw [abs_of_nonneg h5] at h3
  have h6 : (2 : ℝ) ^ (-(53 : ℤ)) ≤ 1 / 10 := by norm_num
  have h7 : (2 : ℝ) ^ (-(53 : ℤ)) * Real.log 3 ≤ 1 / 10 * Real.log 3 := mul_le_mul_of_nonneg_right h6 h5
  have := abs_le.1 (h3.trans h7)
  rw [pow_one, abs_lt]
  constructor <;> linarith

end Verif
