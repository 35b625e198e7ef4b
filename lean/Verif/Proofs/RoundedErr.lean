import Verif.Proofs.Rounded
import Mathlib.Algebra.BigOperators.Field

/-! Rounding error analysis of the consensus rules. -/

set_option linter.unusedSectionVars false

namespace Verif

/-! ### Sums -/

theorem list_abs_sum {ι : Type} (f : ι → ℝ) (l : List ι) : |(l.map f).sum| ≤ (l.map fun i => |f i|).sum := by
  induction l with
  | nil => simp
  | cons a l ih =>
    simp only [List.map_cons, List.sum_cons]
    exact (abs_add_le _ _).trans (by linarith)

theorem SumTree.err {A : Arith} {u : ℝ} (hu : 0 ≤ u) (hadd : ∀ a b, |A.add a b - (a + b)| ≤ u * |a + b|) {ι : Type} (f : ι → ℝ) (t : SumTree ι) :
    0 < t.leaves.length ∧ |t.eval A.add f - (t.leaves.map f).sum| ≤ ((1 + u) ^ t.leaves.length - 1) * (t.leaves.map fun i => |f i|).sum := by
  induction t with
  | leaf i => simp [SumTree.leaves, SumTree.eval]; positivity
  | node l r hl hr =>
    obtain ⟨l0, hl⟩ := hl
    obtain ⟨r0, hr⟩ := hr
    simp only [SumTree.leaves, SumTree.eval, List.length_append, List.map_append, List.sum_append]
    refine ⟨by omega, ?_⟩
    generalize l.eval A.add f = x at *
    generalize r.eval A.add f = y at *
    have al : |(l.leaves.map f).sum| ≤ (l.leaves.map fun i => |f i|).sum := by
      exact list_abs_sum f l.leaves
    have ar : |(r.leaves.map f).sum| ≤ (r.leaves.map fun i => |f i|).sum := by
      exact list_abs_sum f r.leaves
    generalize (l.leaves.map f).sum = a at *
    generalize (r.leaves.map f).sum = b at *
    generalize (l.leaves.map fun i => |f i|).sum = a' at *
    generalize (r.leaves.map fun i => |f i|).sum = b' at *
    generalize l.leaves.length = k at *
    generalize r.leaves.length = j at *
    have h0 := hadd x y
    have ha' : 0 ≤ a' := (abs_nonneg a).trans al
    have hb' : 0 ≤ b' := (abs_nonneg b).trans ar
    have hx : |x| ≤ (1 + u) ^ k * a' := by
      have := abs_add_le (x - a) a
      rw [sub_add_cancel] at this
      linarith
    have hy : |y| ≤ (1 + u) ^ j * b' := by
      have := abs_add_le (y - b) b
      rw [sub_add_cancel] at this
      linarith
    have hxy := mul_le_mul_of_nonneg_left (abs_add_le x y) hu
    have m1 : (1 + u) ^ (k + 1) ≤ (1 + u) ^ (k + j) := pow_le_pow_right₀ (by linarith) (by omega)
    have m2 : (1 + u) ^ (j + 1) ≤ (1 + u) ^ (k + j) := pow_le_pow_right₀ (by linarith) (by omega)
    have n1 := mul_le_mul_of_nonneg_right m1 ha'
    have n2 := mul_le_mul_of_nonneg_right m2 hb'
    have hx2 := mul_le_mul_of_nonneg_left hx hu
    have hy2 := mul_le_mul_of_nonneg_left hy hu
    have t1 := abs_add_le (A.add x y - (x + y)) ((x - a) + (y - b))
    have t2 := abs_add_le (x - a) (y - b)
    rw [show A.add x y - (x + y) + ((x - a) + (y - b)) = A.add x y - (a + b) by ring] at t1
    rw [pow_succ] at n1 n2
    nlinarith

variable {n : ℕ}

theorem sum_growth {u : ℝ} (hu : 0 ≤ u) (hn : n * u ≤ 1) : (1 + u) ^ n - 1 ≤ 2 * (n * u) := by
  have h1 : (1 + u) ^ n ≤ Real.exp (n * u) := by
    rw [Real.exp_nat_mul]
    exact pow_le_pow_left₀ (by linarith) (by linarith [Real.add_one_le_exp u]) n
  have h0 : 0 ≤ (n : ℝ) * u := by positivity
  have h2 := Real.abs_exp_sub_one_le (x := n * u) (by rw [abs_of_nonneg h0]; exact hn)
  rw [abs_of_nonneg h0] at h2
  have := le_abs_self (Real.exp (n * u) - 1)
  linarith

/-- Error of a computed sum of all numbers. -/
theorem SumTree.Covers.err {A : Arith} {u η : ℝ} (S : StdModel A u η) {t : SumTree (Fin n)} (ht : t.Covers) (hn : n * u ≤ 1) (f : Fin n → ℝ) :
    |t.eval A.add f - ∑ i, f i| ≤ 2 * (n * u) * ∑ i, |f i| := by
  have h := (t.err S.u_nonneg S.add f).2
  have hl : t.leaves.length = n := by rw [ht.length_eq, List.length_finRange]
  have e1 : ∀ g : Fin n → ℝ, (t.leaves.map g).sum = ∑ i, g i := by
    intro g
    rw [(ht.map g).sum_eq, Fin.sum_univ_def]
  rw [hl, e1, e1] at h
  exact h.trans (mul_le_mul_of_nonneg_right (sum_growth S.u_nonneg hn) (Finset.sum_nonneg fun i _ => abs_nonneg _))

/-! ### Elementary functions -/

theorem exp_diff (a b : ℝ) : |Real.exp a - Real.exp b| ≤ |a - b| * Real.exp (max a b) := by
  have key : ∀ a b : ℝ, a ≤ b → Real.exp b - Real.exp a ≤ (b - a) * Real.exp b := by
    intro a b _
    have h1 := Real.add_one_le_exp (a - b)
    have h2 : Real.exp a = Real.exp (a - b) * Real.exp b := by rw [← Real.exp_add]; ring_nf
    have := mul_le_mul_of_nonneg_right h1 (Real.exp_pos b).le
    linarith
  rcases le_total a b with h | h
  · rw [max_eq_right h, abs_sub_comm, abs_of_nonneg (by linarith [Real.exp_le_exp.2 h]), abs_sub_comm, abs_of_nonneg (by linarith)]
    exact key a b h
  · rw [max_eq_left h, abs_of_nonneg (by linarith [Real.exp_le_exp.2 h]), abs_of_nonneg (by linarith)]
    exact key b a h

theorem mul_exp_neg_half {y : ℝ} (hy : 0 ≤ y) : y * Real.exp (-(y / 2)) ≤ 1 := by
  have h := Real.quadratic_le_exp_of_nonneg (x := y / 2) (by linarith)
  have h1 : y ≤ Real.exp (y / 2) := by nlinarith [sq_nonneg (y - 2)]
  rw [Real.exp_neg, ← div_eq_mul_inv, div_le_one (Real.exp_pos _)]
  exact h1

/-- A relative error `k` and an absolute error `η` of a non-positive exponent. -/
theorem exp_perturb {k η d t : ℝ} (hk : 0 ≤ k) (hk' : k ≤ 1 / 2) (hη : 0 ≤ η) (hd : d ≤ 0) (h : |t - d| ≤ k * |d| + η) :
    |Real.exp t - Real.exp d| ≤ (k + η) * Real.exp η := by
  refine (exp_diff t d).trans ?_
  rw [abs_of_nonpos hd] at h
  have h1 : max t d ≤ d / 2 + η := by
    refine max_le ?_ (by linarith)
    have := (abs_le.1 h).2
    nlinarith
  have h2 : Real.exp (max t d) ≤ Real.exp (-((-d) / 2)) * Real.exp η := by
    rw [← Real.exp_add]
    exact Real.exp_le_exp.2 (by linarith)
  have h3 := mul_exp_neg_half (y := -d) (by linarith)
  have h4 : Real.exp (-((-d) / 2)) ≤ 1 := Real.exp_le_one_iff.2 (by linarith)
  have h5 : (k * -d + η) * Real.exp (-((-d) / 2)) ≤ k + η := by
    have e1 := mul_le_mul_of_nonneg_left h3 hk
    have e2 := mul_le_mul_of_nonneg_left h4 hη
    linarith
  calc |t - d| * Real.exp (max t d) ≤ (k * -d + η) * (Real.exp (-((-d) / 2)) * Real.exp η) :=
        mul_le_mul h h2 (Real.exp_pos _).le (by nlinarith)
    _ = ((k * -d + η) * Real.exp (-((-d) / 2))) * Real.exp η := by ring
    _ ≤ _ := mul_le_mul_of_nonneg_right h5 (Real.exp_pos _).le

theorem log_perturb {s S k : ℝ} (hS : 1 ≤ S) (hk : k ≤ 1 / 2) (h : |s - S| ≤ k) : 0 < s ∧ |Real.log s - Real.log S| ≤ 2 * k := by
  obtain ⟨h1, h2⟩ := abs_le.1 h
  have hs : 1 / 2 ≤ s := by linarith
  have hk0 : 0 ≤ k := (abs_nonneg _).trans h
  refine ⟨by linarith, abs_le.2 ⟨?_, ?_⟩⟩
  · have := Real.log_le_sub_one_of_pos (x := S / s) (by positivity)
    rw [Real.log_div (by linarith) (by linarith)] at this
    have h3 : S / s - 1 ≤ 2 * k := by
      rw [div_sub_one (by linarith), div_le_iff₀ (by linarith)]
      nlinarith
    linarith
  · have := Real.log_le_sub_one_of_pos (x := s / S) (by positivity)
    rw [Real.log_div (by linarith) (by linarith)] at this
    have h3 : s / S - 1 ≤ 2 * k := by
      rw [div_sub_one (by linarith), div_le_iff₀ (by linarith)]
      nlinarith
    linarith

theorem exp_bound3 {x : ℝ} (hx : x ≤ 1 + 1 / 16) : Real.exp x ≤ 3 := by
  have h1 := Real.exp_one_lt_d9
  have h2 : Real.exp (1 / 16) ≤ 16 / 15 := by
    have := Real.one_sub_le_exp_neg (1 / 16)
    rw [Real.exp_neg] at this
    have hp := Real.exp_pos (1 / 16)
    have := mul_le_mul_of_nonneg_right this hp.le
    rw [inv_mul_cancel₀ hp.ne'] at this
    linarith
  have h3 : Real.exp x ≤ Real.exp 1 * Real.exp (1 / 16) := by rw [← Real.exp_add]; exact Real.exp_le_exp.2 hx
  have := mul_le_mul h1.le h2 (Real.exp_pos _).le (by norm_num)
  linarith

/-! ### The coefficients -/

/-- `logsumexp`. -/
theorem lse_err {A : Arith} {u η : ℝ} (S : StdModel A u η) [NeZero n] {t : SumTree (Fin n)} (ht : t.Covers) (w : Fin n → ℝ)
    (hv : 16 * ((n : ℝ) ^ 2 * (u + η)) ≤ 1) :
    |A.lse t w - Real.log (∑ i, Real.exp (w i))| ≤ u * |⨆ i, w i| + 14 * ((n : ℝ) ^ 2 * (u + η)) := by
  have hu := S.u_nonneg
  have hη := S.η_nonneg
  have hn : (1 : ℝ) ≤ n := by exact_mod_cast Nat.one_le_iff_ne_zero.2 (NeZero.ne n)
  have hnn : (n : ℝ) ≤ (n : ℝ) ^ 2 := by nlinarith
  have hNv : (n : ℝ) * (u + η) ≤ (n : ℝ) ^ 2 * (u + η) := mul_le_mul_of_nonneg_right hnn (by linarith)
  have hvN : u + η ≤ (n : ℝ) * (u + η) := by nlinarith
  have hNu : (n : ℝ) * u ≤ (n : ℝ) * (u + η) := by nlinarith
  unfold Arith.lse
  set a := ⨆ j, w j with ha
  have hle : ∀ i, w i - a ≤ 0 := fun i => sub_nonpos.2 (le_ciSup (Set.finite_range w).bddAbove i)
  obtain ⟨k, hk⟩ : ∃ k, w k = a := by
    obtain ⟨k, hk⟩ := exists_eq_ciSup_of_finite (f := w)
    exact ⟨k, hk⟩
  -- exponentials
  have hg : ∀ i, |A.exp (A.sub (w i) a) - Real.exp (w i - a)| ≤ 2 * u + η ∧ A.exp (A.sub (w i) a) ≤ 2 := by
    intro i
    have h1 := S.sub (w i) a
    have h2 := exp_perturb (η := 0) hu (by linarith) le_rfl (hle i) (by rw [add_zero]; exact h1)
    rw [add_zero, Real.exp_zero, mul_one] at h2
    have h3 := S.exp (A.sub (w i) a)
    have h4 : Real.exp (A.sub (w i) a) ≤ 1 := by
      rw [Real.exp_le_one_iff]
      rw [abs_of_nonpos (hle i)] at h1
      have := (abs_le.1 h1).2
      nlinarith [hle i]
    have h5 : u * Real.exp (A.sub (w i) a) ≤ u := by nlinarith
    have h6 := abs_add_le (A.exp (A.sub (w i) a) - Real.exp (A.sub (w i) a)) (Real.exp (A.sub (w i) a) - Real.exp (w i - a))
    rw [sub_add_sub_cancel] at h6
    refine ⟨by linarith, ?_⟩
    have := (abs_le.1 h3).2
    linarith
  set g := fun i => A.exp (A.sub (w i) a) with hgd
  have hg0 : ∀ i, 0 ≤ g i := fun i => S.exp_nonneg _
  -- their sum
  have hsum1 : |∑ i, g i - ∑ i, Real.exp (w i - a)| ≤ n * (2 * u + η) := by
    rw [← Finset.sum_sub_distrib]
    refine (Finset.abs_sum_le_sum_abs _ _).trans ?_
    refine (Finset.sum_le_sum fun i _ => (hg i).1).trans ?_
    rw [Finset.sum_const, Finset.card_univ, Fintype.card_fin, nsmul_eq_mul]
  have hsum2 : ∑ i, |g i| ≤ n * 2 := by
    refine (Finset.sum_le_sum fun i _ => ?_ : ∑ i, |g i| ≤ ∑ _i : Fin n, (2 : ℝ)).trans ?_
    · rw [abs_of_nonneg (hg0 i)]; exact (hg i).2
    · rw [Finset.sum_const, Finset.card_univ, Fintype.card_fin, nsmul_eq_mul]
  have hsum3 := ht.err S (by linarith) g
  have hsum4 : 2 * (n * u) * ∑ i, |g i| ≤ 4 * ((n : ℝ) ^ 2 * u) := by
    have := mul_le_mul_of_nonneg_left hsum2 (show 0 ≤ 2 * ((n : ℝ) * u) by positivity)
    linarith [show 2 * ((n : ℝ) * u) * (n * 2) = 4 * ((n : ℝ) ^ 2 * u) by ring]
  set s := t.eval A.add g with hs
  set T := ∑ i, Real.exp (w i - a) with hT
  have hN2 : (n : ℝ) ^ 2 * u ≤ (n : ℝ) ^ 2 * (u + η) := mul_le_mul_of_nonneg_left (by linarith) (by positivity)
  have hsT : |s - T| ≤ 6 * ((n : ℝ) ^ 2 * (u + η)) := by
    have := abs_add_le (s - ∑ i, g i) (∑ i, g i - T)
    rw [sub_add_sub_cancel] at this
    have h7 : (n : ℝ) * (2 * u + η) ≤ 2 * (n * (u + η)) := by nlinarith
    linarith
  have hT1 : 1 ≤ T := by
    have : Real.exp (w k - a) ≤ T := Finset.single_le_sum (f := fun i => Real.exp (w i - a)) (fun i _ => (Real.exp_pos _).le) (Finset.mem_univ k)
    rwa [hk, sub_self, Real.exp_zero] at this
  have hTn : T ≤ n := by
    have : T ≤ ∑ _i : Fin n, (1 : ℝ) := Finset.sum_le_sum fun i _ => Real.exp_le_one_iff.2 (hle i)
    rwa [Finset.sum_const, Finset.card_univ, Fintype.card_fin, nsmul_eq_mul, mul_one] at this
  obtain ⟨hs0, hlog⟩ := log_perturb hT1 (by linarith) hsT
  have hlT0 : 0 ≤ Real.log T := Real.log_nonneg hT1
  have hlT1 : Real.log T ≤ n - 1 := (Real.log_le_sub_one_of_pos (by linarith)).trans (by linarith)
  have hls : |Real.log s| ≤ n := by
    obtain ⟨q1, q2⟩ := abs_le.1 hlog
    exact abs_le.2 ⟨by linarith, by linarith⟩
  have hl := S.log s hs0
  have hl2 : u * |Real.log s| ≤ u * n := mul_le_mul_of_nonneg_left hls hu
  have hl3 : |A.log s - Real.log T| ≤ 13 * ((n : ℝ) ^ 2 * (u + η)) := by
    have := abs_add_le (A.log s - Real.log s) (Real.log s - Real.log T)
    rw [sub_add_sub_cancel] at this
    nlinarith
  have hl4 : |A.log s| ≤ n := by
    obtain ⟨q1, q2⟩ := abs_le.1 hl3
    exact abs_le.2 ⟨by linarith, by linarith⟩
  have hfin := S.add (A.log s) a
  have e : Real.log (∑ i, Real.exp (w i)) = Real.log T + a := by
    have : ∑ i, Real.exp (w i) = T * Real.exp a := by
      rw [hT, Finset.sum_mul]
      exact Finset.sum_congr rfl fun i _ => by rw [← Real.exp_add, sub_add_cancel]
    rw [this, Real.log_mul (by linarith) (Real.exp_pos a).ne', Real.log_exp]
  rw [e]
  have h8 := abs_add_le (A.log s) a
  have h9 := mul_le_mul_of_nonneg_left h8 hu
  have h10 := abs_add_le (A.add (A.log s) a - (A.log s + a)) (A.log s - Real.log T)
  rw [show A.add (A.log s) a - (A.log s + a) + (A.log s - Real.log T) = A.add (A.log s) a - (Real.log T + a) by ring] at h10
  have h11 : u * |A.log s| ≤ u * n := mul_le_mul_of_nonneg_left hl4 hu
  have h12 : u * n ≤ (n : ℝ) ^ 2 * (u + η) := by linarith
  linarith

/-- `coeffs`, compared with the exact coefficients for the same weights. -/
theorem coeffs_err {A : Arith} {u η W : ℝ} (S : StdModel A u η) [NeZero n] {t : SumTree (Fin n)} (ht : t.Covers) (w : Fin n → ℝ)
    (hW : |⨆ i, w i| ≤ W) (hv : u * W + 16 * ((n : ℝ) ^ 2 * (u + η)) ≤ 1) (i : Fin n) :
    |A.coeffs t w i - Real.exp (w i) / ∑ j, Real.exp (w j)| ≤
      2 * (u * W + 16 * ((n : ℝ) ^ 2 * (u + η))) * (Real.exp (w i) / ∑ j, Real.exp (w j)) + 6 * (u + η) := by
  have hu := S.u_nonneg
  have hη := S.η_nonneg
  have hW0 : 0 ≤ u * W := mul_nonneg hu ((abs_nonneg _).trans hW)
  have hn : (1 : ℝ) ≤ n := by exact_mod_cast Nat.one_le_iff_ne_zero.2 (NeZero.ne n)
  have hn2 : (1 : ℝ) ≤ (n : ℝ) ^ 2 := by nlinarith
  have hv1 : u + η ≤ (n : ℝ) ^ 2 * (u + η) := by nlinarith
  have hL := lse_err S ht w (by linarith)
  have hL' : |A.lse t w - Real.log (∑ j, Real.exp (w j))| ≤ u * W + 16 * ((n : ℝ) ^ 2 * (u + η)) := by
    have := mul_le_mul_of_nonneg_left hW hu
    have : 0 ≤ (n : ℝ) ^ 2 * (u + η) := by positivity
    linarith
  set ε := u * W + 16 * ((n : ℝ) ^ 2 * (u + η)) with hε
  have hT : 0 < ∑ j, Real.exp (w j) := Finset.sum_pos (fun _ _ => Real.exp_pos _) ⟨i, Finset.mem_univ i⟩
  have hg1 : Real.exp (w i) / ∑ j, Real.exp (w j) ≤ 1 := by
    rw [div_le_one hT]
    exact Finset.single_le_sum (f := fun j => Real.exp (w j)) (fun i _ => (Real.exp_pos _).le) (Finset.mem_univ i)
  set T := ∑ j, Real.exp (w j) with hTd
  set L := A.lse t w with hLd
  have hg0 : 0 < Real.exp (w i) / T := div_pos (Real.exp_pos _) hT
  have hgL : Real.exp (w i) / T = Real.exp (w i - Real.log T) := by rw [Real.exp_sub, Real.exp_log hT]
  -- the exact exponential of the exponent
  have hq : Real.exp (w i - L) = Real.exp (w i) / T * Real.exp (Real.log T - L) := by rw [hgL, ← Real.exp_add]; ring_nf
  have hLε : |Real.log T - L| ≤ ε := by rw [abs_sub_comm]; exact hL'
  have h1 : |Real.exp (w i - L) - Real.exp (w i) / T| ≤ 2 * ε * (Real.exp (w i) / T) := by
    rw [hq, show Real.exp (w i) / T * Real.exp (Real.log T - L) - Real.exp (w i) / T = (Real.exp (Real.log T - L) - 1) * (Real.exp (w i) / T) by ring,
      abs_mul, abs_of_pos hg0]
    refine mul_le_mul_of_nonneg_right ?_ hg0.le
    have := Real.abs_exp_sub_one_le (x := Real.log T - L) (by linarith)
    linarith
  have hq1 : w i - L ≤ 1 := by
    have h2 : w i - Real.log T ≤ 0 := by rwa [hgL, Real.exp_le_one_iff] at hg1
    have := (abs_le.1 hLε).2
    linarith
  -- its rounding
  have hr := S.sub (w i) L
  unfold Arith.coeffs
  rw [← hLd]
  generalize hrd : A.sub (w i) L = r at *
  generalize hqd : w i - L = q at *
  have h3 : r ≤ 1 + 1 / 16 := by
    have := (abs_le.1 hr).2
    rcases le_total q 0 with h | h
    · rw [abs_of_nonpos h] at this
      nlinarith
    · rw [abs_of_nonneg h] at this
      nlinarith
  have h4 : |Real.exp r - Real.exp q| ≤ 3 * u := by
    rcases le_total q 0 with h | h
    · have := exp_perturb (η := 0) hu (by linarith) le_rfl h (by rw [add_zero]; exact hr)
      rw [add_zero, Real.exp_zero, mul_one] at this
      linarith
    · have h5 := exp_diff r q
      have h6 := exp_bound3 (max_le h3 (by linarith : q ≤ 1 + 1 / 16))
      rw [abs_of_nonneg h] at hr
      have h7 : |r - q| ≤ u := by nlinarith
      have := mul_le_mul h7 h6 (Real.exp_pos _).le hu
      linarith
  have h5 := S.exp r
  have h6 : u * Real.exp r ≤ u * 3 := mul_le_mul_of_nonneg_left (exp_bound3 h3) hu
  have h7 := abs_add_le (A.exp r - Real.exp r) (Real.exp r - Real.exp q)
  have h8 := abs_add_le (A.exp r - Real.exp q) (Real.exp q - Real.exp (w i) / T)
  rw [sub_add_sub_cancel] at h7 h8
  linarith

/-! ### The weighted sum -/

/-- Sum of the coefficients and weighted sum of the particles, for coefficients known up to a relative error `β` and an absolute error `μ`. -/
theorem weighted_err {A : Arith} {u η β μ X : ℝ} (S : StdModel A u η) {t : SumTree (Fin n)} (ht : t.Covers) (hn : 2 * (n * u) ≤ 1) (hu1 : u ≤ 1)
    {c c' x : Fin n → ℝ} (hc1 : ∑ i, c i = 1) (hc' : ∀ i, 0 ≤ c' i) (h : ∀ i, |c' i - c i| ≤ β * c i + μ) (hx : ∀ i, |x i| ≤ X)
    (hX : 0 ≤ X) (hT : β + n * μ ≤ 2) (hn1 : (1 : ℝ) ≤ n) :
    |t.eval A.add c' - 1| ≤ β + n * μ + 6 * (n * u) ∧
      |t.eval A.add (fun i => A.mul (x i) (c' i)) - ∑ i, c i * x i| ≤ (β + n * μ + 15 * (n * u)) * X + 2 * (n * η) := by
  have hu := S.u_nonneg
  have hη := S.η_nonneg
  have hcs : ∀ k : ℝ, ∑ _i : Fin n, k = n * k := fun k => by rw [Finset.sum_const, Finset.card_univ, Fintype.card_fin, nsmul_eq_mul]
  have hdiff : ∑ i, |c' i - c i| ≤ β + n * μ := by
    refine (Finset.sum_le_sum fun i _ => h i).trans ?_
    rw [Finset.sum_add_distrib, ← Finset.mul_sum, hc1, hcs]
    linarith
  have hT' : ∑ i, c' i ≤ 3 := by
    have : ∑ i, c' i ≤ ∑ i, (c i + |c' i - c i|) := Finset.sum_le_sum fun i _ => by linarith [le_abs_self (c' i - c i)]
    rw [Finset.sum_add_distrib, hc1] at this
    linarith
  have hnu : 0 ≤ (n : ℝ) * u := by positivity
  refine ⟨?_, ?_⟩
  · have h1 := ht.err S (by linarith) c'
    have h2 : ∑ i, |c' i| = ∑ i, c' i := Finset.sum_congr rfl fun i _ => abs_of_nonneg (hc' i)
    have h3 : |∑ i, c' i - 1| ≤ β + n * μ := by
      rw [← hc1, ← Finset.sum_sub_distrib]
      exact (Finset.abs_sum_le_sum_abs _ _).trans hdiff
    have h4 := abs_add_le (t.eval A.add c' - ∑ i, c' i) (∑ i, c' i - 1)
    rw [sub_add_sub_cancel] at h4
    rw [h2] at h1
    have h5 := mul_le_mul_of_nonneg_left hT' (show 0 ≤ 2 * ((n : ℝ) * u) by positivity)
    linarith
  · have h1 := ht.err S (by linarith) fun i => A.mul (x i) (c' i)
    set q := fun i => A.mul (x i) (c' i) with hq
    have hxc : ∀ i, |x i * c' i| ≤ X * c' i := fun i => by
      rw [abs_mul, abs_of_nonneg (hc' i)]
      exact mul_le_mul_of_nonneg_right (hx i) (hc' i)
    have hm : ∀ i, |q i - x i * c' i| ≤ u * (X * c' i) + η := fun i =>
      (S.mul (x i) (c' i)).trans (by linarith [mul_le_mul_of_nonneg_left (hxc i) hu])
    have h2 : |∑ i, q i - ∑ i, x i * c' i| ≤ 3 * u * X + n * η := by
      rw [← Finset.sum_sub_distrib]
      refine (Finset.abs_sum_le_sum_abs _ _).trans ((Finset.sum_le_sum fun i _ => hm i).trans ?_)
      rw [Finset.sum_add_distrib, ← Finset.mul_sum, ← Finset.mul_sum, hcs]
      have := mul_le_mul_of_nonneg_left (mul_le_mul_of_nonneg_left hT' hX) hu
      linarith
    have h3 : |∑ i, x i * c' i - ∑ i, c i * x i| ≤ (β + n * μ) * X := by
      rw [← Finset.sum_sub_distrib]
      refine (Finset.abs_sum_le_sum_abs _ _).trans ?_
      have : ∀ i, |x i * c' i - c i * x i| ≤ |c' i - c i| * X := fun i => by
        rw [show x i * c' i - c i * x i = (c' i - c i) * x i by ring, abs_mul]
        exact mul_le_mul_of_nonneg_left (hx i) (abs_nonneg _)
      refine (Finset.sum_le_sum fun i _ => this i).trans ?_
      rw [← Finset.sum_mul]
      exact mul_le_mul_of_nonneg_right hdiff hX
    have h4 : ∑ i, |q i| ≤ 6 * X + n * η := by
      have : ∀ i, |q i| ≤ 2 * (X * c' i) + η := fun i => by
        have a1 := abs_add_le (q i - x i * c' i) (x i * c' i)
        rw [sub_add_cancel] at a1
        have a2 := hm i
        have a3 := hxc i
        have a4 : u * (X * c' i) ≤ X * c' i := by nlinarith [mul_nonneg hX (hc' i)]
        linarith
      refine (Finset.sum_le_sum fun i _ => this i).trans ?_
      rw [Finset.sum_add_distrib, ← Finset.mul_sum, ← Finset.mul_sum, hcs]
      have := mul_le_mul_of_nonneg_left hT' hX
      linarith
    have h5 := mul_le_mul_of_nonneg_left h4 (show 0 ≤ 2 * ((n : ℝ) * u) by positivity)
    have h6 := abs_add_le (t.eval A.add q - ∑ i, q i) (∑ i, q i - ∑ i, x i * c' i)
    have h7 := abs_add_le (t.eval A.add q - ∑ i, x i * c' i) (∑ i, x i * c' i - ∑ i, c i * x i)
    rw [sub_add_sub_cancel] at h6 h7
    have h8 : 2 * ((n : ℝ) * u) * (n * η) ≤ n * η := by
      have := mul_le_mul_of_nonneg_right hn (show 0 ≤ (n : ℝ) * η by positivity)
      linarith
    have h9 : u * X ≤ n * u * X := by nlinarith [mul_nonneg hu hX]
    have h10 : 2 * ((n : ℝ) * u) * (6 * X + n * η) = 12 * (n * u * X) + 2 * ((n : ℝ) * u) * (n * η) := by ring
    nlinarith

/-! ### The two rules -/

theorem gibbsWeight_nonneg [NeZero n] (alpha : ℝ) (e : Fin n → ℝ) (i : Fin n) : 0 ≤ gibbsWeight alpha e i :=
  div_nonneg (Real.exp_pos _).le (Finset.sum_nonneg fun _ _ => (Real.exp_pos _).le)

theorem gibbsWeight_sum [NeZero n] (alpha : ℝ) (e : Fin n → ℝ) : ∑ i, gibbsWeight alpha e i = 1 := by
  unfold gibbsWeight
  rw [← Finset.sum_div, div_self]
  exact (Finset.sum_pos (fun _ _ => Real.exp_pos _) ⟨⟨0, Nat.pos_of_ne_zero (NeZero.ne n)⟩, Finset.mem_univ _⟩).ne'

theorem iSup_abs_le [NeZero n] {w : Fin n → ℝ} {W : ℝ} (h : ∀ i, |w i| ≤ W) : |⨆ i, w i| ≤ W := by
  obtain ⟨k, hk⟩ := exists_eq_ciSup_of_finite (f := w)
  rw [← hk]
  exact h k

/-- The default rule: error of the coefficients. -/
theorem default_coeffs {A : Arith} {u η W alpha : ℝ} (S : StdModel A u η) [NeZero n] {t : SumTree (Fin n)} (ht : t.Covers) {e : Fin n → ℝ}
    (hW : ∀ i, |alpha * e i| ≤ W) (hv : 10 * (u * W) + 130 * ((n : ℝ) ^ 2 * (u + η)) ≤ 1) (i : Fin n) :
    |A.coeffs t (A.weights alpha e) i - gibbsWeight alpha e i| ≤ (10 * (u * W) + 106 * ((n : ℝ) ^ 2 * (u + η))) * gibbsWeight alpha e i + 6 * (u + η) := by
  have hu := S.u_nonneg
  have hη := S.η_nonneg
  have hW0 : 0 ≤ W := (abs_nonneg _).trans (hW i)
  have huW : 0 ≤ u * W := mul_nonneg hu hW0
  have hn : (1 : ℝ) ≤ n := by exact_mod_cast Nat.one_le_iff_ne_zero.2 (NeZero.ne n)
  have hn2 : (1 : ℝ) ≤ (n : ℝ) ^ 2 := by nlinarith
  have hv1 : u + η ≤ (n : ℝ) ^ 2 * (u + η) := by nlinarith
  set δ := u * W + η with hδ
  have hw : ∀ j, |A.weights alpha e j - -alpha * e j| ≤ δ := by
    intro j
    have h1 := S.mul (-alpha) (e j)
    have h2 : |-alpha * e j| ≤ W := by rw [neg_mul, abs_neg]; exact hW j
    have h3 := mul_le_mul_of_nonneg_left h2 hu
    unfold Arith.weights
    linarith
  have hw2 : ∀ j, |A.weights alpha e j| ≤ W + δ := by
    intro j
    have h1 := abs_add_le (A.weights alpha e j - -alpha * e j) (-alpha * e j)
    rw [sub_add_cancel, neg_mul, abs_neg, ← neg_mul] at h1
    linarith [hw j, hW j]
  set w := A.weights alpha e with hwd
  have huδ : u * δ ≤ u + η := by nlinarith
  have hε : u * (W + δ) + 16 * ((n : ℝ) ^ 2 * (u + η)) ≤ 1 := by rw [mul_add]; linarith
  have hc := coeffs_err S ht w (iSup_abs_le hw2) hε i
  -- the weights
  have hT : 0 < ∑ j, Real.exp (w j) := Finset.sum_pos (fun _ _ => Real.exp_pos _) ⟨i, Finset.mem_univ i⟩
  have hT' : 0 < ∑ j, Real.exp (-alpha * e j) := Finset.sum_pos (fun _ _ => Real.exp_pos _) ⟨i, Finset.mem_univ i⟩
  have hup : ∀ j, Real.exp (w j) ≤ Real.exp (-alpha * e j) * Real.exp δ := fun j => by
    rw [← Real.exp_add]; exact Real.exp_le_exp.2 (by linarith [(abs_le.1 (hw j)).2])
  have hlo : ∀ j, Real.exp (-alpha * e j) * Real.exp (-δ) ≤ Real.exp (w j) := fun j => by
    rw [← Real.exp_add]; exact Real.exp_le_exp.2 (by linarith [(abs_le.1 (hw j)).1])
  have sup : ∑ j, Real.exp (w j) ≤ (∑ j, Real.exp (-alpha * e j)) * Real.exp δ := by rw [Finset.sum_mul]; exact Finset.sum_le_sum fun j _ => hup j
  have slo : (∑ j, Real.exp (-alpha * e j)) * Real.exp (-δ) ≤ ∑ j, Real.exp (w j) := by rw [Finset.sum_mul]; exact Finset.sum_le_sum fun j _ => hlo j
  have hd1 : Real.exp (w i) / ∑ j, Real.exp (w j) ≤ gibbsWeight alpha e i * Real.exp (2 * δ) := by
    unfold gibbsWeight
    rw [div_le_iff₀ hT]
    have : Real.exp (2 * δ) = Real.exp δ * Real.exp δ := by rw [← Real.exp_add]; ring_nf
    calc Real.exp (w i) ≤ Real.exp (-alpha * e i) * Real.exp δ := hup i
      _ = Real.exp (-alpha * e i) / (∑ j, Real.exp (-alpha * e j)) * Real.exp (2 * δ) * ((∑ j, Real.exp (-alpha * e j)) * Real.exp (-δ)) := by
          rw [this, Real.exp_neg]
          field_simp
      _ ≤ _ := mul_le_mul_of_nonneg_left slo (by positivity)
  have hd2 : gibbsWeight alpha e i * Real.exp (-(2 * δ)) ≤ Real.exp (w i) / ∑ j, Real.exp (w j) := by
    unfold gibbsWeight
    rw [le_div_iff₀ hT]
    have : Real.exp (-(2 * δ)) = Real.exp (-δ) * Real.exp (-δ) := by rw [← Real.exp_add]; ring_nf
    calc _ ≤ Real.exp (-alpha * e i) / (∑ j, Real.exp (-alpha * e j)) * Real.exp (-(2 * δ)) * ((∑ j, Real.exp (-alpha * e j)) * Real.exp δ) :=
          mul_le_mul_of_nonneg_left sup (by positivity)
      _ = Real.exp (-alpha * e i) * Real.exp (-δ) := by
          rw [this, Real.exp_neg]
          field_simp
      _ ≤ _ := hlo i
  have hδ0 : 0 ≤ δ := by positivity
  have hδ1 : 2 * δ ≤ 1 := by linarith
  have hc0 := gibbsWeight_nonneg alpha e i
  have hx1 := Real.abs_exp_sub_one_le (x := 2 * δ) (by rw [abs_of_nonneg (by linarith)]; exact hδ1)
  have hx2 := Real.abs_exp_sub_one_le (x := -(2 * δ)) (by rw [abs_neg, abs_of_nonneg (by linarith)]; exact hδ1)
  rw [abs_of_nonneg (by linarith : 0 ≤ 2 * δ)] at hx1
  rw [abs_neg, abs_of_nonneg (by linarith : 0 ≤ 2 * δ)] at hx2
  have hx3 := (abs_le.1 hx1).2
  have hx4 := (abs_le.1 hx2).1
  generalize gibbsWeight alpha e i = c at *
  generalize Real.exp (w i) / ∑ j, Real.exp (w j) = g at *
  have hgc : |g - c| ≤ 4 * δ * c := by
    rw [abs_le]
    constructor
    · nlinarith
    · nlinarith
  have hg3 : g ≤ 3 * c := by
    have := (abs_le.1 hgc).2
    nlinarith
  have h1 := abs_add_le (A.coeffs t w i - g) (g - c)
  rw [sub_add_sub_cancel] at h1
  have h2 : 2 * (u * (W + δ) + 16 * ((n : ℝ) ^ 2 * (u + η))) * g ≤ 2 * (u * (W + δ) + 16 * ((n : ℝ) ^ 2 * (u + η))) * (3 * c) :=
    mul_le_mul_of_nonneg_left hg3 (by positivity)
  have h3 : u * δ * c ≤ (n : ℝ) ^ 2 * (u + η) * c := mul_le_mul_of_nonneg_right (huδ.trans hv1) hc0
  have h4 : η * c ≤ (n : ℝ) ^ 2 * (u + η) * c := mul_le_mul_of_nonneg_right (by linarith) hc0
  have h5 : 2 * (u * (W + δ) + 16 * ((n : ℝ) ^ 2 * (u + η))) * (3 * c) = 6 * (u * W * c) + 6 * (u * δ * c) + 96 * ((n : ℝ) ^ 2 * (u + η) * c) := by ring
  have h6 : 4 * δ * c = 4 * (u * W * c) + 4 * (η * c) := by rw [hδ]; ring
  have h7 : (10 * (u * W) + 106 * ((n : ℝ) ^ 2 * (u + η))) * c = 10 * (u * W * c) + 106 * ((n : ℝ) ^ 2 * (u + η) * c) := by ring
  linarith

/-- Arithmetic of the rescaled rule. -/
theorem rescaled_combine {u η N m T T' E E' c C : ℝ} (hu : 0 ≤ u) (hη : 0 ≤ η) (hm0 : 0 ≤ m) (hn : 1 ≤ N) (hNv : N * (u + η) ≤ m) (hv : 100 * m ≤ 1)
    (huη : u * η ≤ m) (hT' : 3 / 4 ≤ T') (hTT : |T' - T| ≤ 4 * (N * (u + η))) (hEi : |E' - E| ≤ 4 * (u + η)) (hc0 : 0 ≤ c) (hE1 : E = c * T)
    (hC : |C - E' / T'| ≤ 2 * (u * η + 16 * m) * (E' / T') + 6 * (u + η)) : |C - c| ≤ 54 * m * c + 24 * (u + η) := by
  have hgc : |E' / T' - c| ≤ 6 * (u + η) + 6 * (N * (u + η)) * c := by
    have e1 : E' / T' - c = ((E' - E) + c * (T - T')) / T' := by
      rw [eq_div_iff (by linarith), sub_mul, div_mul_cancel₀ _ (by linarith), hE1]
      ring
    rw [e1, abs_div, abs_of_pos (by linarith : 0 < T'), div_le_iff₀ (by linarith)]
    have h1 := abs_add_le (E' - E) (c * (T - T'))
    rw [abs_mul, abs_of_nonneg hc0, abs_sub_comm T T'] at h1
    have h2 := mul_le_mul_of_nonneg_left hTT hc0
    have h3 : 0 ≤ 6 * (u + η) + 6 * (N * (u + η)) * c := by positivity
    have h4 := mul_le_mul_of_nonneg_left hT' h3
    linarith
  generalize E' / T' = g at *
  have h1 := abs_add_le (C - g) (g - c)
  rw [sub_add_sub_cancel] at h1
  have hg : g ≤ c + 6 * (u + η) + 6 * (N * (u + η)) * c := by linarith [(abs_le.1 hgc).2]
  have h2 : 2 * (u * η + 16 * m) * g ≤ 34 * m * (c + 6 * (u + η) + 6 * (N * (u + η)) * c) := by
    have b1 : 0 ≤ u * η + 16 * m := by positivity
    have b2 := mul_le_mul_of_nonneg_left hg (show 0 ≤ 2 * (u * η + 16 * m) by linarith)
    have b3 : 0 ≤ c + 6 * (u + η) + 6 * (N * (u + η)) * c := by positivity
    have b4 := mul_le_mul_of_nonneg_right (show 2 * (u * η + 16 * m) ≤ 34 * m by linarith) b3
    linarith
  have hnc : N * (u + η) * c ≤ m * c := mul_le_mul_of_nonneg_right hNv hc0
  have hmc : 0 ≤ m * c := mul_nonneg hm0 hc0
  have h3 : 34 * m * (6 * (u + η)) ≤ 6 * (u + η) := by
    have := mul_le_mul_of_nonneg_right (show 34 * m ≤ 1 by linarith) (show 0 ≤ 6 * (u + η) by linarith)
    linarith
  have h4 : 34 * m * (6 * (N * (u + η)) * c) ≤ 6 * (m * c) := by
    have := mul_le_mul_of_nonneg_right (show 34 * m ≤ 1 by linarith) (show 0 ≤ 6 * (N * (u + η)) * c by positivity)
    linarith
  have h5 : 34 * m * (c + 6 * (u + η) + 6 * (N * (u + η)) * c) = 34 * (m * c) + 34 * m * (6 * (u + η)) + 34 * m * (6 * (N * (u + η)) * c) := by ring
  linarith

/-- The rescaled rule: error of the coefficients. -/
theorem rescaled_coeffs {A : Arith} {u η alpha : ℝ} (S : StdModel A u η) [NeZero n] {t : SumTree (Fin n)} (ht : t.Covers) {e : Fin n → ℝ} (ha : 0 ≤ alpha)
    (hv : 100 * ((n : ℝ) ^ 2 * (u + η)) ≤ 1) (i : Fin n) :
    |A.coeffs t (A.weights alpha fun j => A.sub (e j) (⨅ k, e k)) i - gibbsWeight alpha e i| ≤
      54 * ((n : ℝ) ^ 2 * (u + η)) * gibbsWeight alpha e i + 24 * (u + η) := by
  have hu := S.u_nonneg
  have hη := S.η_nonneg
  have hn : (1 : ℝ) ≤ n := by exact_mod_cast Nat.one_le_iff_ne_zero.2 (NeZero.ne n)
  have hn2 : (1 : ℝ) ≤ (n : ℝ) ^ 2 := by nlinarith
  have hnn : (n : ℝ) ≤ (n : ℝ) ^ 2 := by nlinarith
  have hNv : (n : ℝ) * (u + η) ≤ (n : ℝ) ^ 2 * (u + η) := mul_le_mul_of_nonneg_right hnn (by linarith)
  have hv1 : u + η ≤ n * (u + η) := by nlinarith
  set em := ⨅ k, e k with hem
  obtain ⟨k, hk⟩ : ∃ k, e k = em := exists_eq_ciInf_of_finite (f := e)
  have hde : ∀ j, 0 ≤ e j - em := fun j => sub_nonneg.2 (ciInf_le (Set.finite_range e).bddBelow j)
  set d : Fin n → ℝ := fun j => -alpha * (e j - em) with hd
  have hd0 : ∀ j, d j ≤ 0 := fun j => by rw [hd]; simp only; rw [neg_mul]; linarith [mul_nonneg ha (hde j)]
  set w := A.weights alpha fun j => A.sub (e j) em with hwd
  have hw : ∀ j, |w j - d j| ≤ 3 * u * |d j| + η := by
    intro j
    have h1 := S.mul (-alpha) (A.sub (e j) em)
    have h2 := S.sub (e j) em
    have h3 : |-alpha * A.sub (e j) em - d j| ≤ u * |d j| := by
      rw [hd]; simp only
      rw [← mul_sub, abs_mul, abs_mul]
      have := mul_le_mul_of_nonneg_left h2 (abs_nonneg (-alpha))
      linarith
    have h4 := abs_add_le (-alpha * A.sub (e j) em - d j) (d j)
    rw [sub_add_cancel] at h4
    have h5 := mul_le_mul_of_nonneg_left h4 hu
    have h6 := abs_add_le (w j - -alpha * A.sub (e j) em) (-alpha * A.sub (e j) em - d j)
    rw [sub_add_sub_cancel] at h6
    have h7 : w j = A.mul (-alpha) (A.sub (e j) em) := rfl
    rw [← h7] at h1
    have h8 : u * (u * |d j|) ≤ u * |d j| := by
      have := mul_nonneg hu (abs_nonneg (d j))
      nlinarith
    have h9 := mul_le_mul_of_nonneg_left h3 hu
    linarith
  have hdk : d k = 0 := by rw [hd]; simp [hk]
  have hup : ∀ j, w j ≤ η := fun j => by
    have h1 := (abs_le.1 (hw j)).2
    rw [abs_of_nonpos (hd0 j)] at h1
    nlinarith [hd0 j]
  have hmax : |⨆ j, w j| ≤ η := by
    have h1 : w k ≤ ⨆ j, w j := le_ciSup (Set.finite_range w).bddAbove k
    have h2 := (abs_le.1 (hw k)).1
    rw [hdk, abs_zero, mul_zero, zero_add, sub_zero] at h2
    have : Nonempty (Fin n) := ⟨k⟩
    exact abs_le.2 ⟨by linarith, ciSup_le hup⟩
  have huη : u * η ≤ (n : ℝ) ^ 2 * (u + η) := by nlinarith
  have hε : u * η + 16 * ((n : ℝ) ^ 2 * (u + η)) ≤ 1 := by linarith
  have hc := coeffs_err S ht w hmax hε i
  -- the exponentials
  have hE : ∀ j, |Real.exp (w j) - Real.exp (d j)| ≤ 4 * (u + η) := by
    intro j
    have h1 := exp_perturb (k := 3 * u) (by positivity) (by linarith) hη (hd0 j) (hw j)
    have h2 : Real.exp η ≤ 1 + 1 / 8 := by
      have := (abs_le.1 (Real.abs_exp_sub_one_le (x := η) (by rw [abs_of_nonneg hη]; linarith))).2
      rw [abs_of_nonneg hη] at this
      linarith
    have h3 := mul_le_mul_of_nonneg_left h2 (show 0 ≤ 3 * u + η by linarith)
    linarith
  have hgib : gibbsWeight alpha e i = Real.exp (d i) / ∑ j, Real.exp (d j) := by
    unfold gibbsWeight
    have h1 : ∀ j, Real.exp (d j) = Real.exp (-alpha * e j) * Real.exp (alpha * em) := fun j => by rw [← Real.exp_add, hd]; ring_nf
    simp only [h1]
    rw [← Finset.sum_mul, mul_div_mul_right _ _ (Real.exp_pos _).ne']
  have hc0 := gibbsWeight_nonneg alpha e i
  rw [hgib] at hc0 ⊢
  have hT1 : 1 ≤ ∑ j, Real.exp (d j) := by
    have : Real.exp (d k) ≤ ∑ j, Real.exp (d j) := Finset.single_le_sum (f := fun i => Real.exp (d i)) (fun i _ => (Real.exp_pos _).le) (Finset.mem_univ k)
    rwa [hdk, Real.exp_zero] at this
  have hTT : |∑ j, Real.exp (w j) - ∑ j, Real.exp (d j)| ≤ 4 * (n * (u + η)) := by
    rw [← Finset.sum_sub_distrib]
    refine (Finset.abs_sum_le_sum_abs _ _).trans ((Finset.sum_le_sum fun j _ => hE j).trans ?_)
    rw [Finset.sum_const, Finset.card_univ, Fintype.card_fin, nsmul_eq_mul]
    linarith
  have hEi := hE i
  generalize ∑ j, Real.exp (d j) = T at *
  generalize ∑ j, Real.exp (w j) = T' at *
  generalize Real.exp (d i) = E at *
  generalize Real.exp (w i) = E' at *
  have hT' : 3 / 4 ≤ T' := by linarith [(abs_le.1 hTT).1]
  set c := E / T with hcd
  have hE1 : E = c * T := by rw [hcd, div_mul_cancel₀]; linarith
  exact rescaled_combine hu hη (by linarith) hn hNv hv huη hT' hTT hEi hc0 hE1 hc

end Verif
