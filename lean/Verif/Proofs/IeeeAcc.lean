import Verif.Proofs.IeeeCons
import Mathlib.Order.ConditionallyCompleteLattice.Finset

/-! Without overflow IEEE arithmetic is an arithmetic obeying the standard model. -/

set_option linter.unusedSectionVars false

namespace Verif

variable {φ : IeeeFmt} {v η : ℝ} {A : FltArith} {n : ℕ}

/-- The value of a finite number. -/
noncomputable def fltVal : Flt ℝ → ℝ
  | .fin a => a
  | _ => 0

open Classical in
/-- The operations on finite numbers, continued without overflow. -/
noncomputable def realArith (φ : IeeeFmt) (A : FltArith) : Arith where
  add a b := if IsIeee φ.p φ.emin a ∧ IsIeee φ.p φ.emin b then φ.rd (a + b) else a + b
  sub a b := if IsIeee φ.p φ.emin a ∧ IsIeee φ.p φ.emin b then φ.rd (a - b) else a - b
  mul a b := φ.rd (a * b)
  exp a := if a ≤ 0 then fltVal (A.exp (.fin a)) else Real.exp a
  log a := if 1 ≤ a ∧ a ≤ φ.top then fltVal (A.log (.fin a)) else Real.log a

open Classical in
theorem realArith_std (H : IeeeArith φ v η A) (hv : φ.u ≤ v) (hη : (2 : ℝ) ^ φ.emin ≤ η) : StdModel (realArith φ A) v η where
  u_nonneg := φ.u_pos.le.trans hv
  η_nonneg := (two_zpow_pos _).le.trans hη
  add a b := by
    have h0 := mul_nonneg (φ.u_pos.le.trans hv) (abs_nonneg (a + b))
    show |(if IsIeee φ.p φ.emin a ∧ IsIeee φ.p φ.emin b then φ.rd (a + b) else a + b) - (a + b)| ≤ _
    split_ifs with h
    · exact (IeeeFmt.add_err h.1 h.2).trans (mul_le_mul_of_nonneg_right hv (abs_nonneg _))
    · rw [sub_self, abs_zero]; exact h0
  sub a b := by
    have h0 := mul_nonneg (φ.u_pos.le.trans hv) (abs_nonneg (a - b))
    show |(if IsIeee φ.p φ.emin a ∧ IsIeee φ.p φ.emin b then φ.rd (a - b) else a - b) - (a - b)| ≤ _
    split_ifs with h
    · have := IeeeFmt.add_err h.1 h.2.neg
      rw [← sub_eq_add_neg] at this
      exact this.trans (mul_le_mul_of_nonneg_right hv (abs_nonneg _))
    · rw [sub_self, abs_zero]; exact h0
  mul a b := by
    have h1 := mul_le_mul_of_nonneg_right hv (abs_nonneg (a * b))
    have h2 := φ.rd_err (a * b)
    show |φ.rd (a * b) - a * b| ≤ _
    linarith
  exp a := by
    have h0 := mul_nonneg (φ.u_pos.le.trans hv) (Real.exp_pos a).le
    have h1 := (two_zpow_pos φ.emin).le.trans hη
    show |(if a ≤ 0 then fltVal (A.exp (.fin a)) else Real.exp a) - Real.exp a| ≤ _
    split_ifs with h
    · obtain ⟨r, h1, -, h2⟩ := H.exp_le a h
      rw [h1]
      exact h2
    · rw [sub_self, abs_zero]; linarith
  exp_nonneg a := by
    show 0 ≤ (if a ≤ 0 then fltVal (A.exp (.fin a)) else Real.exp a)
    split_ifs with h
    · rcases H.exp_fin a with h1 | ⟨r, h1, -, h2⟩ <;> rw [h1]
      · exact le_rfl
      · exact h2
    · exact (Real.exp_pos a).le
  log a _ := by
    have h0 := mul_nonneg (φ.u_pos.le.trans hv) (abs_nonneg (Real.log a))
    have h1 := (two_zpow_pos φ.emin).le.trans hη
    show |(if 1 ≤ a ∧ a ≤ φ.top then fltVal (A.log (.fin a)) else Real.log a) - Real.log a| ≤ _
    split_ifs with h
    · obtain ⟨r, h1, -, -, h2⟩ := H.log_fin a h.1 h.2
      rw [h1, abs_of_nonneg (Real.log_nonneg h.1)]
      exact h2
    · rw [sub_self, abs_zero]; linarith

theorem realArith_add {a b : ℝ} (ha : φ.Num a) (hb : φ.Num b) : (realArith φ A).add a b = φ.rd (a + b) := if_pos ⟨ha.1, hb.1⟩

theorem realArith_sub {a b : ℝ} (ha : φ.Num a) (hb : φ.Num b) : (realArith φ A).sub a b = φ.rd (a - b) := if_pos ⟨ha.1, hb.1⟩

/-- Sums of bounded numbers are computed as in the continued arithmetic. -/
theorem IeeeArith.sum_real (H : IeeeArith φ v η A) {ι : Type} (f : ι → ℝ) (X : ℝ) (X0 : 0 ≤ X) (t : SumTree ι) (hf : ∀ i ∈ t.leaves, φ.Num (f i) ∧ |f i| ≤ X)
    (hX : t.leaves.length * (1 + φ.u) ^ t.leaves.length * X ≤ φ.top) :
    t.evalFlt A.add (fun i => .fin (f i)) = .fin (t.eval (realArith φ A).add f) := by
  induction t with
  | leaf i => rfl
  | node l r hl hr =>
    have hu := φ.u_pos
    simp only [SumTree.leaves, SumTree.evalFlt, SumTree.eval, List.mem_append, List.length_append] at hf hX ⊢
    have m1 : (1 : ℝ) ≤ 1 + φ.u := by linarith
    have key : ∀ k j : ℕ, ((k + j : ℕ) : ℝ) * (1 + φ.u) ^ (k + j) * X ≤ φ.top → (k : ℝ) * (1 + φ.u) ^ k * X ≤ φ.top := by
      intro k j h
      refine le_trans (mul_le_mul_of_nonneg_right ?_ X0) h
      refine mul_le_mul (by push_cast; linarith [(Nat.cast_nonneg j : (0 : ℝ) ≤ j)]) (pow_le_pow_right₀ m1 (by omega)) (by positivity) (by positivity)
    have k1 := key _ _ hX
    have k2 := key r.leaves.length l.leaves.length (by rw [add_comm]; exact hX)
    obtain ⟨-, s, h1, h2, h3⟩ := H.sum_bounded (fun i => .fin (f i)) X X0 (.node l r) (fun i hi => ⟨_, rfl, hf i (by simpa [SumTree.leaves] using hi)⟩) (by
      simpa only [SumTree.leaves, List.length_append] using hX)
    obtain ⟨-, a, a1, a2, -⟩ := H.sum_bounded (fun i => .fin (f i)) X X0 l (fun i hi => ⟨_, rfl, hf i (.inl hi)⟩) k1
    obtain ⟨-, b, b1, b2, -⟩ := H.sum_bounded (fun i => .fin (f i)) X X0 r (fun i hi => ⟨_, rfl, hf i (.inr hi)⟩) k2
    have e1 := hl (fun i hi => hf i (.inl hi)) k1
    have e2 := hr (fun i hi => hf i (.inr hi)) k2
    rw [a1] at e1
    rw [b1] at e2
    injection e1 with e1
    injection e2 with e2
    simp only [SumTree.evalFlt, a1, b1] at h1 ⊢
    rw [← e1, ← e2, realArith_add a2 b2, H.add] at *
    have h4 : φ.round (.fin (a + b)) = .fin s := h1
    show φ.round (.fin (a + b)) = _
    by_cases hc : |φ.rd (a + b)| ≤ φ.top
    · exact IeeeFmt.round_fin hc
    · exfalso
      rw [abs_le, not_and_or] at hc
      change (if φ.top < φ.rd (a + b) then (.pinf : Flt ℝ) else if φ.rd (a + b) < -φ.top then .ninf else .fin (φ.rd (a + b))) = .fin s at h4
      split_ifs at h4 with q1 q2
      rcases hc with hc | hc
      · exact q2 (not_le.1 hc)
      · exact q1 (not_le.1 hc)

theorem lseShift_fin [NeZero n] (w : Fin n → ℝ) : lseShift (List.ofFn fun i => (.fin (w i) : Flt ℝ)) = ⨆ i, w i := by
  have i₀ : Fin n := ⟨0, Nat.pos_of_ne_zero (NeZero.ne n)⟩
  have : Nonempty (Fin n) := ⟨i₀⟩
  obtain ⟨i, h1, h2⟩ := lseShift_good (fun i => (.fin (w i) : Flt ℝ)) (fun i => .inr ⟨_, rfl⟩) ⟨i₀, _, rfl⟩
  injection h1 with h1
  refine le_antisymm ?_ (ciSup_le fun j => h2 j _ rfl)
  rw [← h1]
  exact le_ciSup (Set.finite_range w).bddAbove i

theorem rd_two (x : ℝ) : |φ.rd x| ≤ 2 * |x| := by
  have h1 := (φ.near x).2 0 (isIeee_zero _ _)
  rw [zero_sub, abs_neg] at h1
  have h2 := abs_add_le (φ.rd x - x) x
  rw [sub_add_cancel] at h2
  linarith

/-- Without overflow the consensus point is that of the continued arithmetic. -/
theorem IeeeArith.consensus_real (H : IeeeArith φ v η A) [NeZero n] (t t' : SumTree (Fin n)) (ht : t.Covers) (ht' : t'.Covers) (alpha : ℝ) (e x : Fin n → ℝ) (W X : ℝ)
    (hW : ∀ i, |alpha * e i| ≤ W) (hx : ∀ i, |x i| ≤ X) (hv : v ≤ 1) (hη : η ≤ 1) (hu : (1 + φ.u) ^ n ≤ 2) (hXr : IsIeee φ.p φ.emin X)
    (htop : 6 * W + 8 * n + 5 ≤ φ.top) (hX : 2 * n * X ≤ φ.top) :
    A.consensus t t' alpha (fun i => .fin (e i)) (fun i => .fin (x i)) = .fin ((realArith φ A).consensus t t' alpha e x) := by
  have i₀ : Fin n := ⟨0, Nat.pos_of_ne_zero (NeZero.ne n)⟩
  have : Nonempty (Fin n) := ⟨i₀⟩
  have hW0 : 0 ≤ W := (abs_nonneg _).trans (hW i₀)
  have hX0 : 0 ≤ X := (abs_nonneg _).trans (hx i₀)
  have hn : (1 : ℝ) ≤ n := by exact_mod_cast Nat.one_le_iff_ne_zero.2 (NeZero.ne n)
  have hup := φ.u_pos
  have hlt : t.leaves.length = n := by rw [ht.length_eq, List.length_finRange]
  have hlt' : t'.leaves.length = n := by rw [ht'.length_eq, List.length_finRange]
  have hT : (n : ℝ) * (1 + φ.u) ^ n ≤ 2 * n := by nlinarith
  have hT0 : 0 ≤ (n : ℝ) * (1 + φ.u) ^ n := by positivity
  set R := realArith φ A with hR
  -- weights
  have hw1 : ∀ i, |φ.rd (-alpha * e i)| ≤ 2 * W := fun i => (rd_two _).trans (by rw [neg_mul, abs_neg]; linarith [hW i])
  have hwe : A.weights alpha (fun i => .fin (e i)) = fun i => .fin (R.weights alpha e i) := by
    funext i
    show A.mul (.fin (-alpha)) (.fin (e i)) = .fin (φ.rd (-alpha * e i))
    rw [H.mul]
    exact IeeeFmt.round_fin ((hw1 i).trans (by linarith))
  have hwb : ∀ i, φ.Num (R.weights alpha e i) ∧ |R.weights alpha e i| ≤ 2 * W := fun i => ⟨IeeeFmt.rd_num ((hw1 i).trans (by linarith)), hw1 i⟩
  generalize hwd : R.weights alpha e = w at hwe hwb
  -- shift
  obtain ⟨im, him, hmx⟩ := lseShift_good (fun i => (.fin (w i) : Flt ℝ)) (fun i => .inr ⟨_, rfl⟩) ⟨i₀, _, rfl⟩
  rw [lseShift_fin] at him hmx
  injection him with him
  have hm := hwb im
  have hle : ∀ i, w i ≤ ⨆ j, w j := fun i => hmx i _ rfl
  -- differences
  have hd1 : ∀ i, |w i - w im| ≤ 4 * W := fun i => by
    have := abs_sub (w i) (w im)
    linarith [(hwb i).2, hm.2]
  have hd2 : ∀ i, A.sub (.fin (w i)) (.fin (⨆ j, w j)) = .fin (R.sub (w i) (⨆ j, w j)) ∧ R.sub (w i) (⨆ j, w j) ≤ 0 := fun i => by
    rw [← him, realArith_sub (hwb i).1 hm.1, H.sub, sub_fin_eq]
    refine ⟨IeeeFmt.round_fin (IeeeFmt.rd_top ((hd1 i).trans (by linarith))), IeeeFmt.rd_nonpos ?_⟩
    have := hle i
    rw [← him] at this
    linarith
  -- exponentials
  have hexp : ∀ z, z ≤ 0 → A.exp (.fin z) = .fin (R.exp z) ∧ φ.Num (R.exp z) ∧ 0 ≤ R.exp z ∧ R.exp z ≤ 1 := by
    intro z hz
    obtain ⟨c, h1, h2, h3, h4⟩ := H.exp_unit (w := .fin z) (.inr ⟨z, rfl, hz⟩)
    have : R.exp z = c := by
      show (if z ≤ 0 then fltVal (A.exp (.fin z)) else Real.exp z) = c
      rw [if_pos hz, h1]
      rfl
    rw [this]
    exact ⟨h1, h2, h3, h4⟩
  -- sum
  have hs := H.sum_real (fun i => R.exp (R.sub (w i) (⨆ j, w j))) 1 zero_le_one t (fun i _ => by
    obtain ⟨-, q1, q2, q3⟩ := hexp _ (hd2 i).2
    exact ⟨q1, by rw [abs_of_nonneg q2]; exact q3⟩) (by rw [hlt]; linarith)
  have hsum : t.evalFlt A.add (fun i => A.exp (A.sub (.fin (w i)) (.fin (⨆ j, w j)))) = .fin (t.eval R.add fun i => R.exp (R.sub (w i) (⨆ j, w j))) := by
    rw [← hs]
    congr 1
    funext i
    rw [(hd2 i).1, (hexp _ (hd2 i).2).1]
  obtain ⟨-, s, s1, s2, s3⟩ := H.sum_bounded (fun i => .fin (R.exp (R.sub (w i) (⨆ j, w j)))) 1 zero_le_one t (fun i _ => by
    obtain ⟨-, q1, q2, q3⟩ := hexp _ (hd2 i).2
    exact ⟨_, rfl, q1, by rw [abs_of_nonneg q2]; exact q3⟩) (by rw [hlt]; linarith)
  rw [hs] at s1
  injection s1 with s1
  have hge : 1 ≤ s := by
    rcases H.sum_nn (fun i => .fin (R.exp (R.sub (w i) (⨆ j, w j)))) t (fun i _ => by
      obtain ⟨-, q1, q2, -⟩ := hexp _ (hd2 i).2
      exact ⟨_, rfl, q1, q2⟩) with h | ⟨s', h1, -, -, h4⟩
    · rw [hs] at h; cases h
    · rw [hs] at h1
      injection h1 with h1
      refine (h4 im (ht.mem_iff.2 (List.mem_finRange im)) 1 ?_).trans (le_of_eq (h1.symm.trans s1))
      rw [← him, realArith_sub hm.1 hm.1, sub_self, IeeeFmt.rd_zero, ← (hexp 0 le_rfl).1, H.exp_zero]
  rw [hlt, mul_one] at s3
  rw [s1] at hsum
  -- logarithm
  obtain ⟨r, r1, r2, r3, r4⟩ := H.log_fin s hge ((le_abs_self s).trans s2.2)
  have hRlog : R.log s = r := by
    show (if 1 ≤ s ∧ s ≤ φ.top then fltVal (A.log (.fin s)) else Real.log s) = r
    rw [if_pos ⟨hge, (le_abs_self s).trans s2.2⟩, r1]
    rfl
  have hrb : r ≤ 4 * n + 1 := by
    have h1 := Real.log_le_sub_one_of_pos (show 0 < s by linarith)
    have h2 : s ≤ 2 * n := (le_abs_self s).trans (s3.trans hT)
    have h3 : v * Real.log s ≤ 1 * Real.log s := mul_le_mul_of_nonneg_right hv (Real.log_nonneg hge)
    have h4 := (abs_le.1 r4).2
    linarith
  -- logsumexp
  have hadd : |r + w im| ≤ 4 * n + 1 + 2 * W := by
    have := abs_add_le r (w im)
    rw [abs_of_nonneg r3] at this
    linarith [hm.2]
  have hL : A.lse t (fun i => .fin (w i)) = .fin (R.lse t w) ∧ R.lse t w = φ.rd (r + w im) := by
    have e2 : R.lse t w = φ.rd (r + w im) := by
      show R.add (R.log (t.eval R.add fun i => R.exp (R.sub (w i) (⨆ j, w j)))) (⨆ j, w j) = _
      rw [s1, hRlog, ← him, realArith_add r2 hm.1]
    refine ⟨?_, e2⟩
    rw [e2]
    unfold FltArith.lse
    rw [lseShift_fin, hsum, r1, ← him, H.add]
    exact IeeeFmt.round_fin (IeeeFmt.rd_top (hadd.trans (by linarith)))
  have hLn : φ.Num (R.lse t w) := by
    rw [hL.2]
    exact IeeeFmt.rd_num (IeeeFmt.rd_top (hadd.trans (by linarith)))
  have hLb : |R.lse t w| ≤ 8 * n + 2 + 4 * W := by
    rw [hL.2]
    exact (rd_two _).trans (by linarith)
  have hLge : ∀ i, w i ≤ R.lse t w := by
    intro i
    have h1 : w im ≤ φ.rd (r + w im) := by
      have := φ.rd_mono (show w im ≤ r + w im by linarith)
      rwa [IeeeFmt.rd_fix hm.1.1] at this
    rw [hL.2]
    have := hle i
    rw [← him] at this
    linarith
  -- coefficients
  have hc : ∀ i, A.coeffs t (fun i => .fin (w i)) i = .fin (R.coeffs t w i) ∧ φ.Num (R.coeffs t w i) ∧ 0 ≤ R.coeffs t w i ∧ R.coeffs t w i ≤ 1 := by
    intro i
    unfold FltArith.coeffs Arith.coeffs
    rw [hL.1, H.sub, sub_fin_eq, realArith_sub (hwb i).1 hLn]
    have h1 : |w i - R.lse t w| ≤ φ.top := by
      have := abs_sub (w i) (R.lse t w)
      linarith [(hwb i).2]
    rw [IeeeFmt.round_fin (IeeeFmt.rd_top h1)]
    exact hexp _ (IeeeFmt.rd_nonpos (by linarith [hLge i]))
  -- weighted sum
  have hXt : X ≤ φ.top := by nlinarith
  have hpr : ∀ i, |φ.rd (x i * R.coeffs t w i)| ≤ X := by
    intro i
    obtain ⟨-, -, h2, h3⟩ := hc i
    refine IeeeFmt.rd_abs hXr ?_
    rw [abs_mul, abs_of_nonneg h2]
    nlinarith [abs_nonneg (x i), hx i]
  have hfin := H.sum_real (fun i => φ.rd (x i * R.coeffs t w i)) X hX0 t' (fun i _ => ⟨IeeeFmt.rd_num ((hpr i).trans hXt), hpr i⟩) (by
    rw [hlt']
    exact (mul_le_mul_of_nonneg_right hT hX0).trans hX)
  unfold FltArith.consensus Arith.consensus
  rw [hwe]
  have e2 : (fun i => A.mul (.fin (x i)) (A.coeffs t (fun i => .fin (w i)) i)) = fun i => .fin (φ.rd (x i * R.coeffs t w i)) := by
    funext i
    rw [(hc i).1, H.mul]
    exact IeeeFmt.round_fin ((hpr i).trans hXt)
  rw [e2, hfin, hwd]
  rfl

/-- Correctly rounded operations obey the rules. -/
theorem ieeeStd_ok (φ : IeeeFmt) : IeeeArith φ φ.u (2 ^ φ.emin) (ieeeStd φ) where
  add _ _ := rfl
  sub _ _ := rfl
  mul _ _ := rfl
  exp_nan := rfl
  exp_ninf := IeeeFmt.round_num φ.zero_num
  exp_pinf := rfl
  exp_zero := by
    show φ.round (.fin (Real.exp 0)) = _
    rw [Real.exp_zero, IeeeFmt.round_num φ.one_num]
  exp_fin a := by
    rcases IeeeFmt.round_ge φ.zero_num (Real.exp_pos a).le with h | ⟨r, h1, h2, h3⟩
    · exact .inl h
    · exact .inr ⟨r, h1, h2, h3⟩
  exp_le a ha := by
    have h1 : Real.exp a ≤ 1 := Real.exp_le_one_iff.2 ha
    have h2 := IeeeFmt.rd_abs φ.one_repr (show |Real.exp a| ≤ 1 by rw [abs_of_pos (Real.exp_pos a)]; exact h1)
    refine ⟨φ.rd (Real.exp a), IeeeFmt.round_fin (h2.trans φ.top_ge), (le_abs_self _).trans h2, ?_⟩
    have := φ.rd_err (Real.exp a)
    rwa [abs_of_pos (Real.exp_pos a)] at this
  log_nan := rfl
  log_pinf := rfl
  log_zero := by
    show φ.round (if (0 : ℝ) < 0 then .nan else if (0 : ℝ) = 0 then .ninf else _) = _
    rw [if_neg (lt_irrefl _), if_pos rfl]
    rfl
  log_fin a h1 h2 := by
    have h3 : 0 ≤ Real.log a := Real.log_nonneg h1
    have h4 : Real.log a ≤ a := (Real.log_le_sub_one_of_pos (by linarith)).trans (by linarith)
    have h5 : |φ.rd (Real.log a)| ≤ φ.top := IeeeFmt.rd_top (by rw [abs_of_nonneg h3]; linarith)
    refine ⟨φ.rd (Real.log a), ?_, IeeeFmt.rd_num h5, IeeeFmt.rd_nonneg h3, ?_⟩
    · show φ.round (if a < 0 then .nan else if a = 0 then .ninf else .fin (Real.log a)) = _
      rw [if_neg (by linarith), if_neg (by linarith)]
      exact IeeeFmt.round_fin h5
    · have := φ.rd_err (Real.log a)
      rwa [abs_of_nonneg h3] at this

/-! ### The rule that subtracts the smallest energy -/

theorem fltMin_usable (l : List (Flt ℝ)) (h : ∀ v ∈ l, v = .pinf ∨ ∃ e, v = .fin e) (hf : ∃ e, .fin e ∈ l) : ∃ m, fltMin l = .fin m ∧ .fin m ∈ l ∧ ∀ e, .fin e ∈ l → m ≤ e := by
  have key : ∀ (l : List (Flt ℝ)) (a : Flt ℝ), (a = .pinf ∨ ∃ e, a = .fin e) → (∀ v ∈ l, v = .pinf ∨ ∃ e, v = .fin e) →
      l.foldl Flt.minimum a = .pinf ∧ a = .pinf ∧ (∀ v ∈ l, v = .pinf) ∨
        ∃ m, l.foldl Flt.minimum a = .fin m ∧ (a = .fin m ∨ .fin m ∈ l) ∧ (∀ e, a = .fin e → m ≤ e) ∧ ∀ e, .fin e ∈ l → m ≤ e := by
    intro l
    induction l with
    | nil =>
      intro a ha _
      rcases ha with rfl | ⟨e, rfl⟩
      · exact .inl ⟨rfl, rfl, fun v hv => by cases hv⟩
      · refine .inr ⟨e, rfl, .inl rfl, fun y hy => ?_, fun y hy => by cases hy⟩
        injection hy with hy
        exact hy.le
    | cons b l ih =>
      intro a ha hl
      have hb := hl b (List.mem_cons_self ..)
      have hl' := fun v hv => hl v (List.mem_cons_of_mem _ hv)
      rw [List.foldl_cons]
      rcases ha with rfl | ⟨x, rfl⟩
      · have e : Flt.minimum (.pinf : Flt ℝ) b = b := by rcases hb with rfl | ⟨y, rfl⟩ <;> rfl
        rw [e]
        rcases ih b hb hl' with ⟨h1, h2, h3⟩ | ⟨m, h1, h2, h3, h4⟩
        · left
          refine ⟨h1, rfl, fun v hv => ?_⟩
          rcases List.mem_cons.1 hv with rfl | hv
          · exact h2
          · exact h3 v hv
        · right
          refine ⟨m, h1, .inr ?_, fun z hz => (nomatch hz), fun z hz => ?_⟩
          · rcases h2 with rfl | h2
            · exact List.mem_cons_self ..
            · exact List.mem_cons_of_mem _ h2
          · rcases List.mem_cons.1 hz with hz | hz
            · exact h3 z hz.symm
            · exact h4 z hz
      · rcases hb with rfl | ⟨y, rfl⟩
        · have e : Flt.minimum (.fin x : Flt ℝ) .pinf = .fin x := rfl
          rw [e]
          rcases ih (.fin x) (.inr ⟨x, rfl⟩) hl' with ⟨-, h2, -⟩ | ⟨m, h1, h2, h3, h4⟩
          · cases h2
          · right
            refine ⟨m, h1, h2.imp_right (List.mem_cons_of_mem _), h3, fun z hz => ?_⟩
            rcases List.mem_cons.1 hz with hz | hz
            · cases hz
            · exact h4 z hz
        · have e : Flt.minimum (.fin x : Flt ℝ) (.fin y) = .fin (min x y) := by
            show (if decide (y < x) = true then Flt.fin y else .fin x) = _
            by_cases h : y < x
            · rw [if_pos (decide_eq_true h), min_eq_right h.le]
            · rw [if_neg (by simpa using h), min_eq_left (not_lt.1 h)]
          rw [e]
          rcases ih (.fin (min x y)) (.inr ⟨_, rfl⟩) hl' with ⟨-, h2, -⟩ | ⟨m, h1, h2, h3, h4⟩
          · cases h2
          · right
            have h5 := h3 _ rfl
            refine ⟨m, h1, ?_, fun z hz => ?_, fun z hz => ?_⟩
            · rcases h2 with h2 | h2
              · injection h2 with h2
                rcases min_choice x y with h | h
                · left; rw [← h2, h]
                · right; rw [← h2, h]; exact List.mem_cons_self ..
              · exact .inr (List.mem_cons_of_mem _ h2)
            · injection hz with hz
              rw [← hz]
              exact h5.trans (min_le_left _ _)
            · rcases List.mem_cons.1 hz with hz | hz
              · injection hz with hz
                rw [hz]
                exact h5.trans (min_le_right _ _)
              · exact h4 z hz
  cases l with
  | nil => obtain ⟨e, he⟩ := hf; cases he
  | cons a l =>
    rcases key l a (h a (List.mem_cons_self ..)) (fun v hv => h v (List.mem_cons_of_mem _ hv)) with ⟨-, h2, h3⟩ | ⟨m, h1, h2, h3, h4⟩
    · obtain ⟨e, he⟩ := hf
      rcases List.mem_cons.1 he with he | he
      · rw [h2] at he; cases he
      · have := h3 _ he; cases this
    · refine ⟨m, h1, ?_, fun e he => ?_⟩
      · rcases h2 with rfl | h2
        · exact List.mem_cons_self ..
        · exact List.mem_cons_of_mem _ h2
      · rcases List.mem_cons.1 he with he | he
        · exact h3 e he.symm
        · exact h4 e he

/-- After subtracting the smallest energy the coefficients can always be formed. -/
theorem IeeeArith.rescaled_ok (H : IeeeArith φ v η A) {alpha : ℝ} (ha : 0 < alpha) {e : Fin n → Flt ℝ} (he : ∀ i, e i = .pinf ∨ ∃ a, e i = .fin a) (hf : ∃ i a, e i = .fin a) :
    WeightsOK φ alpha fun i => A.sub (e i) (fltMin (List.ofFn e)) := by
  obtain ⟨m, h1, h2, h3⟩ := fltMin_usable (List.ofFn e) (fun v hv => by
    obtain ⟨i, rfl⟩ := List.mem_ofFn.1 hv
    exact he i) (by
    obtain ⟨i, a, h⟩ := hf
    exact ⟨a, List.mem_ofFn.2 ⟨i, h⟩⟩)
  obtain ⟨i₀, hi⟩ := List.mem_ofFn.1 h2
  rw [h1]
  have ht := φ.top_ge
  constructor
  · intro i
    beta_reduce
    rw [H.sub]
    rcases he i with h | ⟨a, h⟩ <;> rw [h]
    · exact .inl rfl
    · rw [sub_fin_eq]
      have hma : 0 ≤ a - m := by linarith [h3 a (List.mem_ofFn.2 ⟨i, h⟩)]
      rcases IeeeFmt.round_ge φ.zero_num hma with q | ⟨r, q1, -, q3⟩
      · exact .inl q
      · refine .inr ⟨r, q1, ?_⟩
        have : φ.rd (-alpha * r) ≤ 0 := IeeeFmt.rd_nonpos (by nlinarith)
        linarith
  · refine ⟨i₀, 0, ?_, ?_⟩
    · beta_reduce
      rw [H.sub, hi, sub_fin_eq, sub_self, IeeeFmt.round_num φ.zero_num]
    · rw [mul_zero, IeeeFmt.rd_zero, abs_zero]; linarith

end Verif
