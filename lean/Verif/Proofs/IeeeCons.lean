import Verif.Proofs.Ieee

/-! The consensus rules in IEEE arithmetic: kinds of numbers that occur. -/

set_option linter.unusedSectionVars false

namespace Verif

variable {φ : IeeeFmt} {v η : ℝ} {A : FltArith} {n : ℕ}

theorem sub_fin_eq (a b : ℝ) : Flt.sub (.fin a : Flt ℝ) (.fin b) = .fin (a - b) := by
  show Flt.fin (a + -b) = _
  rw [sub_eq_add_neg]

/-- `exp` of something that is not positive. -/
theorem IeeeArith.exp_unit (H : IeeeArith φ v η A) {w : Flt ℝ} (h : w = .ninf ∨ ∃ r, w = .fin r ∧ r ≤ 0) : ∃ c, A.exp w = .fin c ∧ φ.Num c ∧ 0 ≤ c ∧ c ≤ 1 := by
  rcases h with rfl | ⟨r, rfl, h⟩
  · exact ⟨0, H.exp_ninf, φ.zero_num, le_rfl, zero_le_one⟩
  · obtain ⟨c, h1, h2, -⟩ := H.exp_le r h
    rcases H.exp_fin r with h3 | ⟨c', h3, h4, h5⟩
    · rw [h3] at h1; cases h1
    · rw [h3] at h1
      injection h1 with h1
      subst h1
      exact ⟨c', h3, h4, h5, h2⟩

/-- Sums of non-negative numbers. -/
theorem IeeeArith.sum_nn (H : IeeeArith φ v η A) {ι : Type} (f : ι → Flt ℝ) (t : SumTree ι) (hf : ∀ i ∈ t.leaves, ∃ r, f i = .fin r ∧ φ.Num r ∧ 0 ≤ r) :
    t.evalFlt A.add f = .pinf ∨ ∃ s, t.evalFlt A.add f = .fin s ∧ φ.Num s ∧ 0 ≤ s ∧ ∀ i ∈ t.leaves, ∀ r, f i = .fin r → r ≤ s := by
  induction t with
  | leaf i =>
    obtain ⟨r, h1, h2, h3⟩ := hf i (by simp [SumTree.leaves])
    right
    refine ⟨r, h1, h2, h3, fun j hj r' hr' => ?_⟩
    simp only [SumTree.leaves, List.mem_singleton] at hj
    subst hj
    rw [h1] at hr'
    injection hr' with hr'
    exact hr'.ge
  | node l r hl hr =>
    simp only [SumTree.leaves, SumTree.evalFlt, List.mem_append] at hf ⊢
    rw [H.add]
    rcases hl (fun i hi => hf i (.inl hi)) with h1 | ⟨a, h1, h2, h3, h4⟩ <;> rcases hr (fun i hi => hf i (.inr hi)) with k1 | ⟨b, k1, k2, k3, k4⟩ <;> rw [h1, k1]
    · exact .inl rfl
    · exact .inl rfl
    · exact .inl rfl
    · rcases IeeeFmt.round_ge h2 (show a ≤ a + b by linarith) with g1 | ⟨s, g1, g2, g3⟩
      · exact .inl g1
      · right
        have g4 : b ≤ s := by
          rcases IeeeFmt.round_ge k2 (show b ≤ a + b by linarith) with q1 | ⟨s', q1, q2, q3⟩
          · rw [g1] at q1; cases q1
          · rw [g1] at q1
            injection q1 with q1
            rw [q1]
            exact q3
        refine ⟨s, g1, g2, by linarith, fun i hi r' hr' => ?_⟩
        rcases hi with hi | hi
        · exact (h4 i hi r' hr').trans g3
        · exact (k4 i hi r' hr').trans g4

/-- Good weights: finite numbers or `-inf`, at least one finite. -/
def GoodWeights (φ : IeeeFmt) (w : Fin n → Flt ℝ) : Prop := (∀ i, w i = .ninf ∨ ∃ x, w i = .fin x ∧ φ.Num x) ∧ ∃ i x, w i = .fin x

/-- With good weights `logsumexp` is at least the largest weight. -/
theorem IeeeArith.lse_ge (H : IeeeArith φ v η A) (t : SumTree (Fin n)) (ht : t.Covers) {w : Fin n → Flt ℝ} (hw : GoodWeights φ w) :
    A.lse t w = .pinf ∨ ∃ L, A.lse t w = .fin L ∧ φ.Num L ∧ ∀ i x, w i = .fin x → x ≤ L := by
  obtain ⟨i₀, hi, hmax⟩ := lseShift_good w (fun i => (hw.1 i).imp_right fun ⟨x, h, _⟩ => ⟨x, h⟩) hw.2
  unfold FltArith.lse
  generalize lseShift (List.ofFn w) = m at hi hmax
  have hm : φ.Num m := by
    rcases hw.1 i₀ with h | ⟨x, h, h2⟩
    · rw [h] at hi; cases hi
    · rw [h] at hi
      injection hi with hi
      rw [← hi]
      exact h2
  have hex : ∀ i, ∃ r, A.exp (A.sub (w i) (.fin m)) = .fin r ∧ φ.Num r ∧ 0 ≤ r := by
    intro i
    have : A.sub (w i) (.fin m) = .ninf ∨ ∃ r, A.sub (w i) (.fin m) = .fin r ∧ r ≤ 0 := by
      rw [H.sub]
      rcases hw.1 i with h | ⟨x, h, -⟩
      · rw [h]; exact .inl rfl
      · rw [h, sub_fin_eq]
        rcases IeeeFmt.round_nonpos (φ := φ) (x := x - m) (by linarith [hmax i x h]) with q | ⟨r, q1, -, q3⟩
        · exact .inl q
        · exact .inr ⟨r, q1, q3⟩
    obtain ⟨c, h1, h2, h3, -⟩ := H.exp_unit this
    exact ⟨c, h1, h2, h3⟩
  have h1 : A.exp (A.sub (w i₀) (.fin m)) = .fin 1 := by
    rw [H.sub, hi, sub_fin_eq, sub_self, IeeeFmt.round_num φ.zero_num, H.exp_zero]
  have hlog : A.log (t.evalFlt A.add fun i => A.exp (A.sub (w i) (.fin m))) = .pinf ∨ ∃ r, A.log (t.evalFlt A.add fun i => A.exp (A.sub (w i) (.fin m))) = .fin r ∧ 0 ≤ r := by
    rcases H.sum_nn _ t (fun i _ => hex i) with h | ⟨s, h2, hsn, -, h3⟩
    · rw [h, H.log_pinf]; exact .inl rfl
    · have hs : 1 ≤ s := h3 i₀ (ht.mem_iff.2 (List.mem_finRange i₀)) 1 h1
      obtain ⟨r, q1, -, q2, -⟩ := H.log_fin s hs ((le_abs_self s).trans hsn.2)
      rw [h2]
      exact .inr ⟨r, q1, q2⟩
  rw [H.add]
  rcases hlog with h | ⟨r, h, hr⟩ <;> rw [h]
  · exact .inl rfl
  · rcases IeeeFmt.round_ge hm (show m ≤ r + m by linarith) with q | ⟨L, q1, q2, q3⟩
    · exact .inl q
    · exact .inr ⟨L, q1, q2, fun i x hx => (hmax i x hx).trans q3⟩

/-- With good weights all coefficients are between 0 and 1. -/
theorem IeeeArith.coeffs_unit (H : IeeeArith φ v η A) (t : SumTree (Fin n)) (ht : t.Covers) {w : Fin n → Flt ℝ} (hw : GoodWeights φ w) (i : Fin n) :
    ∃ c, A.coeffs t w i = .fin c ∧ φ.Num c ∧ 0 ≤ c ∧ c ≤ 1 := by
  refine H.exp_unit ?_
  rw [H.sub]
  rcases H.lse_ge t ht hw with h | ⟨L, h, -, hL⟩ <;> rcases hw.1 i with h' | ⟨x, h', -⟩ <;> rw [h, h']
  · exact .inl rfl
  · exact .inl rfl
  · exact .inl rfl
  · rw [sub_fin_eq]
    rcases IeeeFmt.round_nonpos (φ := φ) (x := x - L) (by linarith [hL i x h']) with q | ⟨r, q1, -, q3⟩
    · exact .inl q
    · exact .inr ⟨r, q1, q3⟩

/-- Sums of bounded numbers do not overflow. -/
theorem IeeeArith.sum_bounded (H : IeeeArith φ v η A) {ι : Type} (f : ι → Flt ℝ) (X : ℝ) (X0 : 0 ≤ X) (t : SumTree ι) (hf : ∀ i ∈ t.leaves, ∃ r, f i = .fin r ∧ φ.Num r ∧ |r| ≤ X)
    (hX : t.leaves.length * (1 + φ.u) ^ t.leaves.length * X ≤ φ.top) :
    0 < t.leaves.length ∧ ∃ s, t.evalFlt A.add f = .fin s ∧ φ.Num s ∧ |s| ≤ t.leaves.length * (1 + φ.u) ^ t.leaves.length * X := by
  have hu := φ.u_pos
  induction t with
  | leaf i =>
    obtain ⟨r, h1, h2, h3⟩ := hf i (by simp [SumTree.leaves])
    refine ⟨by simp [SumTree.leaves], r, h1, h2, h3.trans ?_⟩
    simp only [SumTree.leaves, List.length_singleton, Nat.cast_one, pow_one, one_mul]
    nlinarith
  | node l r hl hr =>
    simp only [SumTree.leaves, SumTree.evalFlt, List.mem_append, List.length_append] at hf hX ⊢
    generalize hk : l.leaves.length = k at *
    generalize hj : r.leaves.length = j at *
    have m1 : (1 : ℝ) ≤ 1 + φ.u := by linarith
    have p1 : (1 + φ.u) ^ k ≤ (1 + φ.u) ^ (k + j) := pow_le_pow_right₀ m1 (by omega)
    have p2 : (1 + φ.u) ^ j ≤ (1 + φ.u) ^ (k + j) := pow_le_pow_right₀ m1 (by omega)
    have q1 : (k : ℝ) * (1 + φ.u) ^ k * X ≤ k * (1 + φ.u) ^ (k + j) * X := mul_le_mul_of_nonneg_right (mul_le_mul_of_nonneg_left p1 (by positivity)) X0
    have q2 : (j : ℝ) * (1 + φ.u) ^ j * X ≤ j * (1 + φ.u) ^ (k + j) * X := mul_le_mul_of_nonneg_right (mul_le_mul_of_nonneg_left p2 (by positivity)) X0
    have c1 : (0 : ℝ) ≤ k * (1 + φ.u) ^ (k + j) * X := by positivity
    have c2 : (0 : ℝ) ≤ j * (1 + φ.u) ^ (k + j) * X := by positivity
    have ex : (k : ℝ) * (1 + φ.u) ^ (k + j) * X + j * (1 + φ.u) ^ (k + j) * X = ((k + j : ℕ) : ℝ) * (1 + φ.u) ^ (k + j) * X := by push_cast; ring
    obtain ⟨k0, a, a1, a2, a3⟩ := hl (fun i hi => hf i (.inl hi)) (by linarith)
    obtain ⟨j0, b, b1, b2, b3⟩ := hr (fun i hi => hf i (.inr hi)) (by linarith)
    refine ⟨by omega, ?_⟩
    have r1 : (1 + φ.u) * (1 + φ.u) ^ k ≤ (1 + φ.u) ^ (k + j) := by rw [← pow_succ']; exact pow_le_pow_right₀ m1 (by omega)
    have r2 : (1 + φ.u) * (1 + φ.u) ^ j ≤ (1 + φ.u) ^ (k + j) := by rw [← pow_succ']; exact pow_le_pow_right₀ m1 (by omega)
    have s1 : (1 + φ.u) * |a| ≤ k * (1 + φ.u) ^ (k + j) * X := by
      calc _ ≤ (1 + φ.u) * (k * (1 + φ.u) ^ k * X) := mul_le_mul_of_nonneg_left a3 (by linarith)
        _ = k * ((1 + φ.u) * (1 + φ.u) ^ k) * X := by ring
        _ ≤ _ := mul_le_mul_of_nonneg_right (mul_le_mul_of_nonneg_left r1 (by positivity)) X0
    have s2 : (1 + φ.u) * |b| ≤ j * (1 + φ.u) ^ (k + j) * X := by
      calc _ ≤ (1 + φ.u) * (j * (1 + φ.u) ^ j * X) := mul_le_mul_of_nonneg_left b3 (by linarith)
        _ = j * ((1 + φ.u) * (1 + φ.u) ^ j) * X := by ring
        _ ≤ _ := mul_le_mul_of_nonneg_right (mul_le_mul_of_nonneg_left r2 (by positivity)) X0
    have e1 := IeeeFmt.add_err a2.1 b2.1
    have e2 : |φ.rd (a + b)| ≤ (1 + φ.u) * |a + b| := by
      have := abs_add_le (φ.rd (a + b) - (a + b)) (a + b)
      rw [sub_add_cancel] at this
      linarith
    have e3 := mul_le_mul_of_nonneg_left (abs_add_le a b) (show 0 ≤ 1 + φ.u by linarith)
    rw [mul_add] at e3
    have e4 : |φ.rd (a + b)| ≤ ((k + j : ℕ) : ℝ) * (1 + φ.u) ^ (k + j) * X := by linarith
    rw [a1, b1, H.add]
    show ∃ s, φ.round (.fin (a + b)) = _ ∧ _
    have e5 := e4.trans hX
    exact ⟨_, IeeeFmt.round_fin e5, IeeeFmt.rd_num e5, e4⟩

/-- The consensus point with good weights. -/
theorem IeeeArith.consensus_good (H : IeeeArith φ v η A) [NeZero n] (t t' : SumTree (Fin n)) (ht : t.Covers) (ht' : t'.Covers) (alpha : ℝ) (e x : Fin n → Flt ℝ)
    (hw : GoodWeights φ (A.weights alpha e)) (X : ℝ) (hx : ∀ i, ∃ r, x i = .fin r ∧ |r| ≤ X) (hXr : IsIeee φ.p φ.emin X) (hX : n * (1 + φ.u) ^ n * X ≤ φ.top) :
    ∃ c, A.consensus t t' alpha e x = .fin c ∧ φ.Num c ∧ |c| ≤ n * (1 + φ.u) ^ n * X := by
  have i₀ : Fin n := ⟨0, Nat.pos_of_ne_zero (NeZero.ne n)⟩
  have X0 : 0 ≤ X := by
    obtain ⟨r, -, hr⟩ := hx i₀
    exact (abs_nonneg _).trans hr
  have hlen : t'.leaves.length = n := by rw [ht'.length_eq, List.length_finRange]
  have hn : (1 : ℝ) ≤ n := by exact_mod_cast Nat.one_le_iff_ne_zero.2 (NeZero.ne n)
  have hXt : X ≤ φ.top := by
    have h1 : 1 ≤ (1 + φ.u) ^ n := one_le_pow₀ (by linarith [φ.u_pos])
    have h2 : X ≤ n * (1 + φ.u) ^ n * X := by
      have : 1 ≤ (n : ℝ) * (1 + φ.u) ^ n := by nlinarith
      nlinarith
    linarith
  obtain ⟨-, s, h1, h2, h3⟩ := H.sum_bounded (fun i => A.mul (x i) (A.coeffs t (A.weights alpha e) i)) X X0 t' (fun i _ => by
    obtain ⟨r, hr, hrX⟩ := hx i
    obtain ⟨c, hc, -, hc0, hc1⟩ := H.coeffs_unit t ht hw i
    rw [H.mul, hr, hc]
    show ∃ q, φ.round (.fin (r * c)) = _ ∧ _
    have hb : |φ.rd (r * c)| ≤ X := by
      refine IeeeFmt.rd_abs hXr ?_
      rw [abs_mul, abs_of_nonneg hc0]
      nlinarith [abs_nonneg r]
    exact ⟨_, IeeeFmt.round_fin (hb.trans hXt), IeeeFmt.rd_num (hb.trans hXt), hb⟩) (by rw [hlen]; exact hX)
  rw [hlen] at h3
  exact ⟨s, h1, h2, h3⟩

/-- The weights are good under the hypothesis on the energies. -/
theorem IeeeArith.weights_good (H : IeeeArith φ v η A) {alpha : ℝ} (ha : 0 < alpha) {e : Fin n → Flt ℝ} (h : WeightsOK φ alpha e) : GoodWeights φ (A.weights alpha e) := by
  have key : ∀ a, φ.rd (-alpha * a) ≤ φ.top → φ.round (.fin (-alpha * a)) = .ninf ∨ ∃ x, φ.round (.fin (-alpha * a)) = .fin x ∧ φ.Num x := by
    intro a h2
    by_cases h3 : φ.rd (-alpha * a) < -φ.top
    · left
      show (if φ.top < φ.rd (-alpha * a) then _ else if φ.rd (-alpha * a) < -φ.top then _ else _) = _
      rw [if_neg (by linarith), if_pos h3]
    · right
      have h4 : |φ.rd (-alpha * a)| ≤ φ.top := abs_le.2 ⟨not_lt.1 h3, h2⟩
      exact ⟨_, IeeeFmt.round_fin h4, IeeeFmt.rd_num h4⟩
  constructor
  · intro i
    unfold FltArith.weights
    rw [H.mul]
    rcases h.1 i with h1 | ⟨a, h1, h2⟩ <;> rw [h1]
    · left
      show φ.round (Flt.infTimes (-alpha)) = _
      rw [Flt.infTimes, if_neg (by linarith), if_pos (by linarith)]
      rfl
    · exact key a h2
  · obtain ⟨i, a, h1, h2⟩ := h.2
    refine ⟨i, φ.rd (-alpha * a), ?_⟩
    unfold FltArith.weights
    rw [H.mul, h1]
    exact IeeeFmt.round_fin h2

/-! ### Bad weights -/

theorem round_nan : φ.round .nan = .nan := rfl

/-- A NaN makes the sum NaN. -/
theorem IeeeArith.sum_nan (H : IeeeArith φ v η A) {ι : Type} (f : ι → Flt ℝ) (t : SumTree ι) (i : ι) (hi : i ∈ t.leaves) (h : f i = .nan) : t.evalFlt A.add f = .nan := by
  induction t with
  | leaf j =>
    simp only [SumTree.leaves, List.mem_singleton] at hi
    subst hi
    exact h
  | node l r hl hr =>
    simp only [SumTree.leaves, SumTree.evalFlt, List.mem_append] at hi ⊢
    rw [H.add]
    rcases hi with hi | hi
    · rw [hl hi]; rfl
    · rw [hr hi]
      cases l.evalFlt A.add f <;> rfl

/-- An infinite summand is not lost. -/
theorem IeeeArith.sum_pinf (H : IeeeArith φ v η A) {ι : Type} (f : ι → Flt ℝ) (t : SumTree ι) (hf : ∀ i ∈ t.leaves, f i = .nan ∨ f i = .pinf ∨ ∃ r, f i = .fin r ∧ 0 ≤ r) :
    (t.evalFlt A.add f = .nan ∨ t.evalFlt A.add f = .pinf ∨ ∃ r, t.evalFlt A.add f = .fin r ∧ 0 ≤ r) ∧
      ((∃ i ∈ t.leaves, f i = .pinf) → t.evalFlt A.add f = .nan ∨ t.evalFlt A.add f = .pinf) := by
  induction t with
  | leaf j =>
    simp only [SumTree.leaves, List.mem_singleton, SumTree.evalFlt, forall_eq, exists_eq_left] at hf ⊢
    exact ⟨hf, .inr⟩
  | node l r hl hr =>
    simp only [SumTree.leaves, SumTree.evalFlt, List.mem_append] at hf ⊢
    obtain ⟨a1, a2⟩ := hl fun i hi => hf i (.inl hi)
    obtain ⟨b1, b2⟩ := hr fun i hi => hf i (.inr hi)
    rw [H.add]
    have inf_l : ∀ w : Flt ℝ, (w = .nan ∨ w = .pinf ∨ ∃ r, w = .fin r ∧ 0 ≤ r) → φ.round (Flt.add .pinf w) = .nan ∨ φ.round (Flt.add .pinf w) = .pinf := by
      rintro w (rfl | rfl | ⟨r, rfl, -⟩)
      · exact .inl rfl
      · exact .inr rfl
      · exact .inr rfl
    have inf_r : ∀ w : Flt ℝ, (w = .nan ∨ w = .pinf ∨ ∃ r, w = .fin r ∧ 0 ≤ r) → φ.round (Flt.add w .pinf) = .nan ∨ φ.round (Flt.add w .pinf) = .pinf := by
      rintro w (rfl | rfl | ⟨r, rfl, -⟩)
      · exact .inl rfl
      · exact .inr rfl
      · exact .inr rfl
    have nan_r : ∀ w : Flt ℝ, φ.round (Flt.add w .nan) = .nan := fun w => by cases w <;> rfl
    constructor
    · rcases a1 with a | a | ⟨x, a, x0⟩
      · rw [a]; exact .inl rfl
      · rw [a]
        rcases inf_l _ b1 with h | h
        · exact .inl h
        · exact .inr (.inl h)
      · rcases b1 with b | b | ⟨y, b, y0⟩
        · rw [b]; exact .inl (nan_r _)
        · rw [a, b]; exact .inr (.inl rfl)
        · rw [a, b]
          rcases IeeeFmt.round_ge φ.zero_num (show 0 ≤ x + y by linarith) with h | ⟨s, h, -, h2⟩
          · exact .inr (.inl h)
          · exact .inr (.inr ⟨s, h, h2⟩)
    · rintro ⟨i, hi | hi, h⟩
      · rcases a2 ⟨i, hi, h⟩ with q | q <;> rw [q]
        · exact .inl rfl
        · exact inf_l _ b1
      · rcases b2 ⟨i, hi, h⟩ with q | q <;> rw [q]
        · exact .inl (nan_r _)
        · exact inf_r _ a1

/-- `exp` is never `-inf`. -/
theorem IeeeArith.exp_kind (H : IeeeArith φ v η A) (w : Flt ℝ) : A.exp w = .nan ∨ A.exp w = .pinf ∨ ∃ r, A.exp w = .fin r ∧ 0 ≤ r := by
  cases w with
  | nan => exact .inl H.exp_nan
  | ninf => exact .inr (.inr ⟨0, H.exp_ninf, le_rfl⟩)
  | pinf => exact .inr (.inl H.exp_pinf)
  | fin a =>
    rcases H.exp_fin a with h | ⟨r, h, -, h2⟩
    · exact .inr (.inl h)
    · exact .inr (.inr ⟨r, h, h2⟩)

/-- A NaN coefficient makes the consensus point NaN. -/
theorem IeeeArith.consensus_nan (H : IeeeArith φ v η A) (t t' : SumTree (Fin n)) (ht' : t'.Covers) (alpha : ℝ) (e x : Fin n → Flt ℝ) (i : Fin n)
    (h : A.coeffs t (A.weights alpha e) i = .nan) : A.consensus t t' alpha e x = .nan := by
  refine H.sum_nan _ t' i (ht'.mem_iff.2 (List.mem_finRange i)) ?_
  simp only [h]
  rw [H.mul]
  cases x i <;> rfl

/-- An infinite weight makes its coefficient NaN. -/
theorem IeeeArith.coeffs_pinf (H : IeeeArith φ v η A) (t : SumTree (Fin n)) (ht : t.Covers) (w : Fin n → Flt ℝ) (i : Fin n) (h : w i = .pinf) : A.coeffs t w i = .nan := by
  have hl : A.lse t w = .nan ∨ A.lse t w = .pinf := by
    unfold FltArith.lse
    generalize lseShift (List.ofFn w) = m
    have h1 := (H.sum_pinf (fun i => A.exp (A.sub (w i) (.fin m))) t (fun j _ => H.exp_kind _)).2 ⟨i, ht.mem_iff.2 (List.mem_finRange i), by
      rw [h, H.sub]
      exact H.exp_pinf⟩
    rcases h1 with h1 | h1 <;> rw [h1]
    · rw [H.log_nan, H.add]; exact .inl rfl
    · rw [H.log_pinf, H.add]; exact .inr rfl
  unfold FltArith.coeffs
  rw [H.sub, h]
  rcases hl with hl | hl <;> rw [hl] <;> exact H.exp_nan

theorem foldl_maximum_ninf (l : List (Flt ℝ)) (h : ∀ v ∈ l, v = .ninf) : l.foldl Flt.maximum .ninf = (.ninf : Flt ℝ) := by
  induction l with
  | nil => rfl
  | cons a l ih =>
    rw [List.foldl_cons, h a (List.mem_cons_self ..)]
    exact ih fun v hv => h v (List.mem_cons_of_mem _ hv)

/-- If all weights are `-inf`, all coefficients are NaN. -/
theorem IeeeArith.coeffs_ninf (H : IeeeArith φ v η A) (t : SumTree (Fin n)) (w : Fin n → Flt ℝ) (h : ∀ i, w i = .ninf) (i : Fin n) : A.coeffs t w i = .nan := by
  have hs : lseShift (List.ofFn w) = 0 := by
    have hm : ∀ v ∈ List.ofFn w, v = .ninf := fun v hv => by
      obtain ⟨j, rfl⟩ := List.mem_ofFn.1 hv
      exact h j
    cases hq : List.ofFn w with
    | nil => rfl
    | cons a l =>
      rw [hq] at hm
      unfold lseShift
      rw [hm a (List.mem_cons_self ..)]
      simp only [foldl_maximum_ninf l fun v hv => hm v (List.mem_cons_of_mem _ hv)]
  have hsum : ∀ t : SumTree (Fin n), t.evalFlt A.add (fun i => A.exp (A.sub (w i) (.fin 0))) = .fin 0 := by
    intro t
    induction t with
    | leaf j =>
      show A.exp (A.sub (w j) (.fin 0)) = _
      rw [h j, H.sub]
      exact H.exp_ninf
    | node l r hl hr =>
      simp only [SumTree.evalFlt, hl, hr]
      rw [H.add]
      show φ.round (.fin (0 + 0)) = _
      rw [add_zero, IeeeFmt.round_num φ.zero_num]
  have hl : A.lse t w = .ninf := by
    unfold FltArith.lse
    rw [hs, hsum, H.log_zero, H.add]
    rfl
  unfold FltArith.coeffs
  rw [hl, h i, H.sub]
  exact H.exp_nan

/-- Energies without NaN for which coefficients cannot be formed. -/
theorem IeeeArith.consensus_bad (H : IeeeArith φ v η A) [NeZero n] (t t' : SumTree (Fin n)) (ht : t.Covers) (ht' : t'.Covers) {alpha : ℝ} (ha : 0 < alpha) (e x : Fin n → Flt ℝ)
    (hn : ∀ i, e i ≠ .nan) (h : ¬ WeightsOK φ alpha e) : A.consensus t t' alpha e x = .nan := by
  by_cases hp : ∃ i, A.weights alpha e i = .pinf
  · obtain ⟨i, hi⟩ := hp
    exact H.consensus_nan t t' ht' alpha e x i (H.coeffs_pinf t ht _ i hi)
  · have i₀ : Fin n := ⟨0, Nat.pos_of_ne_zero (NeZero.ne n)⟩
    refine H.consensus_nan t t' ht' alpha e x i₀ (H.coeffs_ninf t _ (fun i => ?_) i₀)
    have key : ∀ j, e j = .pinf ∨ ∃ a, e j = .fin a ∧ φ.rd (-alpha * a) ≤ φ.top := by
      intro j
      cases hj : e j with
      | nan => exact absurd hj (hn j)
      | pinf => exact .inl rfl
      | ninf =>
        refine absurd ⟨j, ?_⟩ hp
        unfold FltArith.weights
        rw [H.mul, hj]
        show φ.round (Flt.neg (Flt.infTimes (-alpha))) = _
        rw [Flt.infTimes, if_neg (by linarith), if_pos (by linarith)]
        rfl
      | fin a =>
        refine .inr ⟨a, rfl, ?_⟩
        by_contra hc
        push Not at hc
        refine hp ⟨j, ?_⟩
        unfold FltArith.weights
        rw [H.mul, hj]
        show (if φ.top < φ.rd (-alpha * a) then _ else _) = _
        rw [if_pos hc]
    have hno : ¬ ∃ i a, e i = .fin a ∧ |φ.rd (-alpha * a)| ≤ φ.top := fun q => h ⟨key, q⟩
    unfold FltArith.weights
    rw [H.mul]
    rcases key i with h1 | ⟨a, h1, h2⟩ <;> rw [h1]
    · show φ.round (Flt.infTimes (-alpha)) = _
      rw [Flt.infTimes, if_neg (by linarith), if_pos (by linarith)]
      rfl
    · show (if φ.top < φ.rd (-alpha * a) then _ else if φ.rd (-alpha * a) < -φ.top then _ else _) = _
      have h3 : φ.rd (-alpha * a) < -φ.top := by
        by_contra hc
        exact hno ⟨i, a, h1, abs_le.2 ⟨not_lt.1 hc, h2⟩⟩
      rw [if_neg (by linarith), if_pos h3]

end Verif
