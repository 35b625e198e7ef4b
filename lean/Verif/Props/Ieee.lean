import Verif.Proofs.IeeeAcc
import Verif.Proofs.IeeeRun
import Verif.Props.Rounded
import Verif.Proofs.FlHull
import Verif.Props.Frozen

/-! Property C98: the consensus point in IEEE arithmetic, with overflow and underflow. -/

set_option linter.unusedSectionVars false

namespace Verif

variable {φ : IeeeFmt} {v η : ℝ} {A : FltArith} {n : ℕ} {ι : Type}

/-- **C98 (when the consensus point is a number).** In every IEEE format, for every order of the additions, `alpha > 0`, particles with coordinates at most `X` (so small that sums of `n` of them do not
overflow), and energies none of which is NaN: the consensus point is a finite number exactly if no weight `-alpha * energy` overflows to `+inf` and at least one does not overflow. Then it is bounded by
`n (1 + u)^n X`; otherwise it is NaN. -/
theorem C98_iff (H : IeeeArith φ v η A) [NeZero n] (t t' : SumTree (Fin n)) (ht : t.Covers) (ht' : t'.Covers) (alpha : ℝ) (ha : 0 < alpha) (e x : Fin n → Flt ℝ) (he : ∀ i, e i ≠ .nan)
    (X : ℝ) (hx : ∀ i, ∃ r, x i = .fin r ∧ |r| ≤ X) (hXr : IsIeee φ.p φ.emin X) (hX : n * (1 + φ.u) ^ n * X ≤ φ.top) :
    (WeightsOK φ alpha e ∧ ∃ c, A.consensus t t' alpha e x = .fin c ∧ |c| ≤ n * (1 + φ.u) ^ n * X) ∨ (¬ WeightsOK φ alpha e ∧ A.consensus t t' alpha e x = .nan) := by
  by_cases h : WeightsOK φ alpha e
  · obtain ⟨c, h1, -, h2⟩ := H.consensus_good t t' ht ht' alpha e x (H.weights_good ha h) X hx hXr hX
    exact .inl ⟨h, c, h1, h2⟩
  · exact .inr ⟨h, H.consensus_bad t t' ht ht' ha e x he h⟩

/-- **C98 (accuracy).** Full claim: in IEEE arithmetic the consensus point is the exact one up to rounding. Proved: if `|alpha * energy| ≤ W` with `10 v W + 130 n² (v + η) ≤ 1` (`v`: relative error of the
operations, `η`: underflow), and the largest number of the format exceeds `6 W + 8 n + 5` and `2 n X`, then nothing overflows, and every coordinate differs from that of the exact consensus point by at most
`(10 v W + 130 n² (v + η)) X + 2 n η`. What is missing: larger weights, for which the claim is false (`C86_lost`, `C98_overflow_false`). -/
theorem C98_accurate_partial (H : IeeeArith φ v η A) (hv : φ.u ≤ v) (hη : (2 : ℝ) ^ φ.emin ≤ η) [NeZero n] (t t' : SumTree (Fin n)) (ht : t.Covers) (ht' : t'.Covers) (alpha W X : ℝ)
    (e x : Fin n → ℝ) (hW : ∀ i, |alpha * e i| ≤ W) (hx : ∀ i, |x i| ≤ X) (hXr : IsIeee φ.p φ.emin X) (hs : 10 * (v * W) + 130 * ((n : ℝ) ^ 2 * (v + η)) ≤ 1)
    (htop : 6 * W + 8 * n + 5 ≤ φ.top) (hX : 2 * n * X ≤ φ.top) :
    ∃ c, A.consensus t t' alpha (fun i => .fin (e i)) (fun i => .fin (x i)) = .fin c ∧
      |c - ∑ i, gibbsWeight alpha e i * x i| ≤ (10 * (v * W) + 130 * ((n : ℝ) ^ 2 * (v + η))) * X + 2 * (n * η) := by
  have i₀ : Fin n := ⟨0, Nat.pos_of_ne_zero (NeZero.ne n)⟩
  have hn : (1 : ℝ) ≤ n := by exact_mod_cast Nat.one_le_iff_ne_zero.2 (NeZero.ne n)
  have hu := φ.u_pos
  have he := two_zpow_pos φ.emin
  have h0 : 0 ≤ v * W := mul_nonneg (hu.le.trans hv) ((abs_nonneg _).trans (hW i₀))
  have hnn : (n : ℝ) ≤ (n : ℝ) ^ 2 := by nlinarith
  have hnv : (n : ℝ) * (v + η) ≤ (n : ℝ) ^ 2 * (v + η) := mul_le_mul_of_nonneg_right hnn (by linarith)
  have hv1 : v + η ≤ n * (v + η) := by nlinarith
  have hnu : (n : ℝ) * φ.u ≤ n * (v + η) := mul_le_mul_of_nonneg_left (by linarith) (by linarith)
  have hpow : (1 + φ.u) ^ n ≤ 2 := by
    calc (1 + φ.u) ^ n ≤ Real.exp φ.u ^ n := pow_le_pow_left₀ (by linarith) (by linarith [Real.add_one_le_exp φ.u]) n
      _ = Real.exp (n * φ.u) := by rw [← Real.exp_nat_mul]
      _ ≤ Real.exp (Real.log 2) := Real.exp_le_exp.2 (by linarith [Real.log_two_gt_d9])
      _ = 2 := Real.exp_log (by norm_num)
  have key := H.consensus_real t t' ht ht' alpha e x W X hW hx (by linarith) (by linarith) hpow hXr htop hX
  exact ⟨_, key, (C86_default_partial (realArith φ A) v η (realArith_std H hv hη) t t' ht ht' alpha W X e x hW hx hs).1⟩

/-- **C98 (rescaled rule).** The rule of `HyperSurfaceCBO`, which subtracts the smallest energy first, never gives NaN: for all energies that are finite or `+inf`, at least one finite, however large, and all
`alpha > 0`, the consensus point is finite and bounded by `n (1 + u)^n X`. -/
theorem C98_rescaled (H : IeeeArith φ v η A) [NeZero n] (t t' : SumTree (Fin n)) (ht : t.Covers) (ht' : t'.Covers) (alpha : ℝ) (ha : 0 < alpha) (e x : Fin n → Flt ℝ)
    (he : ∀ i, e i = .pinf ∨ ∃ a, e i = .fin a) (hf : ∃ i a, e i = .fin a)
    (X : ℝ) (hx : ∀ i, ∃ r, x i = .fin r ∧ |r| ≤ X) (hXr : IsIeee φ.p φ.emin X) (hX : n * (1 + φ.u) ^ n * X ≤ φ.top) :
    ∃ c, A.rescaled t t' alpha e x = .fin c ∧ |c| ≤ n * (1 + φ.u) ^ n * X := by
  obtain ⟨c, h1, -, h2⟩ := H.consensus_good t t' ht ht' alpha _ x (H.weights_good ha (H.rescaled_ok ha he hf)) X hx hXr hX
  exact ⟨c, h1, h2⟩

/-- Twice the largest number overflows. -/
theorem rd_overflow (φ : IeeeFmt) {y : ℝ} (h : 2 * φ.top ≤ y) : φ.top < φ.rd y ∧ φ.rd (-y) < -φ.top := by
  have ht := φ.top_ge
  have h2 : IsIeee φ.p φ.emin (2 * φ.top) := by
    obtain ⟨m, e, h1, h2, h3⟩ := φ.top_repr
    refine ⟨m, e + 1, h1, by omega, ?_⟩
    rw [h3, zpow_add₀ two_ne_zero, zpow_one]
    ring
  constructor
  · have := φ.rd_mono h
    rw [IeeeFmt.rd_fix h2] at this
    linarith
  · have := φ.rd_mono (neg_le_neg h)
    rw [IeeeFmt.rd_fix h2.neg] at this
    linarith

/-- **C98 is false for the default rule when the products overflow.** In every IEEE format and for every `alpha > 0`: if the energies are finite but `alpha * energy` is at least twice the largest number for
all particles, or at most minus that for one particle, the consensus point is NaN, wherever the particles are. (Exactly computed it is a convex combination of the particles.) -/
theorem C98_overflow_false (H : IeeeArith φ v η A) [NeZero n] (t t' : SumTree (Fin n)) (ht : t.Covers) (ht' : t'.Covers) (alpha : ℝ) (ha : 0 < alpha) (e : Fin n → ℝ) (x : Fin n → Flt ℝ)
    (he : (∀ i, 2 * φ.top ≤ alpha * e i) ∨ ∃ i, alpha * e i ≤ -(2 * φ.top)) : A.consensus t t' alpha (fun i => .fin (e i)) x = .nan := by
  have htop := φ.top_ge
  refine H.consensus_bad t t' ht ht' ha _ x (fun i h => by cases h) ?_
  rintro ⟨h1, i, a, h2, h3⟩
  rcases he with he | ⟨j, he⟩
  · injection h2 with h2
    rw [← h2] at h3
    have := (rd_overflow φ (he i)).2
    rw [← neg_mul] at this
    have := (abs_le.1 h3).1
    linarith
  · rcases h1 j with h | ⟨b, h, hb⟩
    · cases h
    · injection h with h
      rw [← h] at hb
      have := (rd_overflow φ (y := -alpha * e j) (by linarith)).1
      linarith

/-- **C98 in the dynamic.** CBO without correction in IEEE arithmetic, with or without batches, arbitrary noise (also NaN or infinite), default consensus rule and default post processing with a threshold `T`
of the format. The objective is finite with `|f| ≤ F` on the box `[-T, T]^d`, the scheduler keeps `0 < alpha ≤ amax`, `amax * F` does not overflow, nor do sums of `N` coordinates. Then after construction
with an ensemble in the box and any sequence of operations all coordinates of all particles are finite and in the box, and every consensus point ever used is finite and bounded by
`N (1 + u)^N T`: no NaN ever enters through the consensus. -/
theorem C98_run (H : IeeeArith φ v η A) (t t' : ∀ n, SumTree (Fin (n + 1))) (ht : ∀ n, (t n).Covers) (ht' : ∀ n, (t' n).Covers) (T : ℝ) (T0 : 0 ≤ T) (hTr : IsIeee φ.p φ.emin T)
    (env : Env ℝ (ι → IeeeVal A)) (hcorr : env.corr = .none) (hn : NoiseShape env) (hp : PermOK env) (hcons : env.cons = .mean (ieeeConsDefault A t t')) (big : ℝ) (hpost : env.post = ieeePost A big T)
    (F amax : ℝ) (hov : amax * F ≤ φ.top) (hf : ∀ x, FltBox T x → ∃ y, env.f x = .fin y ∧ |y| ≤ F)
    (hsched : ∀ q r, (∀ m, 0 < q.alpha m ∧ q.alpha m ≤ amax) → env.sched q = .ok r → ∀ m, 0 < r.alpha m ∧ r.alpha m ≤ amax)
    (a : Args ℝ (ι → IeeeVal A)) (ha : 0 < a.alpha ∧ a.alpha ≤ amax) (hb : a.batchSize ≠ some 0) (hx : ∀ m < a.x0.rows, ∀ n < a.x0.cols, FltBox T (a.x0.get m n))
    (hN : a.x0.cols * (1 + φ.u) ^ a.x0.cols * T ≤ φ.top) (s₀ s : St ℝ (ι → IeeeVal A)) (h0 : init env a = .ok s₀) (ops : List Op) (h : execAll env (cboInner env) ops s₀ = .ok s) :
    (∀ m < a.x0.rows, ∀ n < a.x0.cols, FltBox T (s.x.get m n)) ∧ ∀ c, s.cons = some c → ∀ i < c.rows, FltBox (a.x0.cols * (1 + φ.u) ^ a.x0.cols * T) (c.get i 0) := by
  have hw := init_wf hp h0
  have hbs := init_bs hb h0
  have e0 : s₀.x = a.x0 ∧ s₀.N = a.x0.cols ∧ s₀.M = a.x0.rows ∧ (∀ m, s₀.alpha m = a.alpha) ∧ s₀.batchSize ≤ a.x0.cols ∧ s₀.cons = none := by
    unfold init at h0
    split_ifs at h0
    all_goals
      injection h0 with h0
      subst h0
      refine ⟨rfl, rfl, rfl, fun _ => rfl, ?_, rfl⟩
      show batchSizeOf a.batchSize a.x0.cols ≤ a.x0.cols
      unfold batchSizeOf
      split
      · exact le_rfl
      · exact min_le_right _ _
  obtain ⟨e1, e2, e3, e4, e5, e6⟩ := e0
  have hI : IeeeInv φ T amax a.x0.cols s₀ := ⟨by rw [e1, e2, e3]; exact hx, e2, by omega, e5, fun m => by rw [e4 m]; exact ha, fun c hc => by rw [e6] at hc; cases hc⟩
  have r := ieee_run H t t' ht ht' T0 hTr hN hov env hcorr hn hp hcons big hpost hf hsched ops s₀ s hw hI h
  refine ⟨?_, r.cons⟩
  have hM : s.M = a.x0.rows := by
    have : ∀ (l : List Op) (q q' : St ℝ (ι → IeeeVal A)), execAll env (cboInner env) l q = .ok q' → q'.M = q.M := by
      intro l
      induction l with
      | nil => intro q q' hq; simp only [execAll] at hq; injection hq with hq; rw [hq]
      | cons o l ih =>
        intro q q' hq
        simp only [execAll, bind_ok] at hq
        obtain ⟨w, hw, hl⟩ := hq
        rw [ih w q' hl]
        exact (exec_bs (by rw [cboInner_eq]; exact consThen_frame (cboMove_ok env)) hw).2.1
    rw [this ops s₀ s h, e3]
  have := r.box
  rw [hM, r.hN] at this
  exact this

/-- **C98 is false in the dynamic when the products overflow.** In the situation of `C98_run`, but with an objective that is finite and so large that `alpha * f` is at least twice the largest number of the
format at all particles that a run evaluates in a step: every particle of the run that the step moves is thrown to the corner `(T, …, T)` of the box. -/
theorem C98_corner_false (H : IeeeArith φ v η A) (t t' : ∀ n, SumTree (Fin (n + 1))) (ht : ∀ n, (t n).Covers) (ht' : ∀ n, (t' n).Covers) (T : ℝ) (T0 : 0 ≤ T)
    (env : Env ℝ (ι → IeeeVal A)) (hcorr : env.corr = .none) (hn : NoiseShape env) (hp : PermOK env) (hcons : env.cons = .mean (ieeeConsDefault A t t')) (big : ℝ) (hb : T ≤ big)
    (hpost : env.post = ieeePost A big T) (s s' : St ℝ (ι → IeeeVal A)) (hw : WF s) (hs : s.batchSize ≠ 0) (h : step env (cboInner env) s = .ok s') (m : ℕ) (ha : 0 < s.alpha m)
    (hbad : ∀ n, s'.cIdx.Sel m n → ∃ y, env.f (s.x.get m n) = .fin y ∧ 2 * φ.top ≤ s.alpha m * y) :
    ∀ n, s'.pIdx.Sel m n → ∀ k, s'.x.get m n k = (.fin T : Flt ℝ) := by
  obtain ⟨c, d, nz, xm, hc⟩ := cboStep_facts hcorr hn hcons hp hw h
  have f := step_frame (consThen_frame (cboMove_ok env)) (by rw [← cboInner_eq]; exact h)
  have hix := preStep_idx env hp hw
  intro n hsel k
  obtain ⟨i, hi, j, hj, e1, e2, e3⟩ := hc.sel m n hsel
  have hrun : s.active.getD i 0 = m := by rw [← e1, f.pIdx, hix.pRun i hi]
  have hcrun : s'.cIdx.run i = m := by rw [f.cIdx, hix.cRun i hi, hrun]
  have hcc : s'.cIdx.cols = s.batchSize := by rw [f.cIdx, hix.cCols]
  have hcr : s'.cIdx.rows = s.active.length := by rw [f.cIdx, hix.cRows]
  have hnan : c.get i 0 k = (.nan : Flt ℝ) := by
    rw [hc.cget i hi]
    have key : ∀ l : List (ℝ × Flt ℝ × (ι → IeeeVal A)), l ≠ [] → (∀ q ∈ l, q.1 = s.alpha m ∧ ∃ y, q.2.1 = .fin y ∧ 2 * φ.top ≤ s.alpha m * y) →
        ieeeConsDefault A t t' l k = (.nan : Flt ℝ) := by
      intro l hl hq
      cases l with
      | nil => exact absurd rfl hl
      | cons q l =>
        have hm : ∀ j, (q :: l).get j ∈ q :: l := fun j => List.get_mem ..
        choose y hy using fun j => (hq _ (hm j)).2
        have e : (fun j => ((q :: l).get j).2.1) = fun j => (.fin (y j) : Flt ℝ) := funext fun j => (hy j).1
        have r := C98_overflow_false (n := l.length + 1) H (t l.length) (t' l.length) (ht _) (ht' _) _ ha y (fun j => ((q :: l).get j).2.2 k) (.inl fun j => (hy j).2)
        rw [← (hq q (List.mem_cons_self ..)).1] at r
        exact (congrArg (fun z : Fin (l.length + 1) → Flt ℝ => A.consensus (t l.length) (t' l.length) q.1 z (fun j => ((q :: l).get j).2.2 k)) e).trans r
    refine key _ (fun q => hs ?_) fun q hq => ?_
    · simp only [sampleOf, List.map_eq_nil_iff, List.range_eq_nil] at q
      rw [← hcc]; exact q
    · obtain ⟨j', hj', rfl⟩ := List.mem_map.1 hq
      simp only
      rw [hrun]
      refine ⟨rfl, ?_⟩
      rw [hcrun]
      exact hbad _ ⟨i, hcr ▸ hi, j', List.mem_range.1 hj', hcrun, rfl⟩
  obtain ⟨q, hq, hpo⟩ := hc.post
  rw [hpost] at hpo
  injection hpo with hpo
  have hx : xm.get m n k = (.nan : Flt ℝ) := by
    rw [e3, hc.dget i hi j hj]
    have n1 : ∀ z, A.sub z .nan = .nan := fun z => by rw [H.sub]; cases z <;> rfl
    have n2 : ∀ z, A.mul z .nan = .nan := fun z => by rw [H.mul]; cases z <;> rfl
    have n3 : ∀ z, A.add .nan z = .nan := fun z => by rw [H.add]; cases z <;> rfl
    have n4 : ∀ z, A.add z .nan = .nan := fun z => by rw [H.add]; cases z <;> rfl
    have gen : ∀ (a b z w : Flt ℝ) (y : Flt ℝ), y = .nan → A.add a (A.add (A.mul b (A.sub z y)) w) = .nan := fun a b z w y hy => by rw [hy, n1, n2, n3, n4]
    exact gen _ _ _ _ _ hnan
  have : s'.x.get m n k = (postCoord false big T (xm.get m n k) : Flt ℝ) := by rw [← hpo, ← hq]; rfl
  rw [this, hx, (C38_values big T hb T0).1]

/-! ### Concrete cases -/

namespace Example

/-- Double precision with its exponent range. -/
noncomputable def ieeeDouble : IeeeFmt where
  p := 53
  pos := by norm_num
  emin := -1074
  emin_le := by norm_num
  top := ((2 ^ 53 - 1 : ℤ) : ℝ) * 2 ^ (971 : ℤ)
  top_repr := ⟨2 ^ 53 - 1, 971, by norm_num, by norm_num, rfl⟩
  top_ge := by
    have : (1 : ℝ) ≤ 2 ^ (971 : ℤ) := one_le_zpow₀ (by norm_num) (by norm_num)
    generalize (2 : ℝ) ^ (971 : ℤ) = y at this
    push_cast
    linarith
  rd := roundIeee 53 (-1074)
  near := roundIeee_nearest (by norm_num) _

theorem u_double : ieeeDouble.u ≤ 1 := by
  show (2 : ℝ) ^ (-((53 : ℕ) : ℤ)) ≤ 1
  rw [zpow_neg, zpow_natCast]
  norm_num

theorem top_double : (10 : ℝ) ^ 60 ≤ ieeeDouble.top := by
  have h : (2 : ℝ) ^ (200 : ℤ) ≤ 2 ^ (971 : ℤ) := zpow_le_zpow_right₀ (by norm_num) (by norm_num)
  show _ ≤ ((2 ^ 53 - 1 : ℤ) : ℝ) * 2 ^ (971 : ℤ)
  generalize (2 : ℝ) ^ (971 : ℤ) = y at h
  norm_num at h ⊢
  linarith

/-- C98: the rules of IEEE arithmetic hold for correctly rounded double precision arithmetic; two particles in `[-10^8, 10^8]`, `alpha = 10^5`, energies `0` and `top`: the hypotheses of `C98_iff` hold,
the coefficients can be formed, although the second weight overflows. -/
example : IeeeArith ieeeDouble ieeeDouble.u (2 ^ ieeeDouble.emin) (ieeeStd ieeeDouble) ∧ (SumTree.node (.leaf (0 : Fin 2)) (.leaf 1)).Covers ∧
    WeightsOK ieeeDouble 100000 ![.fin 0, .fin ieeeDouble.top] ∧ IsIeee ieeeDouble.p ieeeDouble.emin (10 ^ 8) ∧ ((2 : ℕ) : ℝ) * (1 + ieeeDouble.u) ^ 2 * 10 ^ 8 ≤ ieeeDouble.top := by
  have ht := top_double
  refine ⟨ieeeStd_ok _, ?_, ⟨fun i => ?_, 0, 0, rfl, ?_⟩, ?_, ?_⟩
  · show [0, 1].Perm (List.finRange 2)
    decide
  · fin_cases i
    · exact .inr ⟨0, rfl, by rw [mul_zero, IeeeFmt.rd_zero]; linarith [ieeeDouble.top_ge]⟩
    · refine .inr ⟨ieeeDouble.top, rfl, ?_⟩
      have := ieeeDouble.rd_nonpos (x := -100000 * ieeeDouble.top) (by linarith [ieeeDouble.top_ge])
      linarith [ieeeDouble.top_ge]
  · rw [mul_zero, IeeeFmt.rd_zero, abs_zero]; linarith [ieeeDouble.top_ge]
  · exact ⟨10 ^ 8, 0, by show |(10 ^ 8 : ℤ)| < 2 ^ 53; norm_num, by show (-1074 : ℤ) ≤ 0; norm_num, by norm_num⟩
  · have hu := u_double
    have h0 := ieeeDouble.u_pos
    have : (1 + ieeeDouble.u) ^ 2 ≤ 4 := by nlinarith
    push_cast
    have h8 : (2 : ℝ) * (1 + ieeeDouble.u) ^ 2 * 10 ^ 8 ≤ 2 * 4 * 10 ^ 8 := by nlinarith
    refine h8.trans (le_trans ?_ ht)
    norm_num

/-- C98: the rescaled rule with energies equal to the largest number and `+inf`, and `alpha = 10^5`, where the default rule gives NaN. -/
example : ∃ c, (ieeeStd ieeeDouble).rescaled (.node (.leaf (0 : Fin 2)) (.leaf 1)) (.node (.leaf 1) (.leaf 0)) 100000 ![.fin ieeeDouble.top, .pinf] ![.fin 1, .fin (-1)] = .fin c ∧
    |c| ≤ (2 : ℕ) * (1 + ieeeDouble.u) ^ 2 * 1 := by
  have hu := ieeeDouble.u_pos
  have hu1 := u_double
  refine C98_rescaled (ieeeStd_ok ieeeDouble) _ _ (by show [0, 1].Perm (List.finRange 2); decide) (by show [1, 0].Perm (List.finRange 2); decide) _ (by norm_num) _ _ (fun i => ?_) ⟨0, _, rfl⟩ 1
    (fun i => ?_) (IeeeFmt.one_repr _) ?_
  · fin_cases i
    · exact .inr ⟨_, rfl⟩
    · exact .inl rfl
  · fin_cases i
    · exact ⟨1, rfl, by norm_num⟩
    · exact ⟨-1, rfl, by norm_num⟩
  · have : (1 + ieeeDouble.u) ^ 2 ≤ 4 := by nlinarith
    push_cast
    have h8 : (2 : ℝ) * (1 + ieeeDouble.u) ^ 2 * 1 ≤ 8 := by linarith
    exact h8.trans (le_trans (by norm_num) top_double)

/-- C98: double precision, `alpha = 10^5` (the default maximum of the schedulers), all objective values equal to the largest number: the hypothesis of `C98_overflow_false` holds. -/
example : ∀ _ : Fin 3, 2 * ieeeDouble.top ≤ (100000 : ℝ) * ieeeDouble.top := fun _ => by
  linarith [ieeeDouble.top_ge]

/-- C98: the numerical hypotheses of `C98_accurate_partial` in double precision, for 100 particles in `[-10^8, 10^8]` and `|alpha * energy| ≤ 10^9`. -/
example : 10 * (ieeeDouble.u * 10 ^ 9) + 130 * (((100 : ℕ) : ℝ) ^ 2 * (ieeeDouble.u + 2 ^ ieeeDouble.emin)) ≤ 1 / 10 ^ 5 ∧
    6 * 10 ^ 9 + 8 * ((100 : ℕ) : ℝ) + 5 ≤ ieeeDouble.top ∧ 2 * ((100 : ℕ) : ℝ) * 10 ^ 8 ≤ ieeeDouble.top := by
  have ht := top_double
  have hu : ieeeDouble.u = 1 / 2 ^ 53 := by
    show (2 : ℝ) ^ (-((53 : ℕ) : ℤ)) = _
    rw [zpow_neg, zpow_natCast]
    norm_num
  have he : (2 : ℝ) ^ ieeeDouble.emin ≤ 1 / 2 ^ 53 := by
    show (2 : ℝ) ^ (-1074 : ℤ) ≤ _
    rw [show (1 : ℝ) / 2 ^ 53 = 2 ^ (-53 : ℤ) by norm_num]
    exact zpow_le_zpow_right₀ (by norm_num) (by norm_num)
  refine ⟨?_, le_trans (by norm_num) ht, le_trans (by norm_num) ht⟩
  rw [hu]
  have : 130 * (((100 : ℕ) : ℝ) ^ 2 * (1 / 2 ^ 53 + 2 ^ ieeeDouble.emin)) ≤ 130 * (((100 : ℕ) : ℝ) ^ 2 * (1 / 2 ^ 53 + 1 / 2 ^ 53)) := by
    push_cast
    linarith
  refine (add_le_add_right this _).trans ?_
  norm_num

/-- CBO on the line in double precision: noise proportional to the drift, but NaN for the second particle; objective `g`. -/
noncomputable def ieeeEnv (g : Flt ℝ → Flt ℝ) : Env ℝ (Unit → IeeeVal (ieeeStd ieeeDouble)) where
  f := fun x => g (x ())
  cons := .mean (ieeeConsDefault (ieeeStd ieeeDouble) tree tree)
  noise := fun s => match s.drift with
    | some d => .ok ⟨d.rows, d.cols, fun i j => if j = 1 then fun _ => (.nan : Flt ℝ) else (3 : ℝ) • d.get i j⟩
    | none => .error .attribute
  corr := .none
  post := ieeePost (ieeeStd ieeeDouble) (10 ^ 8) (10 ^ 8)
  normDiff := fun _ => .fin 0
  sqrtK := Real.sqrt
  perm := fun _ _ _ j => j
  sampler := fun _ _ _ _ => (.fin 1 : Flt ℝ)
  custom := fun _ _ _ => false
  sched := fun s => .ok ⟨s.alpha, s.lamda, s.sigma, s.dt⟩

noncomputable def ieeeArgs : Args ℝ (Unit → IeeeVal (ieeeStd ieeeDouble)) where
  x0 := ⟨1, 2, fun _ j _ => (.fin j : Flt ℝ)⟩
  alpha := 100000
  lamda := 1
  sigma := 1
  dt := 1
  terms := []
  tracks := []
  saveInt := 1
  batchSize := none
  batchPartial := true
  batchConcat := false
  checkF := false

theorem ieeeEnv_noise (g : Flt ℝ → Flt ℝ) : NoiseOK (ieeeEnv g) := by
  intro s d hd
  refine ⟨⟨d.rows, d.cols, fun i j => if j = 1 then fun _ => (.nan : Flt ℝ) else (3 : ℝ) • d.get i j⟩, ?_, rfl, rfl⟩
  simp only [ieeeEnv, hd]

theorem ieeeEnv_total (g : Flt ℝ → Flt ℝ) : ∃ s₀, init (ieeeEnv g) ieeeArgs = .ok s₀ ∧ ∀ ops, ∃ s, execAll (ieeeEnv g) (cboInner (ieeeEnv g)) ops s₀ = .ok s := by
  obtain ⟨s₀, h0, h1⟩ := C19_never_raises_partial (ieeeEnv g) ⟨rfl, ⟨_, rfl⟩, ieeeEnv_noise g, fun s => ⟨_, rfl, rfl, rfl⟩, fun s => ⟨_, rfl⟩⟩ (fun N c m j hj => hj) ieeeArgs
    (by simp [ieeeArgs]) (by simp [ieeeArgs]) (by intro tm ht; simp [ieeeArgs] at ht) (fun h => by cases h)
  exact ⟨s₀, h0, fun ops => (h1 ops (fun h => by cases h)).imp fun s hs => hs.1⟩

/-- C98: the objective `|x|` in double precision with `alpha = 10^5` and one particle whose noise is always NaN: the hypotheses of `C98_run` hold, all operations succeed, and all consensus points are finite. -/
example : ∃ s₀, init (ieeeEnv Flt.abs) ieeeArgs = .ok s₀ ∧ ∀ ops, ∃ s, execAll (ieeeEnv Flt.abs) (cboInner (ieeeEnv Flt.abs)) ops s₀ = .ok s ∧
    (∀ n < 2, FltBox (10 ^ 8) (s.x.get 0 n)) ∧ ∀ c, s.cons = some c → ∀ i < c.rows, FltBox ((2 : ℕ) * (1 + ieeeDouble.u) ^ 2 * 10 ^ 8) (c.get i 0) := by
  obtain ⟨s₀, h0, h1⟩ := ieeeEnv_total Flt.abs
  refine ⟨s₀, h0, fun ops => ?_⟩
  obtain ⟨s, hs⟩ := h1 ops
  have ht := top_double
  have hu := ieeeDouble.u_pos
  have hu1 := u_double
  have key := C98_run (ieeeStd_ok ieeeDouble) tree tree tree_covers tree_covers (10 ^ 8) (by norm_num)
    ⟨10 ^ 8, 0, by show |(10 ^ 8 : ℤ)| < 2 ^ 53; norm_num, by show (-1074 : ℤ) ≤ 0; norm_num, by norm_num⟩ (ieeeEnv Flt.abs) rfl (ieeeEnv_noise _).shape (fun N c m j hj => hj) rfl (10 ^ 8) rfl
    (10 ^ 8) 100000 (le_trans (by norm_num) ht) (fun x hx => by
      obtain ⟨r, h2, h3⟩ := hx ()
      exact ⟨|r|, by show Flt.abs (x ()) = _; rw [h2]; rfl, by rw [abs_abs]; exact h3⟩)
    (fun q r hq hr m => by injection hr with hr; rw [← hr]; exact hq m) ieeeArgs ⟨by norm_num [ieeeArgs], by norm_num [ieeeArgs]⟩ (by simp [ieeeArgs])
    (fun m hm n hn k => ⟨n, rfl, by
      have : (n : ℝ) ≤ 2 := by exact_mod_cast hn.le
      rw [abs_of_nonneg (Nat.cast_nonneg n)]
      linarith⟩)
    (by
      show ((2 : ℕ) : ℝ) * (1 + ieeeDouble.u) ^ 2 * 10 ^ 8 ≤ _
      have : (1 + ieeeDouble.u) ^ 2 ≤ 4 := by nlinarith
      push_cast
      have h8 : (2 : ℝ) * (1 + ieeeDouble.u) ^ 2 * 10 ^ 8 ≤ 2 * 4 * 10 ^ 8 := by nlinarith
      exact h8.trans (le_trans (by norm_num) ht)) s₀ s h0 ops hs
  exact ⟨s, hs, fun n hn => key.1 0 (by simp [ieeeArgs]) n (by simpa [ieeeArgs] using hn), key.2⟩

/-- C98: the same dynamic with an objective that equals the largest number everywhere: the first step throws both particles to the corner, `C98_corner_false`. -/
example : ∃ s₀ s, init (ieeeEnv fun _ => .fin ieeeDouble.top) ieeeArgs = .ok s₀ ∧ step (ieeeEnv fun _ => .fin ieeeDouble.top) (cboInner (ieeeEnv fun _ => .fin ieeeDouble.top)) s₀ = .ok s ∧
    ∀ n < 2, s.x.get 0 n () = (.fin (10 ^ 8) : Flt ℝ) := by
  obtain ⟨s₀, h0, h1⟩ := ieeeEnv_total fun _ => .fin ieeeDouble.top
  obtain ⟨s, hs⟩ := h1 [.step]
  simp only [execAll, bind_ok] at hs
  obtain ⟨s', g1, g2⟩ := hs
  injection g2 with g2
  subst g2
  have hp : PermOK (ieeeEnv fun _ => .fin ieeeDouble.top) := fun N c m j hj => hj
  have hw := init_wf hp h0
  have e0 : s₀.active = [0] ∧ s₀.N = 2 ∧ s₀.alpha 0 = 100000 ∧ s₀.batched = false ∧ s₀.batchSize = 2 := by
    simp [init, ieeeArgs, initBatch, initHistory, baseSt, batchSizeOf] at h0
    subst h0
    exact ⟨rfl, rfl, rfl, rfl, rfl⟩
  refine ⟨s₀, s', h0, g1, fun n hn => C98_corner_false (ieeeStd_ok ieeeDouble) tree tree tree_covers tree_covers (10 ^ 8) (by norm_num) _ rfl (ieeeEnv_noise _).shape hp rfl (10 ^ 8) le_rfl rfl
    s₀ s' hw (by rw [e0.2.2.2.2]; norm_num) g1 0 (by rw [e0.2.2.1]; norm_num) (fun k _ => ⟨ieeeDouble.top, rfl, by rw [e0.2.2.1]; linarith [ieeeDouble.top_ge]⟩) n ?_ ()⟩
  have g1' := g1
  simp only [exec] at g1'
  rw [cboInner_eq] at g1'
  have f := step_frame (consThen_frame (cboMove_ok _)) g1'
  rw [f.pIdx, preStep_pSel hp hw]
  exact ⟨by rw [e0.1]; simp, by rw [e0.2.1]; exact hn, fun q => by rw [e0.2.2.2.1] at q; cases q⟩

end Example
end Verif
