import Verif.Proofs.Sched
import Verif.Props.Termination
import Mathlib.Tactic.NormNum
import Mathlib.Algebra.Order.Ring.Rat
import Mathlib.Algebra.Field.Rat

/-! Properties C26 (multiply), C27 (bisection), C28 (effective sample size), C29 (effective scheduler), and the failure of
C17 for the effective scheduler. -/

set_option linter.unusedSectionVars false

namespace Verif

section Any
variable {K : Type} [Mul K] [LinearOrder K]

/-- Value of a parameter (for `alpha`: of run `m`). -/
def Params.val (p : Params K) (nm : PName) (m : ℕ) : K :=
  match nm with
  | .alpha => p.alpha m
  | .lamda => p.lamda
  | .sigma => p.sigma
  | .dt => p.dt

theorem multiply_val (nm nm' : PName) (f mx : K) (p : Params K) (m : ℕ) :
    (multiplyUpdate nm f mx p).val nm' m = if nm' = nm then min mx (f * p.val nm m) else p.val nm' m := by
  cases nm <;> cases nm' <;> rfl

end Any

section Ordered
variable {K V : Type} [Field K] [LinearOrder K] [IsStrictOrderedRing K]

/-- **C26, growing.** `factor ≥ 1`, `maximum ≥ 0`: after `k ≥ 1` updates the parameter is `min(maximum, factor^k * initial)`;
parameters with other names are unchanged. -/
theorem C26_grow (nm : PName) (f mx : K) (hf : 1 ≤ f) (hmx : 0 ≤ mx) (p : Params K) (m k : ℕ) :
    ((multiplyUpdate nm f mx)^[k + 1] p).val nm m = min mx (f ^ (k + 1) * p.val nm m) ∧
    ∀ nm', nm' ≠ nm → ((multiplyUpdate nm f mx)^[k + 1] p).val nm' m = p.val nm' m := by
  induction k with
  | zero => exact ⟨by simp [multiply_val], fun nm' h => by simp [multiply_val, h]⟩
  | succ k ih =>
    rw [Function.iterate_succ_apply']
    refine ⟨?_, fun nm' h => by rw [multiply_val, if_neg h]; exact ih.2 nm' h⟩
    rw [multiply_val, if_pos rfl, ih.1, mul_min_of_nonneg _ _ (by linarith), ← min_assoc,
      min_eq_left (show mx ≤ f * mx from le_mul_of_one_le_left hmx hf), ← mul_assoc, ← pow_succ']

/-- **C26, shrinking.** `0 ≤ factor ≤ 1`, initial value at most `maximum`: after `k` updates the parameter is exactly
`factor^k * initial`, which is still at most `maximum` (so the formula `min(maximum, factor^k * initial)` holds as well). -/
theorem C26_shrink (nm : PName) (f mx : K) (h0 : 0 ≤ f) (h1 : f ≤ 1) (hmx : 0 ≤ mx) (p : Params K) (m k : ℕ)
    (hv : p.val nm m ≤ mx) :
    ((multiplyUpdate nm f mx)^[k] p).val nm m = f ^ k * p.val nm m ∧ f ^ k * p.val nm m ≤ mx ∧
    ∀ nm', nm' ≠ nm → ((multiplyUpdate nm f mx)^[k] p).val nm' m = p.val nm' m := by
  have hle : ∀ j, f ^ j * p.val nm m ≤ mx := by
    intro j
    rcases le_total 0 (p.val nm m) with h | h
    · exact (mul_le_of_le_one_left h (pow_le_one₀ h0 h1)).trans hv
    · exact (mul_nonpos_of_nonneg_of_nonpos (pow_nonneg h0 j) h).trans hmx
  induction k with
  | zero => exact ⟨by simp, by simpa using hv, fun _ _ => rfl⟩
  | succ k ih =>
    rw [Function.iterate_succ_apply']
    refine ⟨?_, hle _, fun nm' h => by rw [multiply_val, if_neg h]; exact ih.2.2 nm' h⟩
    rw [multiply_val, if_pos rfl, ih.1, ← mul_assoc, ← pow_succ', min_eq_right (hle _)]

/-- **C26, cap.** After any update the parameter is at most `maximum`. -/
theorem C26_capped (nm : PName) (f mx : K) (p : Params K) (m : ℕ) : (multiplyUpdate nm f mx p).val nm m ≤ mx := by
  rw [multiply_val, if_pos rfl]
  exact min_le_left _ _

variable [Add V] [Sub V] [SMul K V]

/-- **C26, default schedule.** With the default scheduler, after `k ≥ 1` iterations of the loop of `optimize` (check, step,
scheduler) of any dynamic, `alpha` of every run is `min(1e5, 1.05^k * alpha_0)`, and `lamda`, `sigma`, `dt` are unchanged. -/
theorem C26_default (env : Env K V) (inner : St K V → Except Err (St K V)) (hi : InnerFrame inner)
    (hsched : ∀ s, env.sched s = .ok (schedulerUpdate defaultSched s.params)) (s s' : St K V) (k m : ℕ)
    (h : execAll env inner (rounds (k + 1)) s = .ok s') :
    s'.alpha m = min 100000 ((21 / 20) ^ (k + 1) * s.alpha m) ∧
    s'.lamda = s.lamda ∧ s'.sigma = s.sigma ∧ s'.dt = s.dt := by
  have key : ∀ k (s s' : St K V), execAll env inner (rounds k) s = .ok s' →
      s'.params = (multiplyUpdate .alpha (21 / 20) 100000)^[k] s.params := by
    intro k
    induction k with
    | zero =>
      intro s s' h
      simp only [rounds, List.replicate_zero, List.flatten_nil, execAll] at h
      injection h with h
      rw [h]; rfl
    | succ k ih =>
      intro s s' h
      rw [rounds_succ] at h
      simp only [List.cons_append, List.nil_append, execAll, exec, bind_ok] at h
      obtain ⟨a, ha, b, hb, c, hc, h⟩ := h
      rw [ih c s' h, Function.iterate_succ_apply]
      congr 1
      have fb := step_frame hi hb
      simp only [schedUpdate, bind_ok, pure_ok, hsched] at hc
      obtain ⟨q, hq, rfl⟩ := hc
      injection hq with hq
      subst hq
      have e1 : a.params = s.params := by rw [select_frame ha]; rfl
      have e2 : b.params = a.params := by simp only [St.params, fb.alpha, fb.lamda, fb.sigma, fb.dt]
      rw [← e1, ← e2]
      rfl
  have h1 := key _ _ _ h
  obtain ⟨h2, h3⟩ := C26_grow .alpha (21 / 20) 100000 (by norm_num) (by norm_num) s.params m k
  rw [← h1] at h2 h3
  exact ⟨h2, h3 .lamda (by simp), h3 .sigma (by simp), h3 .dt (by simp)⟩

/-- C26: the shrinking case with the cap not active, and the growing case in which the cap becomes active at the second
update. -/
example : ((multiplyUpdate .dt (1 / 2) 100)^[3] (⟨fun _ => 1, 1, 1, 8⟩ : Params ℚ)).dt = 1 ∧
    ((multiplyUpdate .alpha 20 100)^[2] (⟨fun _ => 1, 1, 1, 8⟩ : Params ℚ)).alpha 0 = 100 := by
  constructor <;> decide +kernel

/-- C26: the default schedule on the example dynamic; `alpha = 1` becomes `(21/20)^3` after three iterations. -/
example : let env : Env ℚ ℚ := { Example.env with sched := fun s => .ok (schedulerUpdate defaultSched s.params) }
    InnerFrame (cboInner env) ∧ (∀ s, env.sched s = .ok (schedulerUpdate defaultSched s.params)) ∧
    (match execAll env (cboInner env) (rounds 3) (Example.start [.maxIt (some 7)] none) with
      | .ok s => decide (s.alpha 0 = (21 / 20) ^ 3 ∧ s.alpha 1 = (21 / 20) ^ 3)
      | _ => false) = true :=
  ⟨consThen_frame (cboMove_ok _), fun _ => rfl, by decide +kernel⟩

/-- **C27, stopping and residual.** For every function, bracket, threshold, iteration limit and number of components: the
loop makes between 1 and `max_it + 1` passes (= evaluations of `f`); if it makes fewer than `max_it + 1`, every
component of the returned point has residual at most `thresh`. -/
theorem C27_stops (f : (ℕ → K) → ℕ → K) (M : ℕ) (low high : ℕ → K) (maxIt : ℕ) (thresh : K) :
    1 ≤ (bisection f M low high maxIt thresh).it ∧ (bisection f M low high maxIt thresh).it ≤ maxIt + 1 ∧
    ((bisection f M low high maxIt thresh).it < maxIt + 1 →
      ∀ j < M, |f (bisection f M low high maxIt thresh).x j| ≤ thresh) := by
  obtain ⟨h1, h2, h3, -⟩ := bisLoop_stop (f := f) (M := M) (thresh := thresh) (maxIt := maxIt) (maxIt + 1)
    ⟨low, high, high, List.range M, 0⟩ (by omega) (by simp)
  refine ⟨h3, h2, fun hlt => ?_⟩
  rcases h1 with h1 | h1
  · exact absurd h1 (by unfold bisection at hlt; omega)
  · exact h1

/-- **C27, bracket.** The returned point lies in the initial bracket, componentwise, for every function `f`. -/
theorem C27_bracket (f : (ℕ → K) → ℕ → K) (M : ℕ) (low high : ℕ → K) (maxIt : ℕ) (thresh : K) (j : ℕ)
    (h : low j ≤ high j) :
    low j ≤ (bisection f M low high maxIt thresh).x j ∧ (bisection f M low high maxIt thresh).x j ≤ high j := by
  have := bisLoop_induct (f := f) (M := M) (thresh := thresh) (maxIt := maxIt)
    (P := fun s => low j ≤ s.low j ∧ s.low j ≤ s.high j ∧ s.high j ≤ high j ∧ low j ≤ s.x j ∧ s.x j ≤ high j)
    (fun s ⟨h1, h2, h3, _, _⟩ => by
      obtain ⟨m1, m2⟩ := mid_le h2
      simp only [bisBody]
      refine ⟨?_, ?_, ?_, h1.trans m1, m2.trans h3⟩
      · split_ifs
        · exact h1.trans m1
        · exact h1
      · split_ifs <;> first | exact le_refl _ | exact m1 | exact m2 | exact h2
      · split_ifs
        · exact m2.trans h3
        · exact h3)
    (maxIt + 1) ⟨low, high, high, List.range M, 0⟩ ⟨le_refl _, h, le_refl _, h, le_refl _⟩
  exact ⟨this.2.2.2.1, this.2.2.2.2⟩

/-- **C27, sign change.** If `f` acts componentwise, `(f x)_j = φ_j(x_j)`, and `φ_j(low_j) ≥ 0 ≥ φ_j(high_j)`, then the final
bracket is contained in the initial one and still has a sign change, `φ_j(low) ≥ 0 ≥ φ_j(high)`, and if `φ_j` is
non-increasing on the bracket it contains every root of `φ_j` of the initial bracket. -/
theorem C27_sign (φ : ℕ → K → K) (M : ℕ) (low high : ℕ → K) (maxIt : ℕ) (thresh : K) (j : ℕ)
    (h : low j ≤ high j) (h1 : 0 ≤ φ j (low j)) (h2 : φ j (high j) ≤ 0) :
    let r := bisection (fun x j => φ j (x j)) M low high maxIt thresh
    low j ≤ r.low j ∧ r.low j ≤ r.high j ∧ r.high j ≤ high j ∧ 0 ≤ φ j (r.low j) ∧ φ j (r.high j) ≤ 0 ∧
    (AntitoneOn (φ j) (Set.Icc (low j) (high j)) → ∀ z, low j ≤ z → z ≤ high j → φ j z = 0 → r.low j ≤ z ∧ z ≤ r.high j) := by
  have := bisLoop_induct (f := fun x j => φ j (x j)) (M := M) (thresh := thresh) (maxIt := maxIt)
    (P := fun r => low j ≤ r.low j ∧ r.low j ≤ r.high j ∧ r.high j ≤ high j ∧ 0 ≤ φ j (r.low j) ∧ φ j (r.high j) ≤ 0 ∧
      (AntitoneOn (φ j) (Set.Icc (low j) (high j)) → ∀ z, low j ≤ z → z ≤ high j → φ j z = 0 → r.low j ≤ z ∧ z ≤ r.high j))
    (fun s ⟨a1, a2, a3, a4, a5, a6⟩ => by
      obtain ⟨m1, m2⟩ := mid_le a2
      simp only [bisBody]
      refine ⟨?_, ?_, ?_, ?_, ?_, ?_⟩
      · split_ifs
        · exact a1.trans m1
        · exact a1
      · split_ifs <;> first | exact le_refl _ | exact m1 | exact m2 | exact a2
      · split_ifs
        · exact m2.trans a3
        · exact a3
      · split_ifs with hc
        · exact hc.2.le
        · exact a4
      · split_ifs with hc
        · exact hc.2.le
        · exact a5
      · intro ha z z1 z2 z3
        obtain ⟨b1, b2⟩ := a6 ha z z1 z2 z3
        constructor
        · split_ifs with hc
          · by_contra hn
            have := ha ⟨z1, z2⟩ ⟨a1.trans m1, m2.trans a3⟩ (not_le.1 hn).le
            rw [z3] at this
            exact absurd hc.2 (not_lt.2 this)
          · exact b1
        · split_ifs with hc
          · by_contra hn
            have := ha ⟨a1.trans m1, m2.trans a3⟩ ⟨z1, z2⟩ (not_le.1 hn).le
            rw [z3] at this
            exact absurd hc.2 (not_lt.2 this)
          · exact b2)
    (maxIt + 1) ⟨low, high, high, List.range M, 0⟩ ⟨le_refl _, h, le_refl _, h1, h2, fun _ z z1 z2 _ => ⟨z1, z2⟩⟩
  exact this

/-- **C27, accuracy** for a single component and a function non-increasing on the bracket, with `thresh ≥ 0`: either the residual of the
returned point is at most `thresh`, or the bracket was halved in each of the `max_it + 1` passes, so that the returned point
is within `(high - low) / 2^(max_it+1)` of every root in the bracket. -/
theorem C27_accuracy (φ : K → K) (low high : K) (ha : AntitoneOn φ (Set.Icc low high)) (hlh : low ≤ high) (maxIt : ℕ)
    (thresh : K) (ht : 0 ≤ thresh) :
    let r := bisection (fun x j => φ (x j)) 1 (fun _ => low) (fun _ => high) maxIt thresh
    |φ (r.x 0)| ≤ thresh ∨
      ∀ z, low ≤ z → z ≤ high → φ z = 0 → |r.x 0 - z| ≤ (high - low) / 2 ^ (maxIt + 1) := by
  have key : ∀ n (s : Bis K), 0 < n → s.it + n = maxIt + 1 → 0 ∈ s.idx → s.low 0 ≤ s.high 0 → low ≤ s.low 0 →
      s.high 0 ≤ high →
      s.high 0 - s.low 0 = (high - low) / 2 ^ s.it →
      (∀ z, low ≤ z → z ≤ high → φ z = 0 → s.low 0 ≤ z ∧ z ≤ s.high 0) →
      |φ ((bisLoop (fun x j => φ (x j)) 1 thresh maxIt n s).x 0)| ≤ thresh ∨
      ∀ z, low ≤ z → z ≤ high → φ z = 0 →
        |(bisLoop (fun x j => φ (x j)) 1 thresh maxIt n s).x 0 - z| ≤ (high - low) / 2 ^ (maxIt + 1) := by
    intro n
    induction n with
    | zero => intro s h; exact absurd h (lt_irrefl 0)
    | succ n ih =>
      intro s _ hit hidx hle hb1 hb2 hw hz
      obtain ⟨m1, m2⟩ := mid_le hle
      have hx : (bisBody (fun x j => φ (x j)) 1 thresh s).x 0 = (s.low 0 + s.high 0) / 2 := rfl
      have hmem : 0 ∈ (bisBody (fun x j => φ (x j)) 1 thresh s).idx ↔ thresh < |φ ((s.low 0 + s.high 0) / 2)| := by
        simp only [bisBody, List.mem_filter, List.mem_range, Nat.lt_one_iff, true_and, decide_eq_true_eq]
        rfl
      have hhalf : (high - low) / 2 ^ (s.it + 1) = (s.high 0 - s.low 0) / 2 := by
        rw [hw, pow_succ, div_div]
      simp only [bisLoop]
      rcases le_or_gt |φ ((s.low 0 + s.high 0) / 2)| thresh with hr | hr
      · left
        rw [if_pos]
        · exact hr
        · right
          apply List.eq_nil_iff_forall_not_mem.2
          intro j hj
          have hj1 : j = 0 := by
            have : j < 1 := by simp only [bisBody, List.mem_filter, List.mem_range] at hj; exact hj.1
            omega
          rw [hj1, hmem] at hj
          exact absurd hr (not_le.2 hj)
      · have hi : (bisBody (fun x j => φ (x j)) 1 thresh s).it = s.it + 1 := rfl
        rcases Nat.eq_zero_or_pos n with hn | hn
        · right
          intro z z1 z2 z3
          obtain ⟨b1, b2⟩ := hz z z1 z2 z3
          have h1 : maxIt < (bisBody (fun x j => φ (x j)) 1 thresh s).it := by rw [hi]; omega
          rw [if_pos (Or.inl h1), hx, show maxIt + 1 = s.it + 1 by omega, hhalf, abs_le]
          constructor <;> linarith
        · have h1 : ¬ maxIt < (bisBody (fun x j => φ (x j)) 1 thresh s).it := by rw [hi]; omega
          have h2 : (bisBody (fun x j => φ (x j)) 1 thresh s).idx ≠ [] := List.ne_nil_of_mem (hmem.2 hr)
          rw [if_neg (by rintro (h | h); exacts [h1 h, h2 h])]
          rcases lt_trichotomy (φ ((s.low 0 + s.high 0) / 2)) 0 with hs | hs | hs
          · have el : (bisBody (fun x j => φ (x j)) 1 thresh s).low 0 = s.low 0 := if_neg fun h => absurd h.2 (not_lt.2 hs.le)
            have eh : (bisBody (fun x j => φ (x j)) 1 thresh s).high 0 = (s.low 0 + s.high 0) / 2 := if_pos ⟨hidx, hs⟩
            refine ih _ hn (by rw [hi]; omega) (hmem.2 hr) ?_ ?_ ?_ ?_ ?_
            · rw [el, eh]; exact m1
            · rw [el]; exact hb1
            · rw [eh]; exact m2.trans hb2
            · rw [el, eh, hi, hhalf]; linarith
            · intro z z1 z2 z3
              rw [el, eh]
              refine ⟨(hz z z1 z2 z3).1, ?_⟩
              by_contra hc
              have := ha ⟨hb1.trans m1, m2.trans hb2⟩ ⟨z1, z2⟩ (not_le.1 hc).le
              rw [z3] at this
              exact absurd hs (not_lt.2 this)
          · rw [hs, abs_zero] at hr
            exact absurd hr (not_lt.2 ht)
          · have el : (bisBody (fun x j => φ (x j)) 1 thresh s).low 0 = (s.low 0 + s.high 0) / 2 := if_pos ⟨hidx, hs⟩
            have eh : (bisBody (fun x j => φ (x j)) 1 thresh s).high 0 = s.high 0 := if_neg fun h => absurd h.2 (not_lt.2 hs.le)
            refine ih _ hn (by rw [hi]; omega) (hmem.2 hr) ?_ ?_ ?_ ?_ ?_
            · rw [el, eh]; exact m2
            · rw [el]; exact hb1.trans m1
            · rw [eh]; exact hb2
            · rw [el, eh, hi, hhalf]; linarith
            · intro z z1 z2 z3
              rw [el, eh]
              refine ⟨?_, (hz z z1 z2 z3).2⟩
              by_contra hc
              have := ha ⟨z1, z2⟩ ⟨hb1.trans m1, m2.trans hb2⟩ (not_le.1 hc).le
              rw [z3] at this
              exact absurd hs (not_lt.2 this)
  exact key (maxIt + 1) _ (by omega) (by simp) (by simp) hlh (le_refl _) (le_refl _) (by simp) fun z z1 z2 _ => ⟨z1, z2⟩

/-- C27: bisection of `φ(x) = 1 - x` on `[0, 4]` with threshold `1/10`: exact at the second pass. -/
example : (bisection (fun x _ => 1 - x 0) 1 (fun _ => 0) (fun _ => (4 : ℚ)) 10 (1 / 10)).x 0 = 1 ∧
    (bisection (fun x _ => 1 - x 0) 1 (fun _ => 0) (fun _ => (4 : ℚ)) 10 (1 / 10)).it = 2 ∧
    AntitoneOn (fun x : ℚ => 1 - x) (Set.Icc 0 4) := by
  refine ⟨by decide +kernel, by decide +kernel, fun a _ b _ h => sub_le_sub_left h 1⟩

end Ordered

/-! ### The effective sample size -/

/-- **C28, formula.** The function whose root is searched is `J_eff(alpha) - eta N`, with `J_eff` as documented. -/
theorem C28_gap {N : ℕ} (hN : 0 < N) (e : ℕ → ℝ) (eta alpha : ℝ) : effGap N e eta alpha = Jeff N e alpha - eta * N := by
  have p1 := part_pos hN e alpha
  have p2 := part_pos hN e (2 * alpha)
  have h1 : logsumexp N (fun i => -alpha * e i) = Real.log (part N e alpha) := by
    simp only [logsumexp, part, neg_mul]
  have h2 : logsumexp N (fun i => -2 * alpha * e i) = Real.log (part N e (2 * alpha)) := by
    simp only [logsumexp, part, neg_mul]
  rw [effGap, h1, h2, Jeff_eq, Real.exp_sub, Real.exp_log p2]
  congr 2
  rw [two_mul, Real.exp_add, Real.exp_log p1, pow_two]

/-- **C28, range.** `1 ≤ J_eff ≤ N`. -/
theorem C28_range {N : ℕ} (hN : 0 < N) (e : ℕ → ℝ) (alpha : ℝ) : 1 ≤ Jeff N e alpha ∧ Jeff N e alpha ≤ N := by
  have hpos : 0 < ∑ i ∈ Finset.range N, Real.exp (-(alpha * e i)) ^ 2 :=
    Finset.sum_pos (fun i _ => by positivity) ⟨0, by simpa using hN⟩
  unfold Jeff
  rw [one_le_div hpos, div_le_iff₀ hpos]
  constructor
  · exact Finset.sum_sq_le_sq_sum_of_nonneg (fun i _ => (Real.exp_pos _).le)
  · have := sq_sum_le_card_mul_sum_sq (s := Finset.range N) (f := fun i => Real.exp (-(alpha * e i)))
    simpa using this

/-- **C28, at 0.** `J_eff(0) = N`. -/
theorem C28_zero {N : ℕ} (hN : 0 < N) (e : ℕ → ℝ) : Jeff N e 0 = N := by
  have : (N : ℝ) ≠ 0 := by positivity
  simp only [Jeff, zero_mul, neg_zero, Real.exp_zero, Finset.sum_const, Finset.card_range, nsmul_eq_mul, mul_one, one_pow]
  rw [pow_two, mul_div_assoc, div_self this, mul_one]

/-- **C28, continuity.** -/
theorem C28_continuous {N : ℕ} (hN : 0 < N) (e : ℕ → ℝ) : Continuous (Jeff N e) := by
  unfold Jeff
  refine Continuous.div (by fun_prop) (by fun_prop) fun a => ?_
  exact (Finset.sum_pos (fun i _ => by positivity) ⟨0, by simpa using hN⟩).ne'

/-- **C28, monotone.** `J_eff` is non-increasing on `alpha ≥ 0`. -/
theorem C28_antitone {N : ℕ} (hN : 0 < N) (e : ℕ → ℝ) : AntitoneOn (Jeff N e) (Set.Ici 0) := by
  intro a ha b _ hab
  have h := log_part_slope hN e ha hab
  have pa := part_pos hN e a
  have pb := part_pos hN e b
  have pa2 := part_pos hN e (2 * a)
  have pb2 := part_pos hN e (2 * b)
  rw [Jeff_eq, Jeff_eq, ← Real.log_le_log_iff (by positivity) (by positivity), Real.log_div (by positivity) pb2.ne',
    Real.log_div (by positivity) pa2.ne', Real.log_pow, Real.log_pow]
  push_cast
  linarith

/-- **C28, shift.** Adding a constant to all energies does not change `J_eff`. -/
theorem C28_shift (N : ℕ) (e : ℕ → ℝ) (c alpha : ℝ) : Jeff N (fun i => e i + c) alpha = Jeff N e alpha := by
  have h : ∀ i, Real.exp (-(alpha * (e i + c))) = Real.exp (-(alpha * c)) * Real.exp (-(alpha * e i)) := fun i => by
    rw [← Real.exp_add]; congr 1; ring
  simp only [Jeff, h, mul_pow, ← Finset.mul_sum]
  exact mul_div_mul_left _ _ (by positivity)

/-- C28: a non-trivial case: energies `0, 1`; `J_eff` really decreases. -/
example : Jeff 2 (fun i => i) 0 = 2 ∧ Jeff 2 (fun i => i) 1 < 2 := by
  refine ⟨C28_zero (by norm_num) _, ?_⟩
  have h : 0 < Real.exp (-1) := Real.exp_pos _
  have h1 : Real.exp (-1) < 1 := by
    rw [Real.exp_lt_one_iff]; norm_num
  simp only [Jeff, Finset.sum_range_succ, Finset.sum_range_zero, Nat.cast_zero, Nat.cast_one, mul_zero, neg_zero,
    Real.exp_zero, mul_one, zero_add, one_pow]
  rw [div_lt_iff₀ (by positivity)]
  nlinarith

/-- **C29, range.** Whatever the energies, after an update every run's `alpha` lies in `[1e-5, maximum]`, and the other
parameters are unchanged. -/
theorem C29_range (M N : ℕ) (E : ℕ → ℕ → ℝ) (eta maximum : ℝ) (hmax : 1 / 100000 ≤ maximum) (it : ℕ) (p : Params ℝ) (m : ℕ) :
    1 / 100000 ≤ (effectiveUpdate M N E eta maximum it p).alpha m ∧
    (effectiveUpdate M N E eta maximum it p).alpha m ≤ maximum ∧
    (effectiveUpdate M N E eta maximum it p).lamda = p.lamda ∧
    (effectiveUpdate M N E eta maximum it p).sigma = p.sigma ∧ (effectiveUpdate M N E eta maximum it p).dt = p.dt := by
  obtain ⟨h1, h2⟩ := C27_bracket (fun a m => effGap N (E m) eta (a m)) M (fun _ => 1 / 100000) (fun _ => maximum) it
    (1 / 100) m hmax
  exact ⟨le_min hmax h1, min_le_left _ _, rfl, rfl, rfl⟩

theorem effective_alpha (M N : ℕ) (E : ℕ → ℕ → ℝ) (eta maximum : ℝ) (hmax : 1 / 100000 ≤ maximum) (it : ℕ) (p : Params ℝ)
    (m : ℕ) : (effectiveUpdate M N E eta maximum it p).alpha m =
      (bisection (fun a m => effGap N (E m) eta (a m)) M (fun _ => 1 / 100000) (fun _ => maximum) it (1 / 100)).x m :=
  min_eq_right (C27_bracket (fun a m => effGap N (E m) eta (a m)) M (fun _ => 1 / 100000) (fun _ => maximum) it
    (1 / 100) m hmax).2

/-- **C29, early stop.** If the solver returns before the iteration limit, every run's `alpha` satisfies
`|J_eff(alpha) - eta N| ≤ 1e-2`. -/
theorem C29_early {M N : ℕ} (hN : 0 < N) (E : ℕ → ℕ → ℝ) (eta maximum : ℝ) (hmax : 1 / 100000 ≤ maximum) (it : ℕ)
    (p : Params ℝ)
    (hit : (bisection (fun a m => effGap N (E m) eta (a m)) M (fun _ => 1 / 100000) (fun _ => maximum) it (1 / 100)).it <
      it + 1) (m : ℕ) (hm : m < M) :
    |Jeff N (E m) ((effectiveUpdate M N E eta maximum it p).alpha m) - eta * N| ≤ 1 / 100 := by
  rw [effective_alpha M N E eta maximum hmax, ← C28_gap hN]
  exact (C27_stops _ M _ _ it (1 / 100)).2.2 hit m hm

/-- **C29, accuracy, one run.** With `M = 1` and `eta N` between `J_eff(maximum)` and `J_eff(1e-5)`, a solution of
`J_eff = eta N` exists in `[1e-5, maximum]`, and the new `alpha` either satisfies the equation up to `1e-2`, or is within
`(maximum - 1e-5) / 2^(max_it + 1)` of the solution. -/
theorem C29_accuracy {N : ℕ} (hN : 0 < N) (E : ℕ → ℕ → ℝ) (eta maximum : ℝ) (hmax : 1 / 100000 ≤ maximum) (it : ℕ)
    (p : Params ℝ) (h1 : eta * N ≤ Jeff N (E 0) (1 / 100000)) (h2 : Jeff N (E 0) maximum ≤ eta * N) :
    ∃ z ∈ Set.Icc (1 / 100000) maximum, Jeff N (E 0) z = eta * N ∧
      (|Jeff N (E 0) ((effectiveUpdate 1 N E eta maximum it p).alpha 0) - eta * N| ≤ 1 / 100 ∨
        |(effectiveUpdate 1 N E eta maximum it p).alpha 0 - z| ≤ (maximum - 1 / 100000) / 2 ^ (it + 1)) := by
  obtain ⟨z, hz, hzJ⟩ := intermediate_value_Icc' hmax (C28_continuous hN (E 0)).continuousOn ⟨h2, h1⟩
  refine ⟨z, hz, hzJ, ?_⟩
  have key := C27_accuracy (fun a => effGap N (E 0) eta a) (1 / 100000) maximum
    (by
      intro a ha b hb hab
      simp only [C28_gap hN]
      have := C28_antitone hN (E 0) (show (0 : ℝ) ≤ a from le_trans (by norm_num) ha.1)
        (show (0 : ℝ) ≤ b from le_trans (by norm_num) hb.1) hab
      linarith) hmax it (1 / 100) (by norm_num)
  rw [effective_alpha 1 N E eta maximum hmax, bisection_one (fun a m => effGap N (E m) eta (a m)) (fun a m => effGap N (E 0) eta (a m))]
  · rcases key with key | key
    · left; rw [← C28_gap hN]; exact key
    · right; exact key z hz.1 hz.2 (by rw [C28_gap hN, hzJ, sub_self])
  · intro x y h; simp only [h]

/-- C29: the hypotheses hold for energies `0, 1`, `eta = 3/4`, the default `maximum` (the equation has a solution). -/
example : (3 / 4 : ℝ) * (2 : ℕ) ≤ Jeff 2 (fun i => i) (1 / 100000) ∧ Jeff 2 (fun i => i) 100000 ≤ (3 / 4 : ℝ) * (2 : ℕ) := by
  have key : ∀ a, Jeff 2 (fun i => i) a = (1 + Real.exp (-a)) ^ 2 / (1 + Real.exp (-a) ^ 2) := fun a => by
    simp [Jeff, Finset.sum_range_succ]
  rw [key, key]
  constructor
  · rw [le_div_iff₀ (by positivity)]
    have h := Real.add_one_le_exp (-(1 / 100000 : ℝ))
    have h1 : Real.exp (-(1 / 100000 : ℝ)) ≤ 1 := by rw [Real.exp_le_one_iff]; norm_num
    push_cast
    nlinarith
  · rw [div_le_iff₀ (by positivity)]
    have h := Real.add_one_le_exp (100000 : ℝ)
    have h0 := Real.exp_pos (-(100000 : ℝ))
    have h2 : Real.exp (-(100000 : ℝ)) ≤ 1 / 100 := by
      rw [Real.exp_neg, ← one_div]
      exact one_div_le_one_div_of_le (by norm_num) (by linarith)
    push_cast
    nlinarith

/-- Energies of the counterexample: run 0 has `0, 1`, every other run `0, 0`. -/
noncomputable def couplingE : ℕ → ℕ → ℝ := fun m i => if m = 0 then i else 0

theorem coupling_gap0 {a : ℝ} (ha : 1000 ≤ a) :
    0 < effGap 2 (couplingE 0) (1 / 2) a ∧ effGap 2 (couplingE 0) (1 / 2) a ≤ 1 / 100 := by
  have h0 := Real.exp_pos (-a)
  have h1 := Real.add_one_le_exp a
  have h2 : Real.exp (-a) ≤ 1 / 1000 := by
    rw [Real.exp_neg, ← one_div]
    exact one_div_le_one_div_of_le (by norm_num) (by linarith)
  have key : effGap 2 (couplingE 0) (1 / 2) a = 2 * Real.exp (-a) / (1 + Real.exp (-a) ^ 2) := by
    rw [C28_gap (by norm_num)]
    simp only [Jeff, couplingE, Finset.sum_range_succ, Finset.sum_range_zero, if_true, Nat.cast_zero, mul_zero, neg_zero,
      Real.exp_zero, Nat.cast_one, mul_one, zero_add, one_pow]
    rw [eq_div_iff (by positivity), sub_mul, div_mul_cancel₀ _ (by positivity)]
    push_cast
    ring
  rw [key]
  refine ⟨by positivity, ?_⟩
  rw [div_le_iff₀ (by positivity)]
  nlinarith

theorem coupling_gap1 (a : ℝ) : effGap 2 (couplingE 1) (1 / 2) a = 1 := by
  rw [C28_gap (by norm_num)]
  simp [Jeff, couplingE]
  norm_num

/-- **C17 fails for the effective scheduler.** With all parameters of `effective_sample_size` at their defaults, the `alpha`
computed for run 0 (energies `0, 1`) depends on whether a second run is present: alone it is the first midpoint of the
bisection, and next to a run with equal energies it is `(midpoint + maximum) / 2`. (`bisection_solve` keeps halving while any
run is unconverged and returns the last midpoint for every run, also for the runs that had converged earlier.) -/
theorem C17_effective_false (p : Params ℝ) :
    (effectiveUpdate 1 2 couplingE (1 / 2) 100000 15 p).alpha 0 = (1 / 100000 + 100000) / 2 ∧
    (effectiveUpdate 2 2 couplingE (1 / 2) 100000 15 p).alpha 0 = ((1 / 100000 + 100000) / 2 + 100000) / 2 ∧
    (effectiveUpdate 1 2 couplingE (1 / 2) 100000 15 p).alpha 0 ≠
      (effectiveUpdate 2 2 couplingE (1 / 2) 100000 15 p).alpha 0 := by
  obtain ⟨a1, a2⟩ := coupling_gap0 (a := (1 / 100000 + 100000) / 2) (by norm_num)
  obtain ⟨b1, b2⟩ := coupling_gap0 (a := ((1 / 100000 + 100000) / 2 + 100000) / 2) (by norm_num)
  have c1 : ¬ (1 / 100 : ℝ) < |effGap 2 (couplingE 0) (1 / 2) ((1 / 100000 + 100000) / 2)| := by
    rw [abs_of_pos a1]; exact not_lt.2 a2
  have c2 : ¬ (1 / 100 : ℝ) < |effGap 2 (couplingE 0) (1 / 2) (((1 / 100000 + 100000) / 2 + 100000) / 2)| := by
    rw [abs_of_pos b1]; exact not_lt.2 b2
  have h1 : (effectiveUpdate 1 2 couplingE (1 / 2) 100000 15 p).alpha 0 = (1 / 100000 + 100000) / 2 := by
    rw [effective_alpha _ _ _ _ _ (by norm_num), bisection, bisLoop, if_pos]
    · rfl
    · right
      simp only [bisBody, List.range_one, List.filter_cons, List.filter_nil, show ¬ (1 : ℝ) / 100 < absK (effGap 2 (couplingE 0) (1 / 2) ((1 / 100000 + 100000) / 2)) from c1, decide_false]
      rfl
  have h2 : (effectiveUpdate 2 2 couplingE (1 / 2) 100000 15 p).alpha 0 = ((1 / 100000 + 100000) / 2 + 100000) / 2 := by
    rw [effective_alpha _ _ _ _ _ (by norm_num), bisection]
    set f : (ℕ → ℝ) → ℕ → ℝ := fun a m => effGap 2 (couplingE m) (1 / 2) (a m) with hf
    set s0 : Bis ℝ := ⟨fun _ => 1 / 100000, fun _ => 100000, fun _ => 100000, List.range 2, 0⟩ with hs0
    set s1 := bisBody f 2 (1 / 100) s0 with hs1
    have l1 : s1.low 0 = (1 / 100000 + 100000) / 2 := if_pos ⟨by simp [hs0], a1⟩
    have r1 : s1.high 0 = 100000 := if_neg fun h => absurd h.2 (not_lt.2 a1.le)
    have m1 : 1 ∈ s1.idx := by
      simp only [hs1, bisBody, List.mem_filter, List.mem_range, decide_eq_true_eq, hf, coupling_gap1]
      norm_num [absK]
    have n1 : 0 ∉ s1.idx := by
      simp only [hs1, bisBody, List.mem_filter, decide_eq_true_eq]
      exact fun h => c1 h.2
    have step : ∀ s : Bis ℝ, s.low 0 = (1 / 100000 + 100000) / 2 ∧ s.high 0 = 100000 ∧ 0 ∉ s.idx →
        let t := bisBody f 2 (1 / 100) s
        (t.low 0 = (1 / 100000 + 100000) / 2 ∧ t.high 0 = 100000 ∧ 0 ∉ t.idx) ∧
          t.x 0 = ((1 / 100000 + 100000) / 2 + 100000) / 2 := by
      rintro s ⟨e1, e2, e3⟩
      have ex : (s.low 0 + s.high 0) / 2 = ((1 / 100000 + 100000) / 2 + 100000) / 2 := by rw [e1, e2]
      refine ⟨⟨?_, ?_, ?_⟩, ex⟩
      · simp only [bisBody]; rw [if_neg (fun h => e3 h.1), e1]
      · simp only [bisBody]; rw [if_neg (fun h => e3 h.1), e2]
      · simp only [bisBody, List.mem_filter, decide_eq_true_eq, hf, ex]
        exact fun h => c2 h.2
    have hne : ¬ (15 < s1.it ∨ s1.idx = []) := by
      rintro (h | h)
      · exact absurd h (by simp [hs1, bisBody, hs0])
      · rw [h] at m1; simp at m1
    rw [bisLoop, if_neg hne]
    obtain ⟨k1, k2⟩ := step s1 ⟨l1, r1, n1⟩
    have : (bisLoop f 2 (1 / 100) 15 15 s1) =
        if 15 < (bisBody f 2 (1 / 100) s1).it ∨ (bisBody f 2 (1 / 100) s1).idx = [] then bisBody f 2 (1 / 100) s1
        else bisLoop f 2 (1 / 100) 15 14 (bisBody f 2 (1 / 100) s1) := rfl
    rw [this]
    split_ifs
    · exact k2
    · have := bisLoop_induct (f := f) (M := 2) (thresh := 1 / 100) (maxIt := 15)
        (P := fun s => (s.low 0 = (1 / 100000 + 100000) / 2 ∧ s.high 0 = 100000 ∧ 0 ∉ s.idx) ∧
          s.x 0 = ((1 / 100000 + 100000) / 2 + 100000) / 2) (fun s hs => step s hs.1) 14 _ ⟨k1, k2⟩
      exact this.2
  refine ⟨h1, h2, ?_⟩
  rw [h1, h2]
  norm_num

end Verif
