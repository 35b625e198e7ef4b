import Verif.Proofs.Fl
import Verif.Proofs.OptimizeBy
import Mathlib.Tactic.Ring

/-! Lemmas about the clock in floating point arithmetic. -/

set_option linter.unusedSectionVars false

namespace Verif

section
variable {p : ℕ} {rd : ℝ → ℝ}

/-- The rounded value, given a candidate that is near enough. -/
theorem RoundNearest.eq_of (hp : 1 ≤ p) (h : RoundNearest p rd) {m e : ℤ} {x : ℝ} (hlo : 2 ^ p < 2 * m) (hhi : m ≤ 2 ^ p)
    (hx : |x - m * (2 : ℝ) ^ e| < 2 ^ e / 2) : rd x = m * 2 ^ e := by
  have hm0 : 0 < m := by
    have : (0 : ℤ) < 2 ^ p := by positivity
    omega
  have h1 := (h x).2 _ (IsFloat.le hp (m := m) (e := e) (by rw [abs_of_pos hm0]; exact hhi))
  obtain ⟨m', e', hm', hz⟩ := (h x).1
  have hpe := two_zpow_pos e
  have hd : |rd x - m * 2 ^ e| < 2 ^ e := by
    rw [abs_sub_comm x] at hx
    have := abs_add_le (rd x - x) (x - m * 2 ^ e)
    rw [sub_add_sub_cancel, abs_sub_comm x] at this
    linarith
  rcases le_or_gt e e' with he | he
  · obtain ⟨n, rfl⟩ := Int.le.dest he
    have e1 : rd x = ((m' * 2 ^ n : ℤ) : ℝ) * 2 ^ e := by
      rw [hz, zpow_add₀ (by norm_num)]
      push_cast
      rw [zpow_natCast]
      ring
    rw [e1, ← sub_mul, abs_mul, abs_of_pos hpe] at hd
    have h2 : |((m' * 2 ^ n : ℤ) : ℝ) - m| < 1 := by
      by_contra hc
      push Not at hc
      nlinarith
    have h3 : |m' * 2 ^ n - m| < 1 := by exact_mod_cast h2
    rw [e1, sub_eq_zero.1 (Int.abs_lt_one_iff.1 h3)]
  · exfalso
    have h2 : (2 : ℝ) ^ e' ≤ 2 ^ (e - 1) := zpow_le_zpow_right₀ (by norm_num) (by omega)
    have h3 : (2 : ℝ) ^ (e - 1) = 2 ^ e / 2 := by rw [zpow_sub_one₀ (by norm_num)]; ring
    have h4 : rd x < 2 ^ p * (2 ^ e / 2) := by
      have a1 : (m' : ℝ) < 2 ^ p := by exact_mod_cast (abs_lt.1 hm').2
      have a2 : (m' : ℝ) * 2 ^ e' < 2 ^ p * 2 ^ e' := mul_lt_mul_of_pos_right a1 (two_zpow_pos e')
      have a3 : (2 : ℝ) ^ p * 2 ^ e' ≤ 2 ^ p * (2 ^ e / 2) := mul_le_mul_of_nonneg_left (by rw [← h3]; exact h2) (by positivity)
      rw [hz]; linarith
    have h5 : (2 : ℤ) ^ p + 2 ≤ 2 * m := by
      obtain ⟨q, rfl⟩ : ∃ q, p = q + 1 := ⟨p - 1, by omega⟩
      rw [pow_succ] at hlo ⊢
      omega
    have h6 : (2 : ℝ) ^ p + 2 ≤ 2 * m := by exact_mod_cast h5
    have h7 := (abs_lt.1 hd).1
    have h8 := mul_le_mul_of_nonneg_right h6 hpe.le
    linarith

/-- Numbers below the midpoint of `2 ^ (p + j)` and its successor are not rounded up beyond `2 ^ (p + j)`. -/
theorem RoundNearest.le_pow (hp : 1 ≤ p) (h : RoundNearest p rd) {j : ℤ} {y : ℝ} (hy : y < 2 ^ (p + j) + 2 ^ j) : rd y ≤ 2 ^ (p + j) := by
  by_contra hc
  push Not at hc
  obtain ⟨q, rfl⟩ : ∃ q, p = q + 1 := ⟨p - 1, by omega⟩
  have eB : (2 : ℝ) ^ (((q + 1 : ℕ) : ℤ) + j) = ((2 ^ q : ℤ) : ℝ) * 2 ^ (j + 1) := by
    push_cast
    rw [← zpow_natCast, ← zpow_add₀ (by norm_num)]
    congr 1
    ring
  have e2 : (2 : ℝ) ^ (j + 1) = 2 * 2 ^ j := by rw [zpow_add_one₀ (by norm_num)]; ring
  have hB := (h y).2 _ (IsFloat.le hp (m := 2 ^ q) (e := j + 1) (by rw [abs_of_pos (by positivity)]; exact pow_le_pow_right₀ (by norm_num) (by omega)))
  rw [← eB] at hB
  obtain ⟨m, e, hm, hz⟩ := (h y).1
  have hm' : (m : ℝ) < 2 ^ (q + 1) := by exact_mod_cast (abs_lt.1 hm).2
  have he : j < e := by
    have h1 : (2 : ℝ) ^ (((q + 1 : ℕ) : ℤ) + j) < 2 ^ (((q + 1 : ℕ) : ℤ) + e) := by
      rw [zpow_add₀ (by norm_num) _ e, zpow_natCast]
      refine hc.trans ?_
      rw [hz]
      exact mul_lt_mul_of_pos_right hm' (two_zpow_pos e)
    have := (zpow_lt_zpow_iff_right₀ (by norm_num : (1 : ℝ) < 2)).1 h1
    omega
  obtain ⟨n, hn⟩ := Int.le.dest (show j + 1 ≤ e by omega)
  have ez : rd y = ((m * 2 ^ n : ℤ) : ℝ) * 2 ^ (j + 1) := by
    rw [hz, ← hn, zpow_add₀ (by norm_num)]
    push_cast
    rw [zpow_natCast]
    ring
  have hpj := two_zpow_pos (j + 1)
  have h1 : (2 ^ q : ℤ) < m * 2 ^ n := by
    rw [ez, eB] at hc
    exact_mod_cast lt_of_mul_lt_mul_right hc hpj.le
  have h2 : ((2 ^ q : ℤ) : ℝ) + 1 ≤ ((m * 2 ^ n : ℤ) : ℝ) := by exact_mod_cast h1
  have h3 : (2 : ℝ) ^ (((q + 1 : ℕ) : ℤ) + j) + 2 ^ (j + 1) ≤ rd y := by
    rw [eB, ez]
    nlinarith
  rw [e2] at h3
  rcases abs_cases (rd y - y) with ⟨a, _⟩ | ⟨a, _⟩ <;> rcases abs_cases ((2 : ℝ) ^ (((q + 1 : ℕ) : ℤ) + j) - y) with ⟨b, _⟩ | ⟨b, _⟩ <;>
    linarith [two_zpow_pos j]

end

section
variable {K V : Type} [Zero K] [One K] [Neg K] [Add K] [Sub K] [Mul K] [Inv K] [Div K] [NatCast K] [Pow K ℕ] [LinearOrder K] [Add V] [Sub V] [SMul K V]

/-- The clock of a run with `max_time` as the only criterion, in any arithmetic. -/
theorem clock_by (env : Env K V) (stp : St K V → Except Err (St K V)) (hi : ∀ s s', stp s = .ok s' → StepFrame env s s') (T : K)
    (hsched : ∀ s p, env.sched s = .ok p → p.dt = s.dt) :
    ∀ (fuel : ℕ) (s s' : St K V), s.terms = [.maxTime T] → 0 < s.M → optimizeBy env stp fuel s = .done s' →
      ∃ k, s'.it = s.it + k ∧ s'.t = (· + s.dt)^[k] s.t ∧ T ≤ s'.t ∧ ∀ j < k, (· + s.dt)^[j] s.t < T := by
  intro fuel
  induction fuel with
  | zero => intro s s' _ _ h; simp [optimizeBy] at h
  | succ fuel ih =>
    intro s s' ht hM h
    simp only [optimizeBy] at h
    obtain ⟨a, h1, ea, hact, -⟩ := select_stateless (env := env) (s := s)
      (by rw [ht]; intro tm htm; rw [List.mem_singleton.1 htm]; trivial)
    simp only [h1] at h
    have at' : a.t = s.t := by rw [ea]
    have adt : a.dt = s.dt := by rw [ea]
    have ait : a.it = s.it := by rw [ea]
    by_cases hT : s.t < T
    · have ha : ¬ a.active.length = 0 := by
        have : 0 ∈ a.active := by
          rw [hact]
          refine ⟨hM, ?_⟩
          intro tm htm
          rw [ht, List.mem_singleton] at htm
          subst htm
          exact not_not_intro hT
        intro h0
        rw [List.length_eq_zero_iff.1 h0] at this
        simp at this
      rw [if_neg ha] at h
      cases h2 : stp a with
      | error e => simp [h2] at h
      | ok b =>
        simp only [h2] at h
        have eb := hi _ _ h2
        cases h3 : schedUpdate env b with
        | error e => simp [h3] at h
        | ok c =>
          simp only [h3] at h
          have ec := sched_frame h3
          have cdt : c.dt = s.dt := by
            simp only [schedUpdate, bind_ok, pure_ok] at h3
            obtain ⟨p, hp, rfl⟩ := h3
            simp only
            rw [hsched _ _ hp, eb.dt, adt]
          have ct : c.t = s.t + s.dt := by rw [ec]; simp only; rw [eb.t, at', adt]
          have cit : c.it = s.it + 1 := by rw [ec]; simp only; rw [eb.it, ait]
          have cterm : c.terms = [.maxTime T] := by rw [ec]; simp only; rw [eb.terms, ea]; exact ht
          have cM : c.M = s.M := by rw [ec]; simp only; rw [eb.M, ea]
          obtain ⟨k, i1, i2, i3, i4⟩ := ih c s' cterm (by omega) h
          rw [cdt, ct] at i2 i4
          refine ⟨k + 1, by omega, i2, i3, fun j hj => ?_⟩
          cases j with
          | zero => exact hT
          | succ j => exact i4 j (by omega)
    · have ha : a.active.length = 0 := by
        rw [List.length_eq_zero_iff, List.eq_nil_iff_forall_not_mem]
        intro m hm
        exact ((hact m).1 hm).2 (.maxTime T) (by simp [ht]) hT
      rw [if_pos ha] at h
      injection h with h
      subst h
      exact ⟨0, by omega, at', by rw [at']; exact not_lt.1 hT, fun j hj => absurd hj (Nat.not_lt_zero j)⟩

/-- Running out of fuel means that the clock has not reached `T` yet. -/
theorem clock_fuel (env : Env K V) (stp : St K V → Except Err (St K V)) (hi : ∀ s s', stp s = .ok s' → StepFrame env s s') (T : K)
    (hsched : ∀ s p, env.sched s = .ok p → p.dt = s.dt) :
    ∀ (fuel : ℕ) (s : St K V), s.terms = [.maxTime T] → optimizeBy env stp fuel s = .outOfFuel → ∀ j < fuel, (· + s.dt)^[j] s.t < T := by
  intro fuel
  induction fuel with
  | zero => intro s _ _ j hj; exact absurd hj (Nat.not_lt_zero j)
  | succ fuel ih =>
    intro s ht h j hj
    simp only [optimizeBy] at h
    obtain ⟨a, h1, ea, hact, -⟩ := select_stateless (env := env) (s := s)
      (by rw [ht]; intro tm htm; rw [List.mem_singleton.1 htm]; trivial)
    simp only [h1] at h
    by_cases hT : s.t < T
    · cases j with
      | zero => exact hT
      | succ j =>
        split_ifs at h with ha
        cases h2 : stp a with
        | error e => simp [h2] at h
        | ok b =>
          simp only [h2] at h
          have eb := hi _ _ h2
          cases h3 : schedUpdate env b with
          | error e => simp [h3] at h
          | ok c =>
            simp only [h3] at h
            have ec := sched_frame h3
            have cdt : c.dt = s.dt := by
              simp only [schedUpdate, bind_ok, pure_ok] at h3
              obtain ⟨p, hp, rfl⟩ := h3
              simp only
              rw [hsched _ _ hp, eb.dt, ea]
            have ct : c.t = s.t + s.dt := by rw [ec]; simp only; rw [eb.t, ea]
            have cterm : c.terms = [.maxTime T] := by rw [ec]; simp only; rw [eb.terms, ea]; exact ht
            have := ih c cterm h j (by omega)
            rwa [cdt, ct] at this
    · have ha : a.active.length = 0 := by
        rw [List.length_eq_zero_iff, List.eq_nil_iff_forall_not_mem]
        intro m hm
        exact ((hact m).1 hm).2 (.maxTime T) (by simp [ht]) hT
      rw [if_pos ha] at h
      cases h

end

/-- A rounded integer. -/
theorem RoundNearest.eq_int {p : ℕ} {rd : ℝ → ℝ} (hp : 1 ≤ p) (h : RoundNearest p rd) (s : ℕ) (m n : ℤ) (hlo : 2 ^ p < 2 * m) (hhi : m ≤ 2 ^ p)
    (hx : 2 * |n - m * 2 ^ s| < 2 ^ s) : rd n = ((m * 2 ^ s : ℤ) : ℝ) := by
  have := h.eq_of hp (m := m) (e := s) (x := n) hlo hhi (by
    rw [zpow_natCast, lt_div_iff₀ (by norm_num), mul_comm]
    exact_mod_cast hx)
  rw [this, zpow_natCast]
  push_cast
  rfl

namespace Fl
variable {φ : FloatFmt}

/-- The unit roundoff of the format. -/
noncomputable def unit (φ : FloatFmt) : ℝ := (2 : ℝ) ^ (-(φ.p : ℤ))

theorem unit_pos : 0 < unit φ := two_zpow_pos _

theorem unit_half : unit φ ≤ 1 / 2 := by
  have : (2 : ℝ) ^ (-(φ.p : ℤ)) ≤ 2 ^ (-1 : ℤ) := zpow_le_zpow_right₀ (by norm_num) (by have := φ.pos; omega)
  simpa [unit] using this

/-- The clock after `k` steps. -/
theorem clock_bounds (dt : Fl φ) (hdt : 0 ≤ dt) (k : ℕ) :
    k * dt.val * (1 - unit φ) ^ k ≤ ((· + dt)^[k] (0 : Fl φ)).val ∧ ((· + dt)^[k] (0 : Fl φ)).val ≤ k * dt.val * (1 + unit φ) ^ k := by
  have hd : 0 ≤ dt.val := by rw [← val_zero (φ := φ)]; exact hdt
  have u0 := unit_pos (φ := φ)
  have u1 := unit_half (φ := φ)
  induction k with
  | zero => simp [val_zero]
  | succ k ih =>
    rw [Function.iterate_succ_apply', val_add]
    set t := ((· + dt)^[k] (0 : Fl φ)).val with ht
    obtain ⟨l, r⟩ := ih
    have t0 : 0 ≤ t := le_trans (by have : 0 ≤ 1 - unit φ := by linarith
                                    positivity) l
    have he := φ.near.err φ.pos (t + dt.val)
    rw [abs_of_nonneg (by linarith : 0 ≤ t + dt.val), abs_le] at he
    have hp1 : (1 - unit φ) ^ k ≤ 1 := pow_le_one₀ (by linarith) (by linarith)
    have hp2 : 1 ≤ (1 + unit φ) ^ k := one_le_pow₀ (by linarith)
    change -(unit φ * (t + dt.val)) ≤ _ ∧ _ ≤ unit φ * (t + dt.val) at he
    push_cast
    constructor
    · calc ((k : ℝ) + 1) * dt.val * (1 - unit φ) ^ (k + 1) = (k * dt.val * (1 - unit φ) ^ k + dt.val * (1 - unit φ) ^ k) * (1 - unit φ) := by ring
        _ ≤ (t + dt.val) * (1 - unit φ) := by
          refine mul_le_mul_of_nonneg_right (add_le_add l ?_) (by linarith)
          exact mul_le_of_le_one_right hd hp1
        _ ≤ _ := by linarith [he.1]
    · calc φ.rd (t + dt.val) ≤ (t + dt.val) * (1 + unit φ) := by linarith [he.2]
        _ ≤ (k * dt.val * (1 + unit φ) ^ k + dt.val * (1 + unit φ) ^ k) * (1 + unit φ) := by
          refine mul_le_mul_of_nonneg_right (add_le_add r ?_) (by linarith)
          exact le_mul_of_one_le_right hd hp2
        _ = _ := by ring

/-- As long as the multiples of `dt` are floating point numbers, the clock is exact. -/
theorem clock_exact (dt : Fl φ) (m e : ℤ) (hdt : dt.val = m * (2 : ℝ) ^ e) (k : ℕ) (hk : k * |m| ≤ 2 ^ φ.p) :
    ((· + dt)^[k] (0 : Fl φ)).val = k * dt.val := by
  induction k with
  | zero => simp [val_zero]
  | succ k ih =>
    rw [Function.iterate_succ_apply', val_add, ih (le_trans (by push_cast; nlinarith [abs_nonneg m]) hk)]
    have e1 : (k : ℝ) * dt.val + dt.val = (((k + 1 : ℕ) * m : ℤ) : ℝ) * 2 ^ e := by rw [hdt]; push_cast; ring
    rw [e1, φ.near.fix (IsFloat.le φ.pos (by rw [abs_mul, Nat.abs_cast]; exact hk)), hdt]
    push_cast
    ring

/-- The clock does not get beyond `2 ^ (p + j)` if `dt < 2 ^ j`. -/
theorem clock_stuck (dt : Fl φ) (j : ℤ) (hdt : dt.val < 2 ^ j) (t : Fl φ) (ht : t.val ≤ 2 ^ (φ.p + j)) (k : ℕ) :
    ((· + dt)^[k] t).val ≤ 2 ^ (φ.p + j) := by
  induction k with
  | zero => exact ht
  | succ k ih =>
    rw [Function.iterate_succ_apply', val_add]
    exact φ.near.le_pow φ.pos (by linarith)

/-- An integer that fits into the format. -/
def ofInt (φ : FloatFmt) (n : ℤ) (h : |n| ≤ 2 ^ φ.p) : Fl φ := ⟨n, isFloat_int φ.pos h⟩

end Fl
end Verif
