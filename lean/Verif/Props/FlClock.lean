import Verif.Proofs.FlExample
import Mathlib.Algebra.Order.Floor.Semiring

/-! Property C88: the clock and `max_time` in floating point arithmetic. -/

set_option linter.unusedSectionVars false

namespace Verif

section
variable {K V : Type} [Zero K] [One K] [Neg K] [Add K] [Sub K] [Mul K] [Inv K] [Div K] [NatCast K] [Pow K ℕ] [LinearOrder K] [Add V] [Sub V] [SMul K V]

/-- **C88 (any arithmetic).** With `max_time = T` as the only criterion and a scheduler that leaves `dt` alone, `optimize` of any dynamic makes `k` steps, where `k` is the first
number for which adding `dt` to the start time `k` times, with whatever rounding, gives at least `T`; as long as the loop has not ended, the clock is below `T`. -/
theorem C88_clock (env : Env K V) (stp : St K V → Except Err (St K V)) (hi : ∀ s s', stp s = .ok s' → StepFrame env s s') (T : K)
    (hsched : ∀ s p, env.sched s = .ok p → p.dt = s.dt) (fuel : ℕ) (s : St K V) (ht : s.terms = [.maxTime T]) (hM : 0 < s.M) :
    (∀ s', optimizeBy env stp fuel s = .done s' →
      ∃ k, s'.it = s.it + k ∧ s'.t = (· + s.dt)^[k] s.t ∧ T ≤ s'.t ∧ ∀ j < k, (· + s.dt)^[j] s.t < T) ∧
    (optimizeBy env stp fuel s = .outOfFuel → ∀ j < fuel, (· + s.dt)^[j] s.t < T) :=
  ⟨fun s' => clock_by env stp hi T hsched fuel s s' ht hM, clock_fuel env stp hi T hsched fuel s ht⟩

end

section
variable {V : Type} [Add V] [Sub V]

/-- **C88 (exact arithmetic).** In exact arithmetic (an archimedean field) the loop ends, and the number of steps is `⌈(T - t)/dt⌉`. -/
theorem C88_exact {K : Type} [Field K] [LinearOrder K] [IsStrictOrderedRing K] [FloorSemiring K] [SMul K V] (env : Env K V) (stp : St K V → Except Err (St K V))
    (hi : ∀ s s', stp s = .ok s' → StepFrame env s s') (T : K) (hsched : ∀ s p, env.sched s = .ok p → p.dt = s.dt) (fuel : ℕ) (s : St K V)
    (ht : s.terms = [.maxTime T]) (hM : 0 < s.M) (hdt : 0 < s.dt) :
    (∀ s', optimizeBy env stp fuel s = .done s' → s'.it = s.it + ⌈(T - s.t) / s.dt⌉₊) ∧
    (⌈(T - s.t) / s.dt⌉₊ < fuel → optimizeBy env stp fuel s ≠ .outOfFuel) := by
  have it : ∀ j : ℕ, (· + s.dt)^[j] s.t = s.t + j * s.dt := by
    intro j
    induction j with
    | zero => simp
    | succ j ih => rw [Function.iterate_succ_apply', ih]; push_cast; ring
  have key : ∀ j : ℕ, T ≤ s.t + j * s.dt ↔ ⌈(T - s.t) / s.dt⌉₊ ≤ j := by
    intro j
    rw [Nat.ceil_le, div_le_iff₀ hdt, sub_le_iff_le_add, add_comm]
  obtain ⟨h1, h2⟩ := C88_clock env stp hi T hsched fuel s ht hM
  constructor
  · intro s' h
    obtain ⟨k, e1, e2, e3, e4⟩ := h1 s' h
    rw [e2, it, key] at e3
    rw [e1]
    congr 1
    refine le_antisymm ?_ e3
    by_contra hc
    push Not at hc
    have := e4 _ hc
    rw [it] at this
    exact absurd ((key _).2 le_rfl) (not_le.2 this)
  · intro hf h
    have := h2 h _ hf
    rw [it] at this
    exact absurd ((key _).2 le_rfl) (not_le.2 this)

variable {φ : FloatFmt} [SMul (Fl φ) V]

/-- **C88 (bounds).** In floating point arithmetic with unit roundoff `u = 2^-p`, from time zero with `dt ≥ 0`: after `k` steps the clock shows `k*dt` up to the
factors `(1 ± u)^k`. So `k` steps suffice only if `T ≤ k*dt*(1+u)^k`, and all earlier `j` satisfy `j*dt*(1-u)^j < T`. -/
theorem C88_bounds (env : Env (Fl φ) V) (stp : St (Fl φ) V → Except Err (St (Fl φ) V)) (hi : ∀ s s', stp s = .ok s' → StepFrame env s s') (T : Fl φ)
    (hsched : ∀ s p, env.sched s = .ok p → p.dt = s.dt) (fuel : ℕ) (s s' : St (Fl φ) V) (ht : s.terms = [.maxTime T]) (hM : 0 < s.M) (hdt : 0 ≤ s.dt)
    (h0 : s.t = 0) (h : optimizeBy env stp fuel s = .done s') :
    ∃ k : ℕ, s'.it = s.it + k ∧ k * s.dt.val * (1 - 2 ^ (-(φ.p : ℤ))) ^ k ≤ s'.t.val ∧ s'.t.val ≤ k * s.dt.val * (1 + 2 ^ (-(φ.p : ℤ))) ^ k ∧
      T.val ≤ k * s.dt.val * (1 + 2 ^ (-(φ.p : ℤ))) ^ k ∧ ∀ j < k, j * s.dt.val * (1 - 2 ^ (-(φ.p : ℤ))) ^ j < T.val := by
  obtain ⟨k, e1, e2, e3, e4⟩ := (C88_clock env stp hi T hsched fuel s ht hM).1 s' h
  rw [h0] at e2 e4
  obtain ⟨b1, b2⟩ := Fl.clock_bounds s.dt hdt k
  rw [← e2] at b1 b2
  exact ⟨k, e1, b1, b2, (Fl.le_iff.1 e3).trans b2, fun j hj => lt_of_le_of_lt (Fl.clock_bounds s.dt hdt j).1 (Fl.lt_iff.1 (e4 j hj))⟩

/-- **C88 (exact time steps).** If `dt = m*2^e` with a short significand (e.g. a power of two) and `T ≤ n*dt` with `n*m ≤ 2^p`, then the number of steps is `⌈T/dt⌉` in floating point arithmetic too. -/
theorem C88_dyadic (env : Env (Fl φ) V) (stp : St (Fl φ) V → Except Err (St (Fl φ) V)) (hi : ∀ s s', stp s = .ok s' → StepFrame env s s') (T : Fl φ)
    (hsched : ∀ s p, env.sched s = .ok p → p.dt = s.dt) (fuel : ℕ) (s s' : St (Fl φ) V) (ht : s.terms = [.maxTime T]) (hM : 0 < s.M) (hdt : 0 < s.dt)
    (h0 : s.t = 0) (m e : ℤ) (hm : s.dt.val = m * (2 : ℝ) ^ e) (n : ℕ) (hn : n * |m| ≤ 2 ^ φ.p) (hT : T.val ≤ n * s.dt.val)
    (h : optimizeBy env stp fuel s = .done s') : s'.it = s.it + ⌈T.val / s.dt.val⌉₊ := by
  have hd : 0 < s.dt.val := by rw [← Fl.val_zero (φ := φ)]; exact hdt
  obtain ⟨k, e1, e2, e3, e4⟩ := (C88_clock env stp hi T hsched fuel s ht hM).1 s' h
  rw [h0] at e2 e4
  have ex : ∀ j ≤ n, ((· + s.dt)^[j] (0 : Fl φ)).val = j * s.dt.val := fun j hj =>
    Fl.clock_exact s.dt m e hm j (le_trans (mul_le_mul_of_nonneg_right (by exact_mod_cast hj) (abs_nonneg m)) hn)
  have kn : k ≤ n := by
    by_contra hc
    push Not at hc
    have := Fl.lt_iff.1 (e4 n hc)
    rw [ex n le_rfl] at this
    linarith
  rw [e1]
  congr 1
  have e3' := Fl.le_iff.1 e3
  rw [e2, ex k kn] at e3'
  refine le_antisymm ?_ (Nat.ceil_le.2 ((div_le_iff₀ hd).2 e3'))
  by_contra hc
  push Not at hc
  have := Fl.lt_iff.1 (e4 _ hc)
  rw [ex _ (by omega)] at this
  have := (div_le_iff₀ hd).1 (Nat.le_ceil (T.val / s.dt.val))
  linarith

/-- **C88 is false in general, one step too many.** In every format with at least 6 bits and for every rule for ties there are `dt` and `T = 8*dt` such that every run makes 9 steps. -/
theorem C88_more_false (hp : 6 ≤ φ.p) : ∃ dt T : Fl φ, 0 < dt ∧ T.val = 8 * dt.val ∧ ⌈T.val / dt.val⌉₊ = 8 ∧
    ∀ (env : Env (Fl φ) V) (stp : St (Fl φ) V → Except Err (St (Fl φ) V)), (∀ s s', stp s = .ok s' → StepFrame env s s') →
      (∀ s p, env.sched s = .ok p → p.dt = s.dt) → ∀ (fuel : ℕ) (s s' : St (Fl φ) V), s.terms = [.maxTime T] → 0 < s.M → s.dt = dt → s.t = 0 →
        optimizeBy env stp fuel s = .done s' → s'.it = s.it + 9 := by
  obtain ⟨Q, hQ, hP⟩ : ∃ Q : ℤ, 1 ≤ Q ∧ (2 : ℤ) ^ φ.p = 64 * Q := by
    obtain ⟨q, hq⟩ := Nat.exists_eq_add_of_le hp
    exact ⟨2 ^ q, one_le_pow₀ (by norm_num), by rw [hq, pow_add]; norm_num⟩
  let dt : Fl φ := Fl.ofInt φ (64 * Q - 5) (by rw [hP, abs_of_pos (by omega)]; omega)
  let T : Fl φ := ⟨((64 * Q - 5 : ℤ) : ℝ) * 2 ^ (3 : ℤ), IsFloat.le φ.pos (by rw [hP, abs_of_pos (by omega)]; omega)⟩
  have edt : dt.val = ((64 * Q - 5 : ℤ) : ℝ) := rfl
  have eT : T.val = ((8 * (64 * Q - 5) : ℤ) : ℝ) := by change ((64 * Q - 5 : ℤ) : ℝ) * 2 ^ (3 : ℤ) = _; push_cast; norm_num; ring
  have hd : 0 < dt.val := by rw [edt]; exact_mod_cast (by omega : 0 < 64 * Q - 5)
  have e8 : T.val = 8 * dt.val := by rw [eT, edt]; push_cast; ring
  have R : ∀ (s : ℕ) (m n : ℤ), 64 * Q < 2 * m → m ≤ 64 * Q → 2 * |n - m * 2 ^ s| < 2 ^ s → φ.rd n = ((m * 2 ^ s : ℤ) : ℝ) :=
    fun s m n h1 h2 h3 => φ.near.eq_int φ.pos s m n (by rw [hP]; exact h1) (by rw [hP]; exact h2) h3
  have nxt : ∀ (k : ℕ) (a : ℤ) (s : ℕ) (m b : ℤ), ((· + dt)^[k] (0 : Fl φ)).val = (a : ℝ) → b = m * 2 ^ s → 64 * Q < 2 * m → m ≤ 64 * Q →
      2 * |a + (64 * Q - 5) - m * 2 ^ s| < 2 ^ s → ((· + dt)^[k + 1] (0 : Fl φ)).val = (b : ℝ) := by
    intro k a s m b h1 hb h2 h3 h4
    rw [Function.iterate_succ_apply', Fl.val_add, h1, edt, hb, ← R s m (a + (64 * Q - 5)) h2 h3 h4]
    push_cast
    rfl
  have t1 : ((· + dt)^[1] (0 : Fl φ)).val = ((64 * Q - 5 : ℤ) : ℝ) := by
    rw [Function.iterate_one, SoundArith.zero_add, edt]
  have t2 := nxt 1 _ 1 (64 * Q - 5) (128 * Q - 10) t1 (by ring) (by omega) (by omega) (by ring_nf; norm_num)
  have t3 := nxt 2 _ 2 (48 * Q - 4) (192 * Q - 16) t2 (by ring) (by omega) (by omega) (by ring_nf; norm_num)
  have t4 := nxt 3 _ 2 (64 * Q - 5) (256 * Q - 20) t3 (by ring) (by omega) (by omega) (by ring_nf; norm_num)
  have t5 := nxt 4 _ 3 (40 * Q - 3) (320 * Q - 24) t4 (by ring) (by omega) (by omega) (by ring_nf; norm_num)
  have t6 := nxt 5 _ 3 (48 * Q - 4) (384 * Q - 32) t5 (by ring) (by omega) (by omega) (by ring_nf; norm_num)
  have t7 := nxt 6 _ 3 (56 * Q - 5) (448 * Q - 40) t6 (by ring) (by omega) (by omega) (by ring_nf; norm_num)
  have t8 := nxt 7 _ 3 (64 * Q - 6) (512 * Q - 48) t7 (by ring) (by omega) (by omega) (by ring_nf; norm_num)
  have t9 := nxt 8 _ 4 (36 * Q - 3) (576 * Q - 48) t8 (by ring) (by omega) (by omega) (by ring_nf; norm_num)
  refine ⟨dt, T, ?_, e8, ?_, ?_⟩
  · rw [Fl.lt_iff, Fl.val_zero]; exact hd
  · rw [e8, mul_div_assoc, div_self hd.ne', mul_one]
    exact_mod_cast Nat.ceil_natCast (R := ℝ) 8
  · intro env stp hi hsched fuel s s' ht hM hdt h0 h
    obtain ⟨k, e1, e2, e3, e4⟩ := (C88_clock env stp hi T hsched fuel s ht hM).1 s' h
    rw [hdt, h0] at e2 e4
    rw [e1]
    congr 1
    have lower : ∀ j (a : ℤ), ((· + dt)^[j] (0 : Fl φ)).val = (a : ℝ) → a < 8 * (64 * Q - 5) → j ≠ k := by
      rintro j a ha hlt rfl
      have := Fl.le_iff.1 e3
      rw [e2, ha, eT] at this
      exact absurd (by exact_mod_cast this : 8 * (64 * Q - 5) ≤ a) (not_le.2 hlt)
    have k9 : k ≤ 9 := by
      by_contra hc
      push Not at hc
      have := Fl.lt_iff.1 (e4 9 hc)
      rw [t9, eT] at this
      have : 576 * Q - 48 < 8 * (64 * Q - 5) := by exact_mod_cast this
      omega
    have k0 := lower 0 0 (by simp [Fl.val_zero]) (by omega)
    have k1 := lower 1 _ t1 (by omega)
    have k2 := lower 2 _ t2 (by omega)
    have k3 := lower 3 _ t3 (by omega)
    have k4 := lower 4 _ t4 (by omega)
    have k5 := lower 5 _ t5 (by omega)
    have k6 := lower 6 _ t6 (by omega)
    have k7 := lower 7 _ t7 (by omega)
    have k8 := lower 8 _ t8 (by omega)
    omega

/-- **C88 is false in general, one step too few.** In every format with at least 4 bits and for every rule for ties there are `dt` and `T` such that every run stops after 3 steps although `3*dt < T`
(the clock shows `T`). -/
theorem C88_fewer_false (hp : 4 ≤ φ.p) : ∃ dt T : Fl φ, 0 < dt ∧ 3 * dt.val < T.val ∧ ⌈T.val / dt.val⌉₊ = 4 ∧
    ∀ (env : Env (Fl φ) V) (stp : St (Fl φ) V → Except Err (St (Fl φ) V)), (∀ s s', stp s = .ok s' → StepFrame env s s') →
      (∀ s p, env.sched s = .ok p → p.dt = s.dt) → ∀ (fuel : ℕ) (s s' : St (Fl φ) V), s.terms = [.maxTime T] → 0 < s.M → s.dt = dt → s.t = 0 →
        optimizeBy env stp fuel s = .done s' → s'.it = s.it + 3 ∧ s'.t = T := by
  obtain ⟨Q, hQ, hP⟩ : ∃ Q : ℤ, 1 ≤ Q ∧ (2 : ℤ) ^ φ.p = 16 * Q := by
    obtain ⟨q, hq⟩ := Nat.exists_eq_add_of_le hp
    exact ⟨2 ^ q, one_le_pow₀ (by norm_num), by rw [hq, pow_add]; norm_num⟩
  let dt : Fl φ := Fl.ofInt φ (16 * Q - 3) (by rw [hP, abs_of_pos (by omega)]; omega)
  let T : Fl φ := ⟨((12 * Q - 2 : ℤ) : ℝ) * 2 ^ (2 : ℤ), IsFloat.le φ.pos (by rw [hP, abs_of_pos (by omega)]; omega)⟩
  have edt : dt.val = ((16 * Q - 3 : ℤ) : ℝ) := rfl
  have eT : T.val = ((48 * Q - 8 : ℤ) : ℝ) := by change ((12 * Q - 2 : ℤ) : ℝ) * 2 ^ (2 : ℤ) = _; push_cast; norm_num; ring
  have hd : 0 < dt.val := by rw [edt]; exact_mod_cast (by omega : 0 < 16 * Q - 3)
  have nxt : ∀ (k : ℕ) (a : ℤ) (s : ℕ) (m b : ℤ), ((· + dt)^[k] (0 : Fl φ)).val = (a : ℝ) → b = m * 2 ^ s → 16 * Q < 2 * m → m ≤ 16 * Q →
      2 * |a + (16 * Q - 3) - m * 2 ^ s| < 2 ^ s → ((· + dt)^[k + 1] (0 : Fl φ)).val = (b : ℝ) := by
    intro k a s m b h1 hb h2 h3 h4
    rw [Function.iterate_succ_apply', Fl.val_add, h1, edt, hb,
      ← φ.near.eq_int φ.pos s m (a + (16 * Q - 3)) (by rw [hP]; exact h2) (by rw [hP]; exact h3) h4]
    push_cast
    rfl
  have t1 : ((· + dt)^[1] (0 : Fl φ)).val = ((16 * Q - 3 : ℤ) : ℝ) := by
    rw [Function.iterate_one, SoundArith.zero_add, edt]
  have t2 := nxt 1 _ 1 (16 * Q - 3) (32 * Q - 6) t1 (by ring) (by omega) (by omega) (by ring_nf; norm_num)
  have t3 := nxt 2 _ 2 (12 * Q - 2) (48 * Q - 8) t2 (by ring) (by omega) (by omega) (by ring_nf; norm_num)
  have lt3 : 3 * dt.val < T.val := by rw [eT, edt]; exact_mod_cast (by omega : 3 * (16 * Q - 3) < 48 * Q - 8)
  refine ⟨dt, T, ?_, lt3, ?_, ?_⟩
  · rw [Fl.lt_iff, Fl.val_zero]; exact hd
  · rw [Nat.ceil_eq_iff (by norm_num), lt_div_iff₀ hd, div_le_iff₀ hd]
    refine ⟨by push_cast; linarith, ?_⟩
    rw [eT, edt]
    exact_mod_cast (by omega : 48 * Q - 8 ≤ 4 * (16 * Q - 3))
  · intro env stp hi hsched fuel s s' ht hM hdt h0 h
    obtain ⟨k, e1, e2, e3, e4⟩ := (C88_clock env stp hi T hsched fuel s ht hM).1 s' h
    rw [hdt, h0] at e2 e4
    have lower : ∀ j (a : ℤ), ((· + dt)^[j] (0 : Fl φ)).val = (a : ℝ) → a < 48 * Q - 8 → j ≠ k := by
      rintro j a ha hlt rfl
      have := Fl.le_iff.1 e3
      rw [e2, ha, eT] at this
      exact absurd (by exact_mod_cast this : 48 * Q - 8 ≤ a) (not_le.2 hlt)
    have k3 : k ≤ 3 := by
      by_contra hc
      push Not at hc
      have := Fl.lt_iff.1 (e4 3 hc)
      rw [t3, eT] at this
      exact lt_irrefl _ this
    have k0 := lower 0 0 (by simp [Fl.val_zero]) (by omega)
    have k1 := lower 1 _ t1 (by omega)
    have k2 := lower 2 _ t2 (by omega)
    obtain rfl : k = 3 := by omega
    exact ⟨e1, by rw [e2]; exact Fl.ext (by rw [t3, eT])⟩

/-- **C88 is false in general, an endless loop.** If `dt < 2^j` and `2^(p+j) < T`, and the clock starts at `2^(p+j)` or below, then `optimize` with `max_time = T` as the only criterion never returns, although `dt` may be positive. -/
theorem C88_endless_false (env : Env (Fl φ) V) (stp : St (Fl φ) V → Except Err (St (Fl φ) V)) (hi : ∀ s s', stp s = .ok s' → StepFrame env s s') (T : Fl φ)
    (hsched : ∀ s p, env.sched s = .ok p → p.dt = s.dt) (s : St (Fl φ) V) (ht : s.terms = [.maxTime T]) (hM : 0 < s.M) (j : ℤ)
    (hdt : s.dt.val < 2 ^ j) (h0 : s.t.val ≤ 2 ^ (φ.p + j)) (hT : 2 ^ (φ.p + j) < T.val) : ∀ fuel s', optimizeBy env stp fuel s ≠ .done s' := by
  intro fuel s' h
  obtain ⟨k, -, e2, e3, -⟩ := (C88_clock env stp hi T hsched fuel s ht hM).1 s' h
  have := Fl.clock_stuck s.dt j hdt s.t h0 k
  rw [← e2] at this
  exact absurd (Fl.le_iff.1 e3) (not_le.2 (lt_of_le_of_lt this hT))

end

/-- C88: in double precision with `dt = 1/2`, `T = 5/2` the example run returns after 5 steps (`C88_dyadic`), at time `5/2` and within the bounds of `C88_bounds`. -/
example : ∃ (dt T : Fl Example.double) (s s' : St (Fl Example.double) (Fl Example.double)), dt.val = 1 / 2 ∧ T.val = 5 / 2 ∧
    init (Example.flEnv _) (Example.flArgs _ dt [.maxTime T]) = .ok s ∧
    optimizeBy (Example.flEnv _) (step (Example.flEnv _) (cboInner (Example.flEnv _))) 6 s = .done s' ∧ s'.it = 5 := by
  let φ := Example.double
  let dt : Fl φ := ⟨((1 : ℤ) : ℝ) * 2 ^ (-1 : ℤ), IsFloat.le φ.pos (by simp [φ, Example.double])⟩
  let T : Fl φ := ⟨((5 : ℤ) : ℝ) * 2 ^ (-1 : ℤ), IsFloat.le φ.pos (by simp [φ, Example.double])⟩
  have e1 : dt.val = 1 / 2 := by change ((1 : ℤ) : ℝ) * 2 ^ (-1 : ℤ) = _; norm_num
  have e2 : T.val = 5 / 2 := by change ((5 : ℤ) : ℝ) * 2 ^ (-1 : ℤ) = _; norm_num
  have hb : ((5 : ℕ) : ℤ) * |(1 : ℤ)| ≤ 2 ^ φ.p := by simp [φ, Example.double]
  obtain ⟨s, s', h0, h1, h2, h3, h4, h5, h6⟩ := flRun φ dt T 5 (by
    rw [Fl.le_iff, Fl.clock_exact dt 1 (-1) rfl 5 hb, e1, e2]; norm_num)
  refine ⟨dt, T, s, s', e1, e2, h0, h6, ?_⟩
  have := C88_dyadic (Example.flEnv φ) _ (fun _ _ h => step_frame (cboInner_frame _) h) T (fun s p h => by
    simp only [Example.flEnv] at h; injection h with h; subst h; rfl) 6 s s' h1 h2 (by rw [h3, Fl.lt_iff, Fl.val_zero, e1]; norm_num) h4 1 (-1) (by rw [h3]; rfl) 5 hb
    (by rw [h3, e1, e2]; norm_num) h6
  rw [this, h5, h3, e1, e2, Nat.zero_add, Nat.ceil_eq_iff (by norm_num)]
  norm_num

/-- C88: the run with one step too many exists in double precision. -/
example : ∃ (dt T : Fl Example.double) (s s' : St (Fl Example.double) (Fl Example.double)), T.val = 8 * dt.val ∧
    init (Example.flEnv _) (Example.flArgs _ dt [.maxTime T]) = .ok s ∧ (∃ fuel, optimizeBy (Example.flEnv _) (step (Example.flEnv _) (cboInner (Example.flEnv _))) fuel s = .done s') ∧
    s'.it = 9 := by
  obtain ⟨dt, T, hd, h8, -, h⟩ := C88_more_false (φ := Example.double) (V := Fl Example.double) (by simp [Example.double])
  have hd' : 0 < dt.val := by rw [← Fl.val_zero (φ := Example.double)]; exact hd
  obtain ⟨s, s', h0, h1, h2, h3, h4, h5, h6⟩ := flRun Example.double dt T 16 (by
    rw [Fl.le_iff, h8]
    refine le_trans ?_ (Fl.clock_bounds dt hd.le 16).1
    have u : Fl.unit Example.double ≤ 1 / 32 := by
      have : (2 : ℝ) ^ (-(53 : ℤ)) ≤ 2 ^ (-5 : ℤ) := zpow_le_zpow_right₀ (by norm_num) (by norm_num)
      calc _ = (2 : ℝ) ^ (-(53 : ℤ)) := rfl
        _ ≤ _ := this
        _ = 1 / 32 := by norm_num
    have := one_add_mul_le_pow (a := -Fl.unit Example.double) (by linarith) 16
    rw [← sub_eq_add_neg] at this
    push_cast at this ⊢
    nlinarith)
  refine ⟨dt, T, s, s', h8, h0, ⟨_, h6⟩, ?_⟩
  have := h (Example.flEnv _) _ (fun _ _ h => step_frame (cboInner_frame _) h) (fun s p h => by
    simp only [Example.flEnv] at h; injection h with h; subst h; rfl) _ s s' h1 h2 h3 h4 h6
  rw [this, h5]

/-- C88: the run with one step too few exists in double precision. -/
example : ∃ (dt T : Fl Example.double) (s s' : St (Fl Example.double) (Fl Example.double)), 3 * dt.val < T.val ∧
    init (Example.flEnv _) (Example.flArgs _ dt [.maxTime T]) = .ok s ∧ (∃ fuel, optimizeBy (Example.flEnv _) (step (Example.flEnv _) (cboInner (Example.flEnv _))) fuel s = .done s') ∧
    s'.it = 3 := by
  obtain ⟨dt, T, hd, h3', h4', h⟩ := C88_fewer_false (φ := Example.double) (V := Fl Example.double) (by simp [Example.double])
  have hd' : 0 < dt.val := by rw [← Fl.val_zero (φ := Example.double)]; exact hd
  have hT : T.val ≤ 4 * dt.val := by
    have := Nat.le_ceil (T.val / dt.val)
    rw [h4', div_le_iff₀ hd'] at this
    exact_mod_cast this
  obtain ⟨s, s', h0, h1, h2, h3, h4, h5, h6⟩ := flRun Example.double dt T 16 (by
    rw [Fl.le_iff]
    refine le_trans hT (le_trans ?_ (Fl.clock_bounds dt hd.le 16).1)
    have u : Fl.unit Example.double ≤ 1 / 32 := by
      have : (2 : ℝ) ^ (-(53 : ℤ)) ≤ 2 ^ (-5 : ℤ) := zpow_le_zpow_right₀ (by norm_num) (by norm_num)
      calc _ = (2 : ℝ) ^ (-(53 : ℤ)) := rfl
        _ ≤ _ := this
        _ = 1 / 32 := by norm_num
    have := one_add_mul_le_pow (a := -Fl.unit Example.double) (by linarith) 16
    rw [← sub_eq_add_neg] at this
    push_cast at this ⊢
    nlinarith)
  refine ⟨dt, T, s, s', h3', h0, ⟨_, h6⟩, ?_⟩
  have := h (Example.flEnv _) _ (fun _ _ h => step_frame (cboInner_frame _) h) (fun s p h => by
    simp only [Example.flEnv] at h; injection h with h; subst h; rfl) _ s s' h1 h2 h3 h4 h6
  rw [this.1, h5]

/-- C88: with `dt = 1/2` and `T = 11/10` the rational run makes `⌈11/5⌉ = 3` steps. -/
example : (Example.start [.maxTime (11/10)] none).terms = [.maxTime (11/10)] ∧ 0 < (Example.start [.maxTime (11/10)] none).M ∧
    0 < (Example.start [.maxTime (11/10)] none).dt ∧ (∀ s s', step Example.env (cboInner Example.env) s = .ok s' → StepFrame Example.env s s') ∧
    (match optimizeBy Example.env (step Example.env (cboInner Example.env)) 4 (Example.start [.maxTime (11/10)] none) with
      | .done s' => decide (s'.it = 3)
      | _ => false) = true ∧ ⌈((11/10 : ℚ) - 0) / (1/2)⌉₊ = 3 :=
  ⟨rfl, by decide +kernel, by decide +kernel, fun _ _ h => step_frame (cboInner_frame _) h, by decide +kernel, by rw [Nat.ceil_eq_iff (by norm_num)]; norm_num⟩

/-- C88: with `dt = 1` the clock of the example gets stuck before `T = 2^55`; the loop never raises either, so it is endless. -/
example : ∃ (dt T : Fl Example.double) (s : St (Fl Example.double) (Fl Example.double)), dt.val = 1 ∧
    init (Example.flEnv _) (Example.flArgs _ dt [.maxTime T]) = .ok s ∧ ∀ fuel, optimizeBy (Example.flEnv _) (step (Example.flEnv _) (cboInner (Example.flEnv _))) fuel s = .outOfFuel := by
  let φ := Example.double
  let T : Fl φ := ⟨((1 : ℤ) : ℝ) * 2 ^ (55 : ℤ), IsFloat.le φ.pos (by simp [φ, Example.double])⟩
  obtain ⟨s, h0, h1, h2, h3, h4, -, h6⟩ := flInit φ 1 T
  refine ⟨1, T, s, Fl.val_one, h0, fun fuel => ?_⟩
  have e1 : T.val = 2 ^ (55 : ℤ) := by change ((1 : ℤ) : ℝ) * 2 ^ (55 : ℤ) = _; norm_num
  have key := C88_endless_false (Example.flEnv φ) (step (Example.flEnv φ) (cboInner (Example.flEnv φ))) (fun _ _ h => step_frame (cboInner_frame _) h) T (fun s p h => by
    simp only [Example.flEnv] at h; injection h with h; subst h; rfl) s h1 h2 1 (by rw [h3, Fl.val_one]; norm_num)
    (by rw [h4, Fl.val_zero]; positivity) (by
      rw [e1]
      exact zpow_lt_zpow_right₀ (by norm_num) (by simp [φ, Example.double])) fuel
  cases ho : optimizeBy (Example.flEnv φ) (step (Example.flEnv φ) (cboInner (Example.flEnv φ))) fuel s with
  | done s' => exact absurd ho (key s')
  | raised e => exact absurd ho (h6 fuel e)
  | outOfFuel => rfl

end Verif
