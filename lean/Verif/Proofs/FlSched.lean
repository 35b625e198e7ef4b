import Verif.Model.FlSched
import Verif.Proofs.Sched
import Verif.Proofs.FlClock
import Verif.Props.Sched
import Verif.Props.RoundedEss

/-! Lemmas about schedulers in floating point arithmetic. -/

set_option linter.unusedSectionVars false

namespace Verif

section Machine
variable {K V : Type} [Zero K] [One K] [Neg K] [Add K] [Sub K] [Mul K] [Inv K] [Div K] [NatCast K] [Pow K ℕ] [LinearOrder K] [Add V] [Sub V] [SMul K V]

/-- A scheduler that reads only the parameters is applied once per iteration. -/
theorem sched_iter (env : Env K V) (inner : St K V → Except Err (St K V)) (hi : InnerFrame inner) (upd : Params K → Params K)
    (hsched : ∀ s, env.sched s = .ok (upd s.params)) :
    ∀ k (s s' : St K V), execAll env inner (rounds k) s = .ok s' → s'.params = upd^[k] s.params := by
  intro k
  induction k with
  | zero =>
    intro s s' h
    simp only [rounds, List.replicate_zero, List.flatten_nil, execAll] at h
    injection h with h
    rw [h]; rfl
  | succ k ih =>
    intro s s' h
    rw [rounds_succ] at h
    simp only [List.cons_append, List.nil_append, execAll, exec, bind_ok] at h
    obtain ⟨a, ha, b, hb, c, hc, h⟩ := h
    rw [ih c s' h, Function.iterate_succ_apply]
    congr 1
    have fb := step_frame hi hb
    simp only [schedUpdate, bind_ok, pure_ok, hsched] at hc
    obtain ⟨q, hq, rfl⟩ := hc
    injection hq with hq
    subst hq
    have e1 : a.params = s.params := by rw [select_frame ha]; rfl
    have e2 : b.params = a.params := by simp only [St.params, fb.alpha, fb.lamda, fb.sigma, fb.dt]
    rw [← e1, ← e2]
    rfl

end Machine

section Val
variable {K : Type} [Mul K] [LinearOrder K]

theorem multiply_iter (nm : PName) (f mx : K) (p : Params K) (m k : ℕ) :
    ((multiplyUpdate nm f mx)^[k] p).val nm m = (fun v => min mx (f * v))^[k] (p.val nm m) ∧
    ∀ nm', nm' ≠ nm → ((multiplyUpdate nm f mx)^[k] p).val nm' m = p.val nm' m := by
  induction k with
  | zero => exact ⟨rfl, fun _ _ => rfl⟩
  | succ k ih =>
    rw [Function.iterate_succ_apply', Function.iterate_succ_apply', multiply_val, if_pos rfl, ih.1]
    exact ⟨rfl, fun nm' h => by rw [multiply_val, if_neg h]; exact ih.2 nm' h⟩

end Val

/-- The smallest floating point number above one. -/
theorem IsFloat.one_lt {p : ℕ} (hp : 1 ≤ p) {f : ℝ} (hf : IsFloat p f) (h1 : 1 < f) : 1 + 2 * (2 : ℝ) ^ (-(p : ℤ)) ≤ f := by
  obtain ⟨m, e, hm, rfl⟩ := hf
  have hm' : (m : ℝ) < 2 ^ p := by exact_mod_cast (abs_lt.1 hm).2
  have he : 1 - (p : ℤ) ≤ e := by
    by_contra hc
    push Not at hc
    have h2 : (2 : ℝ) ^ e ≤ 2 ^ (-(p : ℤ)) := zpow_le_zpow_right₀ (by norm_num) (by omega)
    have h3 : (m : ℝ) * 2 ^ e ≤ 2 ^ p * 2 ^ (-(p : ℤ)) := by
      have := two_zpow_pos e
      have h5 : (0 : ℝ) < 2 ^ p := by positivity
      calc (m : ℝ) * 2 ^ e ≤ 2 ^ p * 2 ^ e := mul_le_mul_of_nonneg_right hm'.le this.le
        _ ≤ _ := mul_le_mul_of_nonneg_left h2 h5.le
    rw [zpow_neg, zpow_natCast, mul_inv_cancel₀ (by positivity)] at h3
    linarith
  obtain ⟨k, hk⟩ := Int.le.dest he
  obtain ⟨q, rfl⟩ : ∃ q, p = q + 1 := ⟨p - 1, by omega⟩
  have e1 : (2 : ℝ) ^ (1 - ((q + 1 : ℕ) : ℤ)) = 2 * 2 ^ (-((q + 1 : ℕ) : ℤ)) := by
    rw [sub_eq_add_neg, zpow_add₀ (by norm_num), zpow_one]
  have e2 : (m : ℝ) * 2 ^ e = ((m * 2 ^ k : ℤ) : ℝ) * 2 ^ (1 - ((q + 1 : ℕ) : ℤ)) := by
    rw [← hk, zpow_add₀ (by norm_num), zpow_natCast]
    push_cast
    ring
  have e3 : (1 : ℝ) = ((2 ^ q : ℤ) : ℝ) * 2 ^ (1 - ((q + 1 : ℕ) : ℤ)) := by
    push_cast
    rw [← zpow_natCast, ← zpow_add₀ (by norm_num)]
    norm_num
  have hpos := two_zpow_pos (1 - ((q + 1 : ℕ) : ℤ))
  rw [e2, e3] at h1
  have h4 : (2 ^ q : ℤ) < m * 2 ^ k := by exact_mod_cast lt_of_mul_lt_mul_right h1 hpos.le
  have h5 : ((2 ^ q : ℤ) : ℝ) + 1 ≤ ((m * 2 ^ k : ℤ) : ℝ) := by exact_mod_cast h4
  rw [← e1, e2]
  have := mul_le_mul_of_nonneg_right h5 hpos.le
  rw [add_mul, ← e3, one_mul] at this
  exact this

namespace Fl
variable {φ : FloatFmt}

theorem val_min (a b : Fl φ) : (min a b).val = min a.val b.val := by
  rcases le_total a b with h | h
  · rw [min_eq_left h, min_eq_left (le_iff.1 h)]
  · rw [min_eq_right h, min_eq_right (le_iff.1 h)]

theorem val_two : (2 : Fl φ).val = 2 := by
  show φ.rd ((2 : ℕ) : ℝ) = 2
  have h : IsFloat φ.p ((2 : ℕ) : ℝ) := by
    have := IsFloat.le (p := φ.p) φ.pos (m := 1) (e := 1) (by simpa using one_le_pow₀ (by norm_num : (1 : ℤ) ≤ 2))
    simpa using this
  rw [φ.near.fix h]
  norm_num

theorem val_div (a b : Fl φ) : (a / b).val = φ.rd (a.val / b.val) := rfl

/-- Multiplication by two is exact. -/
theorem isFloat_double {p : ℕ} {x : ℝ} (h : IsFloat p x) : IsFloat p (2 * x) := by
  obtain ⟨m, e, hm, rfl⟩ := h
  exact ⟨m, e + 1, hm, by rw [zpow_add_one₀ (by norm_num)]; ring⟩

theorem isFloat_half {p : ℕ} {x : ℝ} (h : IsFloat p x) : IsFloat p (x / 2) := by
  obtain ⟨m, e, hm, rfl⟩ := h
  exact ⟨m, e - 1, hm, by rw [zpow_sub_one₀ (by norm_num)]; ring⟩

/-- The computed midpoint. -/
theorem val_mid (a b : Fl φ) : ((a + b) / 2).val = φ.rd (a.val + b.val) / 2 := by
  rw [val_div, val_two, val_add]
  exact φ.near.fix (isFloat_half (φ.near _).1)

theorem mid_mem {a b : Fl φ} (h : a ≤ b) : a ≤ (a + b) / 2 ∧ (a + b) / 2 ≤ b := by
  rw [le_iff] at h
  rw [le_iff, le_iff, val_mid]
  have h1 := φ.near.mono (show 2 * a.val ≤ a.val + b.val by linarith)
  have h2 := φ.near.mono (show a.val + b.val ≤ 2 * b.val by linarith)
  rw [φ.near.fix (isFloat_double a.isFloat)] at h1
  rw [φ.near.fix (isFloat_double b.isFloat)] at h2
  constructor <;> linarith

/-- The computed midpoint is the midpoint up to rounding. -/
theorem mid_err (a b : Fl φ) {B : ℝ} (ha : |a.val| ≤ B) (hb : |b.val| ≤ B) : |((a + b) / 2).val - (a.val + b.val) / 2| ≤ unit φ * B := by
  rw [val_mid, ← sub_div, abs_div, abs_of_pos (by norm_num : (0 : ℝ) < 2)]
  have h1 := φ.near.err φ.pos (a.val + b.val)
  have h2 : |a.val + b.val| ≤ 2 * B := (abs_add_le _ _).trans (by linarith)
  have h3 : unit φ * |a.val + b.val| ≤ unit φ * (2 * B) := mul_le_mul_of_nonneg_left h2 unit_pos.le
  change _ ≤ unit φ * |a.val + b.val| at h1
  linarith

/-- Growth under repeated multiplication with a cap. -/
theorem grow_bounds (f mx v : Fl φ) (hf : 1 ≤ f) (hmx : 0 ≤ mx) (hv : 0 ≤ v) (k : ℕ) :
    min mx.val (f.val ^ (k + 1) * v.val * (1 - unit φ) ^ (k + 1)) ≤ ((fun w => min mx (f * w))^[k + 1] v).val ∧
    ((fun w => min mx (f * w))^[k + 1] v).val ≤ min mx.val (f.val ^ (k + 1) * v.val * (1 + unit φ) ^ (k + 1)) := by
  have hf' : 1 ≤ f.val := by rw [← val_one (φ := φ)]; exact hf
  have hm' : 0 ≤ mx.val := by rw [← val_zero (φ := φ)]; exact hmx
  have hv' : 0 ≤ v.val := by rw [← val_zero (φ := φ)]; exact hv
  have u0 := unit_pos (φ := φ)
  have u1 := unit_half (φ := φ)
  have one : ∀ w : Fl φ, 0 ≤ w.val → f.val * w.val * (1 - unit φ) ≤ φ.rd (f.val * w.val) ∧ φ.rd (f.val * w.val) ≤ f.val * w.val * (1 + unit φ) := by
    intro w hw
    have he := φ.near.err φ.pos (f.val * w.val)
    rw [abs_of_nonneg (by positivity : 0 ≤ f.val * w.val), abs_le] at he
    change -(unit φ * (f.val * w.val)) ≤ _ ∧ _ ≤ unit φ * (f.val * w.val) at he
    constructor <;> linarith [he.1, he.2]
  induction k with
  | zero =>
    simp only [zero_add, Function.iterate_one, pow_one, val_min, val_mul]
    obtain ⟨a, b⟩ := one v hv'
    exact ⟨min_le_min_left _ a, min_le_min_left _ b⟩
  | succ k ih =>
    rw [Function.iterate_succ_apply']
    set w := (fun w => min mx (f * w))^[k + 1] v with hw
    obtain ⟨l, r⟩ := ih
    have hu : 0 ≤ 1 - unit φ := by linarith
    have w0 : 0 ≤ w.val := le_trans (le_min hm' (by positivity)) l
    obtain ⟨a, b⟩ := one w w0
    rw [val_min, val_mul]
    constructor
    · rcases le_total mx.val (f.val ^ (k + 1) * v.val * (1 - unit φ) ^ (k + 1)) with h | h
      · rw [min_eq_left h] at l
        have h1 : mx.val ≤ φ.rd (f.val * w.val) := by
          have := φ.near.mono (show mx.val ≤ f.val * w.val by nlinarith)
          rwa [rd_val] at this
        rw [min_eq_left h1]
        exact min_le_left _ _
      · rw [min_eq_right h] at l
        refine min_le_min_left _ (le_trans ?_ a)
        calc f.val ^ (k + 1 + 1) * v.val * (1 - unit φ) ^ (k + 1 + 1) = f.val * (f.val ^ (k + 1) * v.val * (1 - unit φ) ^ (k + 1)) * (1 - unit φ) := by ring
          _ ≤ f.val * w.val * (1 - unit φ) := mul_le_mul_of_nonneg_right (mul_le_mul_of_nonneg_left l (by linarith)) hu
    · refine min_le_min_left _ (b.trans ?_)
      calc f.val * w.val * (1 + unit φ) ≤ f.val * (f.val ^ (k + 1) * v.val * (1 + unit φ) ^ (k + 1)) * (1 + unit φ) :=
            mul_le_mul_of_nonneg_right (mul_le_mul_of_nonneg_left (r.trans (min_le_right _ _)) (by linarith)) (by linarith)
        _ = _ := by ring

/-- Every multiplication by a factor above one is a real increase. -/
theorem grow_step (hp : 2 ≤ φ.p) (f w : Fl φ) (hf : 1 < f) (hw : 0 ≤ w) : w.val * (1 + unit φ / 2) ≤ (f * w).val := by
  have hf' : 1 < f.val := by rw [← val_one (φ := φ)]; exact hf
  have hw' : 0 ≤ w.val := by rw [← val_zero (φ := φ)]; exact hw
  have h1 : 1 + 2 * unit φ ≤ f.val := IsFloat.one_lt φ.pos f.isFloat hf'
  have u0 := unit_pos (φ := φ)
  have u1 : unit φ ≤ 1 / 4 := by
    have : (2 : ℝ) ^ (-(φ.p : ℤ)) ≤ 2 ^ (-2 : ℤ) := zpow_le_zpow_right₀ (by norm_num) (by omega)
    norm_num at this
    simpa [unit] using this
  have he := φ.near.err φ.pos (f.val * w.val)
  rw [abs_of_nonneg (by positivity : 0 ≤ f.val * w.val), abs_le] at he
  change -(unit φ * (f.val * w.val)) ≤ _ ∧ _ at he
  rw [val_mul]
  have h2 : (1 + unit φ / 2) ≤ (1 + 2 * unit φ) * (1 - unit φ) := by nlinarith
  have h3 : w.val * (1 + unit φ / 2) ≤ w.val * ((1 + 2 * unit φ) * (1 - unit φ)) := mul_le_mul_of_nonneg_left h2 hw'
  have h4 : w.val * ((1 + 2 * unit φ) * (1 - unit φ)) ≤ w.val * (f.val * (1 - unit φ)) :=
    mul_le_mul_of_nonneg_left (mul_le_mul_of_nonneg_right h1 (by linarith)) hw'
  nlinarith [he.1]

theorem grow_least (hp : 2 ≤ φ.p) (f mx v : Fl φ) (hf : 1 < f) (hmx : 0 ≤ mx) (hv : 0 ≤ v) (k : ℕ) :
    min mx.val ((1 + unit φ / 2) ^ k * v.val) ≤ ((fun w => min mx (f * w))^[k] v).val := by
  have hm' : 0 ≤ mx.val := by rw [← val_zero (φ := φ)]; exact hmx
  have hv' : 0 ≤ v.val := by rw [← val_zero (φ := φ)]; exact hv
  have u0 := unit_pos (φ := φ)
  induction k with
  | zero => simp
  | succ k ih =>
    rw [Function.iterate_succ_apply']
    set w := (fun w => min mx (f * w))^[k] v with hw
    have w0' : 0 ≤ w.val := le_trans (le_min hm' (by positivity)) ih
    have w0 : 0 ≤ w := by rw [le_iff, val_zero]; exact w0'
    have hs := grow_step hp f w hf w0
    rw [val_min]
    refine le_min (min_le_left _ _) ?_
    rcases le_total mx.val ((1 + unit φ / 2) ^ k * v.val) with h | h
    · rw [min_eq_left h] at ih
      refine (min_le_left _ _).trans (ih.trans (le_trans ?_ hs))
      nlinarith
    · rw [min_eq_right h] at ih
      refine (min_le_right _ _).trans (le_trans ?_ hs)
      calc (1 + unit φ / 2) ^ (k + 1) * v.val = (1 + unit φ / 2) ^ k * v.val * (1 + unit φ / 2) := by ring
        _ ≤ _ := mul_le_mul_of_nonneg_right ih (by linarith)

end Fl
end Verif
