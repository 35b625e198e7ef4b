import Verif.Proofs.FlSched
import Verif.Proofs.FlExample
import Verif.Props.Frozen

/-! Property C91: the schedulers in floating point arithmetic. -/

set_option linter.unusedSectionVars false

namespace Verif

open Fl

variable {φ : FloatFmt} {n : ℕ}

/-- **C91, multiply.** In every floating point format, for `factor ≥ 1`: after `k ≥ 1` updates the parameter is `min(maximum, factor^k * initial)` up to relative errors
`(1 ± u)^k` of the uncapped value (the cap is exact); parameters with other names are unchanged. -/
theorem C91_multiply (nm : PName) (f mx : Fl φ) (hf : 1 ≤ f) (hmx : 0 ≤ mx) (p : Params (Fl φ)) (m k : ℕ) (hv : 0 ≤ p.val nm m) :
    min mx.val (f.val ^ (k + 1) * (p.val nm m).val * (1 - unit φ) ^ (k + 1)) ≤ (((multiplyUpdate nm f mx)^[k + 1] p).val nm m).val ∧
    (((multiplyUpdate nm f mx)^[k + 1] p).val nm m).val ≤ min mx.val (f.val ^ (k + 1) * (p.val nm m).val * (1 + unit φ) ^ (k + 1)) ∧
    ∀ nm', nm' ≠ nm → ((multiplyUpdate nm f mx)^[k + 1] p).val nm' m = p.val nm' m := by
  obtain ⟨h1, h2⟩ := multiply_iter nm f mx p m (k + 1)
  rw [h1]
  exact ⟨(grow_bounds f mx _ hf hmx hv k).1, (grow_bounds f mx _ hf hmx hv k).2, h2⟩

/-- **C91, the maximum is reached.** In every format with at least two bits, a positive parameter with `factor > 1` never gets stuck because of rounding: every update below the cap
increases it by a factor of at least `1 + u/2`, so after every `k` with `(1 + u/2)^k * initial ≥ maximum` it equals `maximum`, and such `k` exist. -/
theorem C91_reaches (hp : 2 ≤ φ.p) (nm : PName) (f mx : Fl φ) (hf : 1 < f) (hmx : 0 ≤ mx) (p : Params (Fl φ)) (m : ℕ) (hv : 0 < p.val nm m) :
    (∀ k, 1 ≤ k → mx.val ≤ (1 + unit φ / 2) ^ k * (p.val nm m).val → ((multiplyUpdate nm f mx)^[k] p).val nm m = mx) ∧
    ∃ k₀, ∀ k, k₀ ≤ k → ((multiplyUpdate nm f mx)^[k] p).val nm m = mx := by
  have key : ∀ k, 1 ≤ k → mx.val ≤ (1 + unit φ / 2) ^ k * (p.val nm m).val → ((multiplyUpdate nm f mx)^[k] p).val nm m = mx := by
    intro k hk h
    have h1 := grow_least hp f mx (p.val nm m) hf hmx hv.le k
    rw [min_eq_left h] at h1
    rw [(multiply_iter nm f mx p m k).1]
    refine le_antisymm ?_ h1
    obtain ⟨j, rfl⟩ : ∃ j, k = j + 1 := ⟨k - 1, by omega⟩
    rw [Function.iterate_succ_apply']
    exact min_le_left _ _
  refine ⟨key, ?_⟩
  have u0 := unit_pos (φ := φ)
  have hv' : 0 < (p.val nm m).val := by rw [← val_zero (φ := φ)]; exact hv
  obtain ⟨k₀, hk⟩ := pow_unbounded_of_one_lt (mx.val / (p.val nm m).val) (show 1 < 1 + unit φ / 2 by linarith)
  refine ⟨k₀ + 1, fun k h => key k (by omega) ?_⟩
  rw [div_lt_iff₀ hv'] at hk
  refine hk.le.trans (mul_le_mul_of_nonneg_right ?_ hv'.le)
  exact pow_le_pow_right₀ (by linarith) (by omega)

/-- **C91, multiply, negative part.** In every format with at least three bits the formula `min(maximum, factor^k * initial)` is wrong already for `k = 1`: there are `factor > 1` and a
positive initial value for which the parameter after one update is not `factor * initial`, although the cap is inactive. -/
theorem C91_multiply_false (hp : 3 ≤ φ.p) (nm : PName) : ∃ (f mx : Fl φ) (p : Params (Fl φ)), 1 < f ∧ 0 < p.val nm 0 ∧ f.val * (p.val nm 0).val < mx.val ∧
    ((multiplyUpdate nm f mx p).val nm 0).val ≠ f.val * (p.val nm 0).val := by
  have hb : (2 : ℤ) ^ (φ.p - 1) + 1 < 2 ^ φ.p := by
    obtain ⟨q, hq⟩ : ∃ q, φ.p = q + 3 := ⟨φ.p - 3, by omega⟩
    rw [hq, show q + 3 - 1 = q + 2 by omega, pow_add, pow_add]
    have : (1 : ℤ) ≤ 2 ^ q := one_le_pow₀ (by norm_num)
    norm_num
    omega
  have hb0 : (0 : ℤ) < 2 ^ (φ.p - 1) := by positivity
  -- f = v = 2^(p-1) + 1
  set a : Fl φ := ofInt φ (2 ^ (φ.p - 1) + 1) (by rw [abs_of_pos (by omega)]; exact hb.le) with ha
  have av : a.val = ((2 ^ (φ.p - 1) + 1 : ℤ) : ℝ) := rfl
  set mx : Fl φ := ⟨1 * (2 : ℝ) ^ (2 * φ.p : ℤ), 1, 2 * φ.p, by simpa using one_lt_pow₀ (by norm_num : (1 : ℤ) < 2) (by omega), by simp⟩ with hmx
  have hlt : a.val * a.val < mx.val := by
    have h1 : a.val < 2 ^ φ.p := by rw [av]; exact_mod_cast hb
    have h0 : 0 < a.val := by rw [av]; exact_mod_cast (by omega : (0 : ℤ) < 2 ^ (φ.p - 1) + 1)
    have e : mx.val = (2 : ℝ) ^ φ.p * 2 ^ φ.p := by
      show 1 * (2 : ℝ) ^ (2 * φ.p : ℤ) = _
      rw [one_mul, two_mul, zpow_add₀ (by norm_num), zpow_natCast]
    rw [e]
    exact mul_lt_mul'' h1 h1 h0.le h0.le
  have hnot : ¬ IsFloat φ.p (a.val * a.val) := by
    rintro ⟨m, e, hm, he⟩
    obtain ⟨q, hq⟩ : ∃ q, φ.p = q + 3 := ⟨φ.p - 3, by omega⟩
    have eq : a.val * a.val = ((2 ^ (q + 3) * (2 ^ (q + 1) + 1) + 1 : ℤ) : ℝ) := by
      rw [av, hq, show q + 3 - 1 = q + 2 by omega]
      push_cast
      ring
    rw [eq] at he
    have hm' : (m : ℝ) < 2 ^ φ.p := by exact_mod_cast (abs_lt.1 hm).2
    rcases lt_or_ge 0 e with h0 | h0
    · obtain ⟨j, hj⟩ := Int.le.dest (show (1 : ℤ) ≤ e by omega)
      have : ((2 ^ (q + 3) * (2 ^ (q + 1) + 1) + 1 : ℤ) : ℝ) = ((m * 2 ^ j * 2 : ℤ) : ℝ) := by
        rw [he, ← hj, zpow_add₀ (by norm_num), zpow_natCast]
        push_cast
        ring
      have h2 : (2 : ℤ) ^ (q + 3) * (2 ^ (q + 1) + 1) + 1 = m * 2 ^ j * 2 := by exact_mod_cast this
      have h3 : (2 : ℤ) ^ (q + 3) * (2 ^ (q + 1) + 1) = 2 * (2 ^ (q + 2) * (2 ^ (q + 1) + 1)) := by ring
      omega
    · have h1 : (2 : ℝ) ^ e ≤ 1 := zpow_le_one_of_nonpos₀ (by norm_num) h0
      have h2 : (m : ℝ) * 2 ^ e ≤ 2 ^ φ.p := by
        rcases le_total 0 (m : ℝ) with h | h
        · nlinarith [two_zpow_pos e]
        · have : (m : ℝ) * 2 ^ e ≤ 0 := mul_nonpos_of_nonpos_of_nonneg h (two_zpow_pos e).le
          have h5 : (0 : ℝ) < 2 ^ φ.p := by positivity
          linarith
      rw [← he, hq] at h2
      have h3 : ((2 : ℤ) ^ (q + 3) * (2 ^ (q + 1) + 1) + 1) ≤ 2 ^ (q + 3) := by exact_mod_cast h2
      have h4 : (0 : ℤ) < 2 ^ (q + 3) := by positivity
      have h5 : (0 : ℤ) < 2 ^ (q + 1) := by positivity
      nlinarith
  have hv : ∀ nm, Params.val ⟨fun _ => a, a, a, a⟩ nm 0 = a := by intro nm; cases nm <;> rfl
  refine ⟨a, mx, ⟨fun _ => a, a, a, a⟩, ?_, ?_, ?_, ?_⟩
  · rw [lt_iff, val_one, av]
    exact_mod_cast (by omega : (1 : ℤ) < 2 ^ (φ.p - 1) + 1)
  · rw [hv, lt_iff, val_zero, av]
    exact_mod_cast (by omega : (0 : ℤ) < 2 ^ (φ.p - 1) + 1)
  · rw [hv]; exact hlt
  · rw [multiply_val, if_pos rfl, hv]
    intro h
    have h1 : (min mx (a * a)).val = φ.rd (a.val * a.val) := by
      rw [val_min, val_mul, min_eq_right]
      have := φ.near.mono hlt.le
      rwa [rd_val] at this
    rw [h1] at h
    exact hnot (h ▸ (φ.near _).1)

section Machine
variable {V : Type} [Add V] [Sub V] [SMul (Fl φ) V]

/-- **C91, in the machine.** With a scheduler made of one `multiply` for `alpha` (the default scheduler has factor 1.05 and maximum 1e5, rounded to the format), after `k ≥ 1` iterations of the
loop of `optimize` of any dynamic, `alpha` of every run obeys the bounds of `C91_multiply`, and `lamda`, `sigma`, `dt` are unchanged. -/
theorem C91_machine (env : Env (Fl φ) V) (inner : St (Fl φ) V → Except Err (St (Fl φ) V)) (hi : InnerFrame inner) (f mx : Fl φ) (hf : 1 ≤ f) (hmx : 0 ≤ mx)
    (hsched : ∀ s, env.sched s = .ok (schedulerUpdate [multiplyUpdate .alpha f mx] s.params)) (s s' : St (Fl φ) V) (k m : ℕ) (hs : 0 ≤ s.alpha m)
    (h : execAll env inner (rounds (k + 1)) s = .ok s') :
    min mx.val (f.val ^ (k + 1) * (s.alpha m).val * (1 - unit φ) ^ (k + 1)) ≤ (s'.alpha m).val ∧
    (s'.alpha m).val ≤ min mx.val (f.val ^ (k + 1) * (s.alpha m).val * (1 + unit φ) ^ (k + 1)) ∧
    s'.lamda = s.lamda ∧ s'.sigma = s.sigma ∧ s'.dt = s.dt := by
  have h1 := sched_iter env inner hi _ hsched (k + 1) s s' h
  have e : s'.params = (multiplyUpdate .alpha f mx)^[k + 1] s.params := h1
  obtain ⟨a, b, c⟩ := C91_multiply .alpha f mx hf hmx s.params m k hs
  rw [← e] at a b c
  exact ⟨a, b, c .lamda (by simp), c .sigma (by simp), c .dt (by simp)⟩

end Machine

section Any
variable {K : Type} [Zero K] [Neg K] [Add K] [Div K] [OfNat K 2] [LinearOrder K]

/-- **C91, bisection stops.** In any arithmetic, for every function, bracket, threshold, iteration limit and number of components: the loop makes between 1 and `max_it + 1` passes; if it makes
fewer, every component of the returned point has a computed residual of at most `thresh`. -/
theorem C91_stops (f : (ℕ → K) → ℕ → K) (M : ℕ) (low high : ℕ → K) (maxIt : ℕ) (thresh : K) :
    1 ≤ (bisection f M low high maxIt thresh).it ∧ (bisection f M low high maxIt thresh).it ≤ maxIt + 1 ∧
    ((bisection f M low high maxIt thresh).it < maxIt + 1 →
      ∀ j < M, f (bisection f M low high maxIt thresh).x j ≤ thresh ∧ -f (bisection f M low high maxIt thresh).x j ≤ thresh) := by
  obtain ⟨h1, h2, h3, -⟩ := bisLoop_stop (f := f) (M := M) (thresh := thresh) (maxIt := maxIt) (maxIt + 1)
    ⟨low, high, high, List.range M, 0⟩ (by omega) (by simp)
  refine ⟨h3, h2, fun hlt j hj => ?_⟩
  rcases h1 with h1 | h1
  · exact absurd h1 (by unfold bisection at hlt; omega)
  · exact max_le_iff.1 (h1 j hj)

end Any

/-- **C91, bracket.** In every floating point format the returned point lies in the initial bracket, componentwise, for every function: the rounded midpoint `(low + high)/2` never leaves the
interval. -/
theorem C91_bracket (f : (ℕ → Fl φ) → ℕ → Fl φ) (M : ℕ) (low high : ℕ → Fl φ) (maxIt : ℕ) (thresh : Fl φ) (j : ℕ) (h : low j ≤ high j) :
    low j ≤ (bisection f M low high maxIt thresh).x j ∧ (bisection f M low high maxIt thresh).x j ≤ high j := by
  have := bisLoop_induct (f := f) (M := M) (thresh := thresh) (maxIt := maxIt)
    (P := fun s => low j ≤ s.low j ∧ s.low j ≤ s.high j ∧ s.high j ≤ high j ∧ low j ≤ s.x j ∧ s.x j ≤ high j)
    (fun s ⟨h1, h2, h3, _, _⟩ => by
      obtain ⟨m1, m2⟩ := mid_mem h2
      simp only [bisBody]
      refine ⟨?_, ?_, ?_, h1.trans m1, m2.trans h3⟩
      · split_ifs
        · exact h1.trans m1
        · exact h1
      · split_ifs <;> first | exact le_refl _ | exact m1 | exact m2 | exact h2
      · split_ifs
        · exact m2.trans h3
        · exact h3)
    (maxIt + 1) ⟨low, high, high, List.range M, 0⟩ ⟨le_refl _, h, le_refl _, h, le_refl _⟩
  exact ⟨this.2.2.2.1, this.2.2.2.2⟩

/-- **C91, accuracy of the bisection.** In every floating point format, for one component and any function (the computed gap need not be monotone): either the computed residual is at most `thresh`,
or the returned point lies between two points `l ≤ h` of the bracket at which the function has the signs of a root between them (or which are the ends of the bracket), and whose distance is at
most `(high - low)/2^max_it` plus `2 u B`, with `B` a bound for the bracket. -/
theorem C91_root (g : Fl φ → Fl φ) (low high : Fl φ) (hlh : low ≤ high) (B : ℝ) (hl : |low.val| ≤ B) (hh : |high.val| ≤ B) (maxIt : ℕ) (thresh : Fl φ) (ht : 0 ≤ thresh) :
    let x := (bisection (fun x j => g (x j)) 1 (fun _ => low) (fun _ => high) maxIt thresh).x 0
    (g x ≤ thresh ∧ -g x ≤ thresh) ∨
    ∃ l h, low ≤ l ∧ l ≤ x ∧ x ≤ h ∧ h ≤ high ∧ (l = low ∨ 0 < g l) ∧ (h = high ∨ g h < 0) ∧ h.val - l.val ≤ (high.val - low.val) / 2 ^ maxIt + 2 * (unit φ * B) := by
  have u0 := unit_pos (φ := φ)
  have B0 : 0 ≤ B := (abs_nonneg _).trans hl
  have uB : 0 ≤ unit φ * B := by positivity
  have hbd : ∀ a : Fl φ, low ≤ a → a ≤ high → |a.val| ≤ B := fun a h1 h2 => by
    rw [le_iff] at h1 h2
    rw [abs_le] at hl hh ⊢
    constructor <;> linarith
  have key : ∀ N (s : Bis (Fl φ)), 0 < N → s.it + N = maxIt + 1 → 0 ∈ s.idx → s.low 0 ≤ s.high 0 → low ≤ s.low 0 → s.high 0 ≤ high →
      (s.high 0).val - (s.low 0).val ≤ (high.val - low.val) / 2 ^ s.it + 2 * (unit φ * B) → (s.low 0 = low ∨ 0 < g (s.low 0)) → (s.high 0 = high ∨ g (s.high 0) < 0) →
      let x := (bisLoop (fun x j => g (x j)) 1 thresh maxIt N s).x 0
      (g x ≤ thresh ∧ -g x ≤ thresh) ∨
      ∃ l h, low ≤ l ∧ l ≤ x ∧ x ≤ h ∧ h ≤ high ∧ (l = low ∨ 0 < g l) ∧ (h = high ∨ g h < 0) ∧ h.val - l.val ≤ (high.val - low.val) / 2 ^ maxIt + 2 * (unit φ * B) := by
    intro N
    induction N with
    | zero => intro s h; exact absurd h (lt_irrefl 0)
    | succ N ih =>
      intro s _ hit hidx hle hl0 hh0 hw hsl hsh
      obtain ⟨m1, m2⟩ := mid_mem hle
      have hx : (bisBody (fun x j => g (x j)) 1 thresh s).x 0 = (s.low 0 + s.high 0) / 2 := rfl
      have hi : (bisBody (fun x j => g (x j)) 1 thresh s).it = s.it + 1 := rfl
      have hmem : ∀ j, j ∈ (bisBody (fun x j => g (x j)) 1 thresh s).idx ↔ j = 0 ∧ thresh < absK (g ((s.low j + s.high j) / 2)) := by
        intro j
        simp only [bisBody, List.mem_filter, List.mem_range, Nat.lt_one_iff, decide_eq_true_eq]
      have herr := mid_err (s.low 0) (s.high 0) (hbd _ hl0 (hle.trans hh0)) (hbd _ (hl0.trans hle) hh0)
      rw [abs_le] at herr
      simp only [bisLoop]
      by_cases hr : thresh < absK (g ((s.low 0 + s.high 0) / 2))
      · by_cases hlast : maxIt < (bisBody (fun x j => g (x j)) 1 thresh s).it
        · rw [if_pos (Or.inl hlast)]
          have e : s.it = maxIt := by rw [hi] at hlast; omega
          rw [e] at hw
          exact Or.inr ⟨s.low 0, s.high 0, hl0, m1, m2, hh0, hsl, hsh, hw⟩
        · have hne : (bisBody (fun x j => g (x j)) 1 thresh s).idx ≠ [] := List.ne_nil_of_mem ((hmem 0).2 ⟨rfl, hr⟩)
          rw [if_neg (not_or.2 ⟨hlast, hne⟩)]
          have hp2 : (high.val - low.val) / 2 ^ (s.it + 1) = (high.val - low.val) / 2 ^ s.it / 2 := by rw [pow_succ, div_mul_eq_div_div]
          rcases lt_max_iff.1 hr with hs | hs
          · have hpos : 0 < g ((s.low 0 + s.high 0) / 2) := ht.trans_lt hs
            have el : (bisBody (fun x j => g (x j)) 1 thresh s).low 0 = (s.low 0 + s.high 0) / 2 := if_pos ⟨hidx, hpos⟩
            have eh : (bisBody (fun x j => g (x j)) 1 thresh s).high 0 = s.high 0 := if_neg fun h => absurd h.2 (not_lt.2 hpos.le)
            refine ih _ (by rw [hi] at hlast; omega) (by rw [hi]; omega) ((hmem 0).2 ⟨rfl, hr⟩) ?_ ?_ ?_ ?_ ?_ ?_
            · rw [el, eh]; exact m2
            · rw [el]; exact hl0.trans m1
            · rw [eh]; exact hh0
            · rw [el, eh, hi, hp2]
              linarith [herr.1]
            · rw [el]; exact Or.inr hpos
            · rw [eh]; exact hsh
          · have hneg : g ((s.low 0 + s.high 0) / 2) < 0 := by
              have h1 := lt_iff.1 (ht.trans_lt hs)
              rw [val_zero, val_neg] at h1
              rw [lt_iff, val_zero]
              linarith
            have el : (bisBody (fun x j => g (x j)) 1 thresh s).low 0 = s.low 0 := if_neg fun h => absurd h.2 (not_lt.2 hneg.le)
            have eh : (bisBody (fun x j => g (x j)) 1 thresh s).high 0 = (s.low 0 + s.high 0) / 2 := if_pos ⟨hidx, hneg⟩
            refine ih _ (by rw [hi] at hlast; omega) (by rw [hi]; omega) ((hmem 0).2 ⟨rfl, hr⟩) ?_ ?_ ?_ ?_ ?_ ?_
            · rw [el, eh]; exact m1
            · rw [el]; exact hl0
            · rw [eh]; exact m2.trans hh0
            · rw [el, eh, hi, hp2]
              linarith [herr.2]
            · rw [el]; exact hsl
            · rw [eh]; exact Or.inr hneg
      · have he : (bisBody (fun x j => g (x j)) 1 thresh s).idx = [] := by
          rw [List.eq_nil_iff_forall_not_mem]
          rintro j hj
          obtain ⟨rfl, h⟩ := (hmem j).1 hj
          exact hr h
        rw [if_pos (Or.inr he)]
        exact Or.inl (max_le_iff.1 (not_lt.1 hr))
  exact key (maxIt + 1) ⟨fun _ => low, fun _ => high, fun _ => high, List.range 1, 0⟩ (by omega) (by simp) (by simp) hlh le_rfl le_rfl (by simp; linarith) (Or.inl rfl) (Or.inl rfl)

/-- **C91, effective sample size.** In every floating point format and for every energies, the effective scheduler sets `alpha` of every run to a value in `[minimum, maximum]`. If the bisection
made fewer than `max_it + 1` passes, the exact effective sample size of every run at the new `alpha` is `eta * n` up to the threshold and rounding errors, if `W` bounds `alpha * energy`. -/
theorem C91_effective (M : ℕ) (t : SumTree (Fin n)) [NeZero n] (hc : t.Covers) (hn : n ≤ 2 ^ φ.p) (E : ℕ → Fin n → Fl φ) (eta minimum maximum thresh : Fl φ) (hmm : minimum ≤ maximum)
    (maxIt : ℕ) (p : Params (Fl φ)) (m : ℕ) :
    minimum ≤ (flEffective M t E eta minimum maximum thresh maxIt p).alpha m ∧ (flEffective M t E eta minimum maximum thresh maxIt p).alpha m ≤ maximum ∧
    ((bisection (fun a m => flGap t (E m) eta (a m)) M (fun _ => minimum) (fun _ => maximum) maxIt thresh).it < maxIt + 1 → m < M →
      ∀ W : ℝ, (∀ i, |((flEffective M t E eta minimum maximum thresh maxIt p).alpha m).val * (E m i).val| ≤ W) → 10 * (unit φ * W) + 60 * ((n : ℝ) ^ 2 * unit φ) ≤ 1 →
      |exactEss ((flEffective M t E eta minimum maximum thresh maxIt p).alpha m).val (fun i => (E m i).val) - eta.val * n| ≤
        (1 + 2 * unit φ) * thresh.val + unit φ * (|eta.val| * n) + n * (20 * (unit φ * W) + 110 * ((n : ℝ) ^ 2 * unit φ))) := by
  set b := bisection (fun a m => flGap t (E m) eta (a m)) M (fun _ => minimum) (fun _ => maximum) maxIt thresh with hb
  obtain ⟨b1, b2⟩ := C91_bracket (fun a m => flGap t (E m) eta (a m)) M (fun _ => minimum) (fun _ => maximum) maxIt thresh m hmm
  have ea : (flEffective M t E eta minimum maximum thresh maxIt p).alpha m = b.x m := min_eq_right b2
  rw [ea]
  refine ⟨b1, b2, fun hit hm W hW hsmall => ?_⟩
  obtain ⟨-, -, h3⟩ := C91_stops (fun a m => flGap t (E m) eta (a m)) M (fun _ => minimum) (fun _ => maximum) maxIt thresh
  obtain ⟨r1, r2⟩ := h3 hit m hm
  change flGap t (E m) eta (b.x m) ≤ thresh at r1
  change -flGap t (E m) eta (b.x m) ≤ thresh at r2
  set a := b.x m with ha
  have u0 := unit_pos (φ := φ)
  have u1 := unit_half (φ := φ)
  set J := (Arith.ofRound φ.rd).ess t a.val (fun i => (E m i).val) with hJ
  have hJf : φ.rd J = J := φ.near.fix (φ.near _).1
  have hnf : φ.rd (n : ℝ) = n := φ.near.fix (by
    have := isFloat_int (p := φ.p) (m := n) φ.pos (by rw [Nat.abs_cast]; exact_mod_cast hn)
    simpa using this)
  set q := φ.rd (eta.val * n) with hq
  have hval : (flGap t (E m) eta a).val = φ.rd (J - q) := by
    show φ.rd (φ.rd J - φ.rd (eta.val * φ.rd (n : ℝ))) = _
    rw [hJf, hnf]
  rw [le_iff, hval] at r1
  rw [le_iff, val_neg, hval] at r2
  have hz : |φ.rd (J - q)| ≤ thresh.val := abs_le.2 ⟨by linarith, r1⟩
  have e1 := φ.near.err φ.pos (J - q)
  change _ ≤ unit φ * |J - q| at e1
  have e2 := φ.near.err φ.pos (eta.val * n)
  change |q - eta.val * n| ≤ unit φ * |eta.val * n| at e2
  rw [abs_mul, Nat.abs_cast] at e2
  have e3 : |J - q| ≤ (1 + 2 * unit φ) * thresh.val := by
    have h4 : |J - q| ≤ |φ.rd (J - q)| + |φ.rd (J - q) - (J - q)| := by
      have := abs_sub_abs_le_abs_sub (J - q) (φ.rd (J - q))
      rw [abs_sub_comm (J - q)] at this
      linarith
    have h5 : |J - q| * (1 - unit φ) ≤ thresh.val := by nlinarith
    have h6 := abs_nonneg (J - q)
    have h7 : 1 ≤ (1 + 2 * unit φ) * (1 - unit φ) := by nlinarith
    nlinarith
  have e4 := C87_ess_partial (Arith.ofRound φ.rd) (unit φ) 0 (φ.near.std φ.pos) t hc a.val W (fun i => (E m i).val)
    (φ.near.fix (by
      have := (isFloat_double a.isFloat).neg
      rwa [← neg_mul] at this)) hW (by rw [add_zero]; exact hsmall)
  rw [← hJ, add_zero] at e4
  have e5 : exactEss a.val (fun i => (E m i).val) - eta.val * n = -(J - exactEss a.val (fun i => (E m i).val)) + (J - q) + (q - eta.val * n) := by ring
  rw [e5]
  have e6 := abs_add_le (-(J - exactEss a.val (fun i => (E m i).val)) + (J - q)) (q - eta.val * n)
  have e7 := abs_add_le (-(J - exactEss a.val (fun i => (E m i).val))) (J - q)
  rw [abs_neg] at e7
  linarith

/-- C91: the default factor 1.05 and maximum 1e5, rounded to double precision, are admissible for `C91_multiply`, `C91_reaches` and `C91_machine`, and the example dynamic runs with this
scheduler: after 3 iterations `alpha = 1` has become 1.05^3 up to relative errors `(1 ± u)^3`, where 1.05 is the rounded factor. -/
example : ∃ (f mx : Fl Example.double) (s s' : St (Fl Example.double) (Fl Example.double)), 1 < f ∧ 0 ≤ mx ∧ f = Fl.round _ (21 / 20) ∧ mx.val = 100000 ∧
    init { Example.flEnv Example.double with sched := fun s => .ok (schedulerUpdate [multiplyUpdate .alpha f mx] s.params) } (Example.flArgs _ 1 [.maxIt (some 7)]) = .ok s ∧
    execAll { Example.flEnv Example.double with sched := fun s => .ok (schedulerUpdate [multiplyUpdate .alpha f mx] s.params) }
      (cboInner { Example.flEnv Example.double with sched := fun s => .ok (schedulerUpdate [multiplyUpdate .alpha f mx] s.params) }) (rounds (2 + 1)) s = .ok s' ∧
    f.val ^ 3 * (1 - unit Example.double) ^ 3 ≤ (s'.alpha 1).val ∧ (s'.alpha 1).val ≤ f.val ^ 3 * (1 + unit Example.double) ^ 3 := by
  let φ := Example.double
  let f : Fl φ := Fl.round φ (21 / 20)
  let mx : Fl φ := ofInt φ 100000 (by simp [φ, Example.double])
  have hmx : mx.val = 100000 := by show ((100000 : ℤ) : ℝ) = _; norm_num
  have u0 := unit_pos (φ := φ)
  have hu : unit φ ≤ 1 / 100 := by
    have : (2 : ℝ) ^ (-(53 : ℤ)) ≤ 2 ^ (-7 : ℤ) := zpow_le_zpow_right₀ (by norm_num) (by norm_num)
    calc _ = (2 : ℝ) ^ (-(53 : ℤ)) := rfl
      _ ≤ _ := this
      _ ≤ 1 / 100 := by norm_num
  have he := φ.near.err φ.pos (21 / 20)
  change |f.val - 21 / 20| ≤ unit φ * |21 / 20| at he
  rw [abs_of_pos (by norm_num : (0 : ℝ) < 21 / 20), abs_le] at he
  have f1 : 1 < f.val := by linarith [he.1]
  have f2 : f.val < 2 := by linarith [he.2]
  have hf : 1 < f := by rw [lt_iff, val_one]; exact f1
  have hm : 0 ≤ mx := by rw [le_iff, val_zero, hmx]; norm_num
  let env : Env (Fl φ) (Fl φ) := { Example.flEnv φ with sched := fun s => .ok (schedulerUpdate [multiplyUpdate .alpha f mx] s.params) }
  have heo : EnvOK env := ⟨rfl, ⟨_, rfl⟩, fun s d h => ⟨d, by simp [env, Example.flEnv, h], rfl, rfl⟩, fun s => ⟨_, rfl, rfl, rfl⟩, fun s => ⟨_, rfl⟩⟩
  obtain ⟨s, h0, h⟩ := C19_never_raises_partial env heo (fun _ _ _ _ h => h) (Example.flArgs φ 1 [.maxIt (some 7)]) (by simp [Example.flArgs]) (by simp [Example.flArgs])
    (by intro tm ht; simp only [Example.flArgs, List.mem_singleton] at ht; subst ht; trivial) (fun h => by cases h)
  obtain ⟨s', h1, -⟩ := h (rounds (2 + 1)) (fun h => by cases h)
  have ea : s.alpha 1 = 1 := by
    unfold init at h0
    split_ifs at h0
    all_goals
      injection h0 with h0
      subst h0
      rfl
  obtain ⟨a, b, -⟩ := C91_machine env _ (cboInner_frame env) f mx hf.le hm (fun _ => rfl) s s' 2 1 (by rw [ea, le_iff, val_zero, val_one]; norm_num) h1
  rw [ea, val_one, hmx, mul_one] at a b
  refine ⟨f, mx, s, s', hf, hm, rfl, hmx, h0, h1, ?_, b.trans (min_le_right _ _)⟩
  rwa [min_eq_right] at a
  have h3 : f.val ^ 3 ≤ 8 := by
    calc f.val ^ 3 ≤ 2 ^ 3 := pow_le_pow_left₀ (by linarith) f2.le 3
      _ = 8 := by norm_num
  have h4 : (1 - unit φ) ^ 3 ≤ 1 := pow_le_one₀ (by linarith) (by linarith)
  have h5 : 0 ≤ (1 - unit φ) ^ 3 := pow_nonneg (by linarith) 3
  show f.val ^ 3 * (1 - unit φ) ^ 3 ≤ 100000
  calc f.val ^ 3 * (1 - unit φ) ^ 3 ≤ 8 * 1 := mul_le_mul h3 h4 h5 (by norm_num)
    _ ≤ _ := by norm_num

/-- C91: the hypotheses of `C91_effective` for two particles with equal energies in double precision, with `eta = 1` and threshold 1: the bisection ends after one pass. -/
example : let t : SumTree (Fin 2) := .node (.leaf 0) (.leaf 1)
    let E : ℕ → Fin 2 → Fl Example.double := fun _ _ => 0
    t.Covers ∧ 2 ≤ 2 ^ Example.double.p ∧ (1 : Fl Example.double) ≤ ofInt _ 100000 (by simp [Example.double]) ∧
    10 * (unit Example.double * 0) + 60 * (((2 : ℕ) : ℝ) ^ 2 * unit Example.double) ≤ 1 ∧ (∀ (a : Fl Example.double) i, |a.val * (E 0 i).val| ≤ 0) ∧
    (bisection (fun a m => flGap t (E m) 1 (a m)) 1 (fun _ => 1) (fun _ => ofInt Example.double 100000 (by simp [Example.double])) 15 1).it = 1 := by
  intro t E
  have hc : t.Covers := by
    show [0, 1].Perm (List.finRange 2)
    decide
  have hu : unit Example.double ≤ 1 / 2000 := by
    have : unit Example.double = (2 : ℝ) ^ (-((53 : ℕ) : ℤ)) := rfl
    rw [this, zpow_neg, zpow_natCast]
    norm_num
  have u0 := unit_pos (φ := Example.double)
  have hE : ∀ (a : Fl Example.double) i, |a.val * (E 0 i).val| ≤ 0 := fun a i => by
    show |a.val * (0 : Fl Example.double).val| ≤ 0
    rw [val_zero]; simp
  have hsm : 10 * (unit Example.double * 0) + 60 * (((2 : ℕ) : ℝ) ^ 2 * unit Example.double) ≤ 1 := by norm_num; linarith
  refine ⟨hc, by simp [Example.double], ?_, hsm, hE, ?_⟩
  · rw [le_iff, val_one]; show (1 : ℝ) ≤ ((100000 : ℤ) : ℝ); norm_num
  · have hg : ∀ a : Fl Example.double, ¬ (1 : Fl Example.double) < absK (flGap t (E 0) 1 a) := by
      intro a
      have e4 := C87_ess_partial (Arith.ofRound Example.double.rd) (unit Example.double) 0 (Example.double.near.std Example.double.pos) t hc a.val 0 (fun i => (E 0 i).val)
        (Example.double.near.fix (by
          have := (isFloat_double a.isFloat).neg
          rwa [← neg_mul] at this)) (hE a) (by rw [add_zero]; exact hsm)
      have hex : exactEss a.val (fun i => (E 0 i).val) = 2 := by
        have : ∀ i, (E 0 i).val = 0 := fun i => val_zero
        simp only [exactEss, this, mul_zero, Real.exp_zero]
        norm_num
      rw [hex] at e4
      set J := (Arith.ofRound Example.double.rd).ess t a.val (fun i => (E 0 i).val) with hJ
      have hJf : Example.double.rd J = J := Example.double.near.fix (Example.double.near _).1
      have h2 : Example.double.rd ((2 : ℕ) : ℝ) = 2 := val_two (φ := Example.double)
      have h2' : Example.double.rd (2 : ℝ) = 2 := by simpa using h2
      have hval : (flGap t (E 0) 1 a).val = Example.double.rd (J - 2) := by
        show Example.double.rd (Example.double.rd J - Example.double.rd ((1 : Fl Example.double).val * Example.double.rd ((2 : ℕ) : ℝ))) = _
        rw [hJf, h2, val_one, one_mul, h2']
      have e1 := Example.double.near.err Example.double.pos (J - 2)
      change _ ≤ unit Example.double * |J - 2| at e1
      have e5 : |J - 2| ≤ 1 / 2 := e4.trans (by norm_num; linarith)
      have e6 : |Example.double.rd (J - 2)| ≤ 1 := by
        have := abs_sub_abs_le_abs_sub (Example.double.rd (J - 2)) (J - 2)
        have h7 : unit Example.double * |J - 2| ≤ 1 / 2000 * (1 / 2) := mul_le_mul hu e5 (abs_nonneg _) (by norm_num)
        linarith
      rw [abs_le] at e6
      rw [not_lt, absK, max_le_iff, le_iff, le_iff, val_neg, hval, val_one]
      constructor <;> linarith [e6.1, e6.2]
    rw [bisection, bisLoop, if_pos]
    · rfl
    · right
      rw [List.eq_nil_iff_forall_not_mem]
      intro j hj
      simp only [bisBody, List.mem_filter, List.mem_range, decide_eq_true_eq] at hj
      exact hg _ hj.2

/-- C91: the hypotheses of `C91_bracket` and `C91_root` for the gap `g(x) = 1 - x` on `[0, 4]` in double precision. -/
example : let low : Fl Example.double := 0
    let high := ofInt Example.double 4 (by simp [Example.double])
    low ≤ high ∧ |low.val| ≤ 4 ∧ |high.val| ≤ 4 ∧ (0 : Fl Example.double) ≤ 1 := by
  refine ⟨?_, ?_, ?_, ?_⟩
  · rw [le_iff, val_zero]; show (0 : ℝ) ≤ ((4 : ℤ) : ℝ); norm_num
  · rw [val_zero]; norm_num
  · show |((4 : ℤ) : ℝ)| ≤ 4; norm_num
  · rw [le_iff, val_zero, val_one]; norm_num

end Verif
