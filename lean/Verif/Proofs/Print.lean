import Verif.Spec.Print
import Verif.Proofs.OptimizeBy
import Mathlib.Order.Interval.Finset.Nat

/-! Helper lemmas for C84. -/

set_option linter.unusedSectionVars false

namespace Verif

variable {K V : Type} [Zero K] [One K] [Neg K] [Add K] [Sub K] [Mul K] [Inv K] [Div K] [NatCast K] [Pow K ℕ] [LinearOrder K] [Add V] [Sub V] [SMul K V]

/-- The criteria do not look at the scheduler. -/
theorem evalTerms_sched (env : Env K V) (σ : St K V → Except Err (Params K)) : ∀ (l : List (Term K)) (s : St K V),
    evalTerms { env with sched := σ } l s = evalTerms env l s
  | [], _ => rfl
  | tm :: l, s => by
    have h : evalTerm { env with sched := σ } tm s = evalTerm env tm s := by
      unfold evalTerm
      split <;> rfl
    simp only [evalTerms, h, evalTerms_sched env σ l]

theorem selectActive_sched (env : Env K V) (σ : St K V → Except Err (Params K)) (s : St K V) :
    selectActive { env with sched := σ } s = selectActive env s := by
  simp only [selectActive, evalTerms_sched]

/-- The result of the loop does not depend on the output. -/
theorem loopPrint_result (env : Env K V) (stp : St K V → Except Err (St K V)) (verb : ℤ) {pint : ℤ} (hp : pint ≠ 0) : ∀ (fuel : ℕ) (s : St K V),
    (loopPrint env stp verb pint fuel s).2 = optimizeBy env stp fuel s
  | 0, _ => rfl
  | fuel + 1, s => by
    unfold loopPrint optimizeBy
    cases selectActive env s with
    | error e => rfl
    | ok a =>
      simp only
      split_ifs with h0
      · rfl
      · cases stp a with
        | error e => rfl
        | ok b =>
          simp only
          cases schedUpdate env b with
          | error e => rfl
          | ok c =>
            simp only [if_neg hp]
            exact loopPrint_result env stp verb hp fuel c

/-- With verbosity zero (or less) the loop prints nothing. -/
theorem loopPrint_silent (env : Env K V) (stp : St K V → Except Err (St K V)) {verb : ℤ} (hv : verb ≤ 0) (pint : ℤ) : ∀ (fuel : ℕ) (s : St K V),
    (loopPrint env stp verb pint fuel s).1 = []
  | 0, _ => rfl
  | fuel + 1, s => by
    unfold loopPrint
    cases selectActive env s with
    | error e => rfl
    | ok a =>
      simp only
      by_cases h0 : a.active.length = 0
      · rw [if_pos h0]
        simp [printPost, not_lt.2 hv]
      · rw [if_neg h0]
        cases stp a with
        | error e => rfl
        | ok b =>
          simp only
          cases schedUpdate env b with
          | error e => rfl
          | ok c =>
            simp only
            split_ifs with h1 h2
            · rfl
            · have : ¬ (1 : ℤ) < verb := by omega
              simp [printCur, not_lt.2 hv, this, loopPrint_silent env stp hv pint fuel c]
            · simp [loopPrint_silent env stp hv pint fuel c]

/-- If the loop returns, the states after the rounds exist and determine the output. -/
theorem loopPrint_rounds (env : Env K V) (stp : St K V → Except Err (St K V)) (verb pint : ℤ) : ∀ (fuel : ℕ) (s s' : St K V),
    (loopPrint env stp verb pint fuel s).2 = .done s' → ∃ l, Rounds env stp s l s' ∧
      (loopPrint env stp verb pint fuel s).1 = (l.filter fun c => decide (((c.it : ℤ) - 1) % pint = 0)).flatMap (printCur verb) ++ printPost verb s'
  | 0, _, _, h => by cases h
  | fuel + 1, s, s', h => by
    unfold loopPrint at h ⊢
    cases h1 : selectActive env s with
    | error e => rw [h1] at h; cases h
    | ok a =>
      rw [h1] at h
      simp only at h ⊢
      by_cases h0 : a.active.length = 0
      · rw [if_pos h0] at h ⊢
        cases h
        exact ⟨[], .stop h1 (List.length_eq_zero_iff.1 h0), by simp⟩
      · rw [if_neg h0] at h ⊢
        cases h2 : stp a with
        | error e => rw [h2] at h; cases h
        | ok b =>
          rw [h2] at h
          simp only at h ⊢
          cases h3 : schedUpdate env b with
          | error e => rw [h3] at h; cases h
          | ok c =>
            rw [h3] at h
            simp only at h ⊢
            by_cases h4 : pint = 0
            · rw [if_pos h4] at h; cases h
            · rw [if_neg h4] at h ⊢
              obtain ⟨l, q1, q2⟩ := loopPrint_rounds env stp verb pint fuel c s' h
              refine ⟨c :: l, .more h1 (fun e => h0 (by rw [e]; rfl)) h2 h3 q1, ?_⟩
              simp only
              rw [q2, List.filter_cons]
              by_cases h5 : ((c.it : ℤ) - 1) % pint = 0
              · simp [h5]
              · simp [h5]

/-- The iteration counters along the rounds. -/
theorem rounds_it {env : Env K V} {stp : St K V → Except Err (St K V)} (hf : ∀ s s', stp s = .ok s' → StepFrame env s s') {s s' : St K V} {l : List (St K V)}
    (h : Rounds env stp s l s') : s'.it = s.it + l.length ∧ ∀ i (hi : i < l.length), (l[i]).it = s.it + i + 1 := by
  induction h with
  | stop h h' => exact ⟨by rw [select_frame h]; rfl, fun i hi => absurd hi (by simp)⟩
  | @more s a b c s' l h1 h2 h3 h4 h5 ih =>
    have e : c.it = s.it + 1 := by
      have e1 : c.it = b.it := by rw [sched_frame h4]
      have e2 : a.it = s.it := by rw [select_frame h1]
      rw [e1, (hf _ _ h3).it, e2]
    refine ⟨by rw [ih.1, e, List.length_cons]; omega, fun i hi => ?_⟩
    cases i with
    | zero => simpa using e
    | succ k =>
      rw [List.getElem_cons_succ, ih.2 k (by simpa using hi), e]
      omega

theorem rounds_params {env : Env K V} {stp : St K V → Except Err (St K V)} (hf : ∀ s s', stp s = .ok s' → StepFrame env s s')
    (hs : ∀ s, env.sched s = .ok s.params) {s s' : St K V} {l : List (St K V)} (h : Rounds env stp s l s') : s'.params = s.params := by
  induction h with
  | stop h h' => rw [select_frame h]; rfl
  | @more s a b c s' l h1 h2 h3 h4 h5 ih =>
    have fr := hf _ _ h3
    simp only [schedUpdate, hs, bind_ok, pure_ok] at h4
    obtain ⟨p, hp, rfl⟩ := h4
    injection hp with hp
    subst hp
    rw [ih]
    have e2 : a.params = s.params := by rw [select_frame h1]; rfl
    rw [← e2]
    show Params.mk b.alpha b.lamda b.sigma b.dt = Params.mk a.alpha a.lamda a.sigma a.dt
    rw [fr.alpha, fr.lamda, fr.sigma, fr.dt]

/-- Counting the due reports along consecutive iterations. -/
theorem reportsDue_succ (p : ℤ) (a k : ℕ) :
    reportsDue p a (a + (k + 1)) = (if p ∣ ((a : ℤ) + 1) - 1 then 1 else 0) + reportsDue p (a + 1) (a + 1 + k) := by
  have : Finset.Ioc a (a + (k + 1)) = insert (a + 1) (Finset.Ioc (a + 1) (a + 1 + k)) := by
    ext i
    simp only [Finset.mem_Ioc, Finset.mem_insert]
    omega
  unfold reportsDue
  rw [this, Finset.filter_insert]
  push_cast
  split_ifs with h
  · rw [Finset.card_insert_of_notMem (by simp)]
    omega
  · omega

theorem rounds_reports {env : Env K V} {stp : St K V → Except Err (St K V)} (hf : ∀ s s', stp s = .ok s' → StepFrame env s s') (p : ℤ) {s s' : St K V}
    {l : List (St K V)} (h : Rounds env stp s l s') : (l.filter fun c => decide (((c.it : ℤ) - 1) % p = 0)).length = reportsDue p s.it s'.it := by
  induction h with
  | @stop s s' h h' =>
    have : s'.it = s.it := by rw [select_frame h]
    simp [this, reportsDue]
  | @more s a b c s' l h1 h2 h3 h4 h5 ih =>
    have e : c.it = s.it + 1 := by
      have e1 : c.it = b.it := by rw [sched_frame h4]
      have e2 : a.it = s.it := by rw [select_frame h1]
      rw [e1, (hf _ _ h3).it, e2]
    have e' : s'.it = s.it + (l.length + 1) := by rw [(rounds_it hf h5).1, e]; omega
    have e'' : s'.it = s.it + 1 + l.length := by omega
    have ih' : (l.filter fun c => decide (((c.it : ℤ) - 1) % p = 0)).length = reportsDue p (s.it + 1) (s.it + 1 + l.length) := by
      rw [ih, e, e'']
    have hh : (p ∣ ((s.it : ℤ) + 1) - 1) ↔ ((c.it : ℤ) - 1) % p = 0 := by
      rw [e, Int.dvd_iff_emod_eq_zero]
      push_cast
      rfl
    rw [e', reportsDue_succ, ← ih', List.filter_cons]
    by_cases h6 : ((c.it : ℤ) - 1) % p = 0
    · rw [if_pos (decide_eq_true h6), if_pos (hh.2 h6), List.length_cons, Nat.add_comm]
    · rw [if_neg (by simpa using h6), if_neg (fun h => h6 (hh.1 h)), Nat.zero_add]

theorem isState_flatMap {verb : ℤ} (hv : 0 < verb) (l : List (St K V)) : ((l.flatMap (printCur verb)).filter Line.isState).length = l.length := by
  induction l with
  | nil => rfl
  | cons c l ih =>
    rw [List.flatMap_cons, List.filter_append, List.length_append, ih, List.length_cons]
    have : ((printCur verb c).filter Line.isState).length = 1 := by
      unfold printCur
      rw [if_pos hv]
      split_ifs <;> rfl
    omega

end Verif
