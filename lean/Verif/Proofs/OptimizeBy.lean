import Verif.Proofs.ResumeRun
import Verif.Proofs.Memory
import Verif.Props.Termination

/-! Helper lemmas: the loop of `optimize` around an arbitrary `step`, and the steps of the memory dynamics. -/

set_option linter.unusedSectionVars false

namespace Verif

variable {K V : Type} [Zero K] [One K] [Neg K] [Add K] [Sub K] [Mul K] [Inv K] [Div K] [NatCast K] [Pow K ℕ] [LinearOrder K] [Add V] [Sub V] [SMul K V]

/-- The loop with the inherited `step` is `optimize`. -/
theorem optimizeBy_step (env : Env K V) (inner : St K V → Except Err (St K V)) : ∀ (fuel : ℕ) (s : St K V),
    optimizeBy env (step env inner) fuel s = optimize env inner fuel s
  | 0, _ => rfl
  | fuel + 1, s => by
    unfold optimizeBy optimize
    simp only [optimizeBy_step env inner fuel]
    rfl

/-- What one round (`step`, `sched.update`) does for two choices of criteria and reasons. -/
theorem round_set3_by {env : Env K V} (he : env.Plain) {stp : St K V → Except Err (St K V)} (hi : ∀ s s', stp s = .ok s' → StepFrame env s s')
    (hb : ∀ T R, StepIgnores stp (St.withTR T R)) (s : St K V) (T T' : List (Term K)) (R R' : ℕ → Option (List ℕ)) (A : List ℕ) :
    (∃ e, stp (s.set3 T R A) = .error e ∧ stp (s.set3 T' R' A) = .error e) ∨
    ∃ u, stp (s.set3 T R A) = .ok u ∧ stp (s.set3 T' R' A) = .ok (u.withTR T' R') ∧
      ((∃ e, schedUpdate env u = .error e ∧ schedUpdate env (u.withTR T' R') = .error e) ∨
        ∃ w : St K V, w.M = s.M ∧ schedUpdate env u = .ok (w.set3 T R A) ∧ schedUpdate env (u.withTR T' R') = .ok (w.set3 T' R' A)) := by
  have h1 : s.set3 T' R' A = (s.set3 T R A).withTR T' R' := rfl
  have h2 : stp (s.set3 T' R' A) = (stp (s.set3 T R A)).map (St.withTR T' R') := by
    rw [h1]
    exact hb T' R' (s.set3 T R A)
  cases hs : stp (s.set3 T R A) with
  | error e => exact .inl ⟨e, rfl, by rw [h2, hs]; rfl⟩
  | ok u =>
    refine .inr ⟨u, rfl, by rw [h2, hs]; rfl, ?_⟩
    have fr := hi _ _ hs
    have e1 : u.terms = T := fr.terms
    have e2 : u.reason = R := fr.reason
    have e3 : u.active = A := fr.active
    have e4 : u.M = s.M := fr.M
    simp only [schedUpdate, he.sched]
    cases env.sched u with
    | error e => exact .inl ⟨e, rfl, rfl⟩
    | ok p =>
      refine .inr ⟨{ u with alpha := p.alpha, lamda := p.lamda, sigma := p.sigma, dt := p.dt }, e4, ?_, ?_⟩
      · rw [← e1, ← e2, ← e3]; rfl
      · rw [← e3]; rfl

/-- Reasons and active runs of the past do not matter for a run with stateless criteria. -/
theorem optimize_set3_by {env : Env K V} (he : env.Plain) {stp : St K V → Except Err (St K V)} (hi : ∀ s s', stp s = .ok s' → StepFrame env s s')
    (hb : ∀ T R, StepIgnores stp (St.withTR T R)) {T : List (Term K)} (hT : ∀ tm ∈ T, Stateless tm) :
    ∀ (fuel : ℕ) (s : St K V) (R R' : ℕ → Option (List ℕ)) (A A' : List ℕ), (∀ m, s.M ≤ m → R m = R' m) →
      optimizeBy env stp fuel (s.set3 T R A) = optimizeBy env stp fuel (s.set3 T R' A')
  | 0, _, _, _, _, _, _ => rfl
  | fuel + 1, s, R, R', A, A', hR => by
    unfold optimizeBy
    rw [select_set3 he hT, select_set3 he hT]
    show (if (actOf env s T).length = 0 then _ else _) = (if (actOf env s T).length = 0 then _ else _)
    by_cases h0 : (actOf env s T).length = 0
    · rw [if_pos h0, if_pos h0, act_nil_reason h0 hR]
    · rw [if_neg h0, if_neg h0]
      rcases round_set3_by he hi hb s T T (reasonOf env s T R) (reasonOf env s T R') (actOf env s T) with ⟨e, h1, h2⟩ | ⟨u, h1, h2, h3⟩
      · rw [h1, h2]
      · rw [h1, h2]
        rcases h3 with ⟨e, h3, h4⟩ | ⟨w, hM, h3, h4⟩
        · simp only [h3, h4]
        · simp only [h3, h4]
          exact optimize_set3_by he hi hb hT fuel w _ _ _ _ (by rw [hM]; exact reason_agree hR)

/-- A run up to the earlier bound, then one up to the later bound, against one run. -/
theorem optimize_resume_by {env : Env K V} (he : env.Plain) {stp : St K V → Except Err (St K V)} (hi : ∀ s s', stp s = .ok s' → StepFrame env s s')
    (hb : ∀ T R, StepIgnores stp (St.withTR T R)) {T T' : List (Term K)} (hT : ∀ tm ∈ T, Stateless tm)
    (hT' : ∀ tm ∈ T', Stateless tm) {a b : Term K} (hab : Later a b) :
    ∀ (fuel : ℕ) (s : St K V) (R R' : ℕ → Option (List ℕ)) (A A' : List ℕ), (∀ m, s.M ≤ m → R m = R' m) →
      (∀ s1, optimizeBy env stp fuel (s.set3 (T ++ a :: T') R A) = .done s1 → ∀ fuel2, ∃ k ≤ fuel,
        optimizeBy env stp (fuel2 + k) (s.set3 (T ++ b :: T') R' A') = optimizeBy env stp fuel2 (s1.withTerms (T ++ b :: T'))) ∧
      (∀ e, optimizeBy env stp fuel (s.set3 (T ++ a :: T') R A) = .raised e →
        optimizeBy env stp fuel (s.set3 (T ++ b :: T') R' A') = .raised e) ∧
      (optimizeBy env stp fuel (s.set3 (T ++ a :: T') R A) = .outOfFuel →
        optimizeBy env stp fuel (s.set3 (T ++ b :: T') R' A') = .outOfFuel)
  | 0, _, _, _, _, _, _ => ⟨fun _ h => (nomatch h), fun _ h => (nomatch h), fun _ => rfl⟩
  | fuel + 1, s, R, R', A, A', hR => by
    have ha : ∀ tm ∈ T ++ a :: T', Stateless tm := by
      intro tm h
      rcases List.mem_append.1 h with h | h
      · exact hT _ h
      · rcases List.mem_cons.1 h with rfl | h
        · exact (later_stateless hab).1
        · exact hT' _ h
    have hb' : ∀ tm ∈ T ++ b :: T', Stateless tm := by
      intro tm h
      rcases List.mem_append.1 h with h | h
      · exact hT _ h
      · rcases List.mem_cons.1 h with rfl | h
        · exact (later_stateless hab).2
        · exact hT' _ h
    by_cases h0 : (actOf env s (T ++ a :: T')).length = 0
    · have e1 : optimizeBy env stp (fuel + 1) (s.set3 (T ++ a :: T') R A) =
          .done (s.set3 (T ++ a :: T') (reasonOf env s (T ++ a :: T') R) (actOf env s (T ++ a :: T'))) := by
        unfold optimizeBy
        rw [select_set3 he ha]
        exact if_pos h0
      refine ⟨fun s1 h1 fuel2 => ⟨0, by omega, ?_⟩, fun e h => ?_, fun h => ?_⟩
      · rw [e1] at h1
        injection h1 with h1
        rw [← h1]
        show optimizeBy env stp fuel2 _ = optimizeBy env stp fuel2 (s.set3 (T ++ b :: T') (reasonOf env s (T ++ a :: T') R) _)
        refine optimize_set3_by he hi hb hb' fuel2 s _ _ _ _ fun m hm => ?_
        unfold reasonOf
        rw [if_neg (by omega)]
        exact (hR m hm).symm
      · rw [e1] at h; exact nomatch h
      · rw [e1] at h; exact nomatch h
    · have hact := (later_act (env := env) (s := s) hab T T').resolve_left h0
      have e1 : ∀ c R A, (∀ tm ∈ T ++ c :: T', Stateless tm) → actOf env s (T ++ c :: T') = actOf env s (T ++ a :: T') →
          ∀ fuel, optimizeBy env stp (fuel + 1) (s.set3 (T ++ c :: T') R A) =
          match stp (s.set3 (T ++ c :: T') (reasonOf env s (T ++ c :: T') R) (actOf env s (T ++ a :: T'))) with
          | .error e => .raised e
          | .ok s => match schedUpdate env s with
            | .error e => .raised e
            | .ok s => optimizeBy env stp fuel s := by
        intro c R A hc hact fuel
        conv_lhs => unfold optimizeBy
        rw [select_set3 he hc, hact]
        exact if_neg h0
      have ea := e1 a R A ha rfl
      have eb := e1 b R' A' hb' hact.symm
      rcases round_set3_by he hi hb s (T ++ a :: T') (T ++ b :: T') (reasonOf env s (T ++ a :: T') R) (reasonOf env s (T ++ b :: T') R')
        (actOf env s (T ++ a :: T')) with ⟨e, h1, h2⟩ | ⟨u, h1, h2, h3⟩
      · simp only [h1] at ea
        simp only [h2] at eb
        refine ⟨fun s1 h => ?_, fun e' h => ?_, fun h => ?_⟩
        · rw [ea] at h; exact nomatch h
        · rw [ea] at h; rw [eb]; exact h
        · rw [ea] at h; exact nomatch h
      · simp only [h1] at ea
        simp only [h2] at eb
        rcases h3 with ⟨e, h3, h4⟩ | ⟨w, hM, h3, h4⟩
        · simp only [h3] at ea
          simp only [h4] at eb
          refine ⟨fun s1 h => ?_, fun e' h => ?_, fun h => ?_⟩
          · rw [ea] at h; exact nomatch h
          · rw [ea] at h; rw [eb]; exact h
          · rw [ea] at h; exact nomatch h
        · simp only [h3] at ea
          simp only [h4] at eb
          have ih := optimize_resume_by he hi hb hT hT' hab fuel w (reasonOf env s (T ++ a :: T') R) (reasonOf env s (T ++ b :: T') R')
            (actOf env s (T ++ a :: T')) (actOf env s (T ++ a :: T')) (by rw [hM]; exact reason_agree hR)
          refine ⟨fun s1 h fuel2 => ?_, fun e' h => ?_, fun h => ?_⟩
          · rw [ea] at h
            obtain ⟨k, hk, hk'⟩ := ih.1 s1 h fuel2
            exact ⟨k + 1, by omega, by rw [← hk']; exact eb (fuel2 + k)⟩
          · rw [ea] at h; rw [eb]; exact ih.2.1 e' h
          · rw [ea] at h; rw [eb]; exact ih.2.2 h

/-- More fuel does not change a result. -/
theorem optimize_more_by {env : Env K V} {stp : St K V → Except Err (St K V)} : ∀ (fuel k : ℕ) (s : St K V),
    optimizeBy env stp fuel s ≠ .outOfFuel → optimizeBy env stp (fuel + k) s = optimizeBy env stp fuel s
  | 0, _, _, h => absurd rfl h
  | fuel + 1, k, s, h => by
    rw [show fuel + 1 + k = fuel + k + 1 by omega]
    unfold optimizeBy at h ⊢
    cases h1 : selectActive env s with
    | error e => rfl
    | ok q =>
      simp only [h1] at h ⊢
      by_cases h0 : q.active.length = 0
      · rw [if_pos h0, if_pos h0]
      · rw [if_neg h0] at h ⊢
        rw [if_neg h0]
        cases h2 : stp q with
        | error e => rfl
        | ok u =>
          simp only [h2] at h ⊢
          cases h3 : schedUpdate env u with
          | error e => rfl
          | ok w =>
            simp only [h3] at h ⊢
            exact optimize_more_by fuel k w h

/-- After a finished run no run is active. -/
theorem optimize_done_active_by {env : Env K V} {stp : St K V → Except Err (St K V)} : ∀ (fuel : ℕ) (s s' : St K V),
    optimizeBy env stp fuel s = .done s' → s'.active = []
  | 0, _, _, h => nomatch h
  | fuel + 1, s, s', h => by
    unfold optimizeBy at h
    cases h1 : selectActive env s with
    | error e => simp only [h1] at h; exact nomatch h
    | ok q =>
      simp only [h1] at h
      by_cases h0 : q.active.length = 0
      · rw [if_pos h0] at h
        injection h with h
        rw [← h]
        exact List.length_eq_zero_iff.1 h0
      · rw [if_neg h0] at h
        cases h2 : stp q with
        | error e => simp only [h2] at h; exact nomatch h
        | ok u =>
          simp only [h2] at h
          cases h3 : schedUpdate env u with
          | error e => simp only [h3] at h; exact nomatch h
          | ok w =>
            simp only [h3] at h
            exact optimize_done_active_by fuel w s' h

theorem maxIt_by (env : Env K V) (stp : St K V → Except Err (St K V)) (hi : ∀ s s', stp s = .ok s' → StepFrame env s s')
    (n : ℕ) : ∀ (fuel : ℕ) (s : St K V), Term.maxIt (some n) ∈ s.terms → n - s.it < fuel →
      (∃ e, optimizeBy env stp fuel s = .raised e) ∨
      ∃ s', optimizeBy env stp fuel s = .done s' ∧ ∃ k ≤ n - s.it, ∃ q,
        execAllBy env stp (rounds k) s = .ok q ∧ selectActive env q = .ok s' ∧ s'.it = s.it + k ∧
        s'.active = [] := by
  intro fuel
  induction fuel with
  | zero => intro s _ h; omega
  | succ fuel ih =>
    intro s hm hf
    simp only [optimizeBy]
    cases h1 : selectActive env s with
    | error e => left; exact ⟨e, rfl⟩
    | ok a =>
      simp only
      have ea := select_frame h1
      have hit : a.it = s.it := by rw [ea]
      by_cases ha : a.active.length = 0
      · right
        rw [if_pos ha]
        exact ⟨a, rfl, 0, Nat.zero_le _, s, rfl, h1, by omega, List.length_eq_zero_iff.1 ha⟩
      · rw [if_neg ha]
        obtain ⟨hma, q, hq, hnf⟩ := select_stateless_mem (tm := .maxIt (some n)) trivial hm h1
        have hlt : s.it < n := by
          obtain ⟨m, hmem⟩ := List.exists_mem_of_length_pos (Nat.pos_of_ne_zero ha)
          have := hnf m hmem
          by_contra hc
          exact this ⟨n, rfl, by rw [hq]; simpa using hc⟩
        cases h2 : stp a with
        | error e => left; exact ⟨e, rfl⟩
        | ok b =>
          simp only
          have eb := hi _ _ h2
          cases h3 : schedUpdate env b with
          | error e => left; exact ⟨e, rfl⟩
          | ok c =>
            simp only
            have ec := sched_frame h3
            have cit : c.it = s.it + 1 := by rw [ec]; simp only; rw [eb.it, hit]
            have ct : Term.maxIt (some n) ∈ c.terms := by
              rw [ec]; simp only; rw [eb.terms]; exact hma
            rcases ih c ct (by omega) with ⟨e, he⟩ | ⟨s', hs', k, hk, q', hq1, hq2, hq3, hq4⟩
            · left; exact ⟨e, he⟩
            · right
              refine ⟨s', hs', k + 1, by omega, q', ?_, hq2, by omega, hq4⟩
              rw [rounds_succ]
              simp only [List.cons_append, List.nil_append, execAllBy, execBy, bind_ok]
              exact ⟨a, h1, b, h2, c, h3, hq1⟩

theorem maxIt_exact_by (env : Env K V) (stp : St K V → Except Err (St K V))
    (hi : ∀ s s', stp s = .ok s' → StepFrame env s s') (n : ℕ) : ∀ (fuel : ℕ) (s s' : St K V), s.terms = [.maxIt (some n)] →
      0 < s.M → optimizeBy env stp fuel s = .done s' →
      ∃ q, execAllBy env stp (rounds (n - s.it)) s = .ok q ∧ selectActive env q = .ok s' ∧
        s'.it = max n s.it := by
  intro fuel
  induction fuel with
  | zero => intro s s' _ _ h; simp [optimizeBy] at h
  | succ fuel ih =>
    intro s s' ht hM h
    simp only [optimizeBy] at h
    obtain ⟨a, h1, ea, hact, -⟩ := select_stateless (env := env) (s := s)
      (by rw [ht]; intro tm htm; rw [List.mem_singleton.1 htm]; trivial)
    simp only [h1] at h
    have hit : a.it = s.it := by rw [ea]
    by_cases hn : n ≤ s.it
    · have ha : a.active.length = 0 := by
        rw [List.length_eq_zero_iff, List.eq_nil_iff_forall_not_mem]
        intro m hm
        exact ((hact m).1 hm).2 (.maxIt (some n)) (by simp [ht]) ⟨n, rfl, hn⟩
      rw [if_pos ha] at h
      injection h with h
      subst h
      refine ⟨s, ?_, h1, by omega⟩
      rw [Nat.sub_eq_zero_of_le hn]; rfl
    · have ha : ¬ a.active.length = 0 := by
        have : 0 ∈ a.active := by
          rw [hact]
          refine ⟨hM, ?_⟩
          intro tm htm
          rw [ht, List.mem_singleton] at htm
          subst htm
          rintro ⟨k, hk, hk'⟩
          injection hk with hk
          omega
        intro h0
        rw [List.length_eq_zero_iff.1 h0] at this
        simp at this
      rw [if_neg ha] at h
      cases h2 : stp a with
      | error e => simp [h2] at h
      | ok b =>
        simp only [h2] at h
        have eb := hi _ _ h2
        cases h3 : schedUpdate env b with
        | error e => simp [h3] at h
        | ok c =>
          simp only [h3] at h
          have ec := sched_frame h3
          have cit : c.it = s.it + 1 := by rw [ec]; simp only; rw [eb.it, hit]
          have ct : c.terms = [.maxIt (some n)] := by
            rw [ec]; simp only; rw [eb.terms, ea]; exact ht
          have cM : c.M = s.M := by rw [ec]; simp only; rw [eb.M, ea]
          obtain ⟨q, hq1, hq2, hq3⟩ := ih c s' ct (by omega) h
          refine ⟨q, ?_, hq2, by omega⟩
          rw [show n - s.it = (n - c.it) + 1 by omega, rounds_succ]
          simp only [List.cons_append, List.nil_append, execAllBy, execBy, bind_ok]
          exact ⟨a, h1, b, h2, c, h3, hq1⟩

theorem done_by (env : Env K V) (stp : St K V → Except Err (St K V))
    (hi : ∀ s s', stp s = .ok s' → StepFrame env s s') : ∀ (fuel : ℕ) (s s' : St K V), (∀ tm ∈ s.terms, Stateless tm) →
      (∀ i q q' m, q' = ({ q with active := q'.active, reason := q'.reason } : St K V) →
        env.custom i q m = env.custom i q' m) →
      optimizeBy env stp fuel s = .done s' →
      ∀ m < s'.M, ∃ l i tm, s'.reason m = some l ∧ i ∈ l ∧ s'.terms[i]? = some tm ∧
        Fires env s' m tm := by
  intro fuel
  induction fuel with
  | zero => intro s s' _ _ h; simp [optimizeBy] at h
  | succ fuel ih =>
    intro s s' hs hcu h m hm
    simp only [optimizeBy] at h
    obtain ⟨a, h1, ea, hact, hre, -⟩ := select_stateless (env := env) hs
    simp only [h1] at h
    split_ifs at h with ha
    · injection h with h
      subst h
      have aM : a.M = s.M := by rw [ea]
      have aT : a.terms = s.terms := by rw [ea]
      have hex : ∃ tm ∈ s.terms, Fires env s m tm := by
        by_contra hc
        have : m ∈ a.active := (hact m).2 ⟨by omega, fun tm htm hf => hc ⟨tm, htm, hf⟩⟩
        rw [List.length_eq_zero_iff.1 ha] at this
        simp at this
      obtain ⟨l, hl, hl'⟩ := hre m ⟨by omega, hex⟩
      obtain ⟨tm, htm, hf⟩ := hex
      obtain ⟨i, hi⟩ := List.mem_iff_getElem?.1 htm
      refine ⟨l, i, tm, hl, (hl' i).2 ⟨tm, hi, hf⟩, by rw [aT]; exact hi, ?_⟩
      rw [ea]
      cases tm with
      | custom i => simp only [Fires] at hf ⊢; rw [← hf]; exact (hcu i s _ m rfl).symm
      | _ => exact hf
    · cases h2 : stp a with
      | error e => simp [h2] at h
      | ok b =>
        simp only [h2] at h
        have eb := hi _ _ h2
        cases h3 : schedUpdate env b with
        | error e => simp [h3] at h
        | ok c =>
          simp only [h3] at h
          have ec := sched_frame h3
          have ct : c.terms = s.terms := by rw [ec]; simp only; rw [eb.terms, ea]
          exact ih c s' (by rw [ct]; exact hs) hcu h m hm

theorem maxTime_by {K V : Type} [Field K] [LinearOrder K] [IsStrictOrderedRing K] [Add V] [Sub V] [SMul K V] (env : Env K V) (stp : St K V → Except Err (St K V))
    (hi : ∀ s s', stp s = .ok s' → StepFrame env s s') (T : K) (hsched : ∀ s p, env.sched s = .ok p → p.dt = s.dt) :
    ∀ (fuel : ℕ) (s s' : St K V), s.terms = [.maxTime T] → 0 < s.M → 0 < s.dt →
      optimizeBy env stp fuel s = .done s' →
      T ≤ s'.t ∧ s'.dt = s.dt ∧ (s.t < T → s'.t < T + s.dt) ∧ (T ≤ s.t → s'.t = s.t) ∧
      ∃ k : ℕ, s'.t = s.t + k * s.dt ∧ s'.it = s.it + k := by
  intro fuel
  induction fuel with
  | zero => intro s s' _ _ _ h; simp [optimizeBy] at h
  | succ fuel ih =>
    intro s s' ht hM hdt h
    simp only [optimizeBy] at h
    obtain ⟨a, h1, ea, hact, -⟩ := select_stateless (env := env) (s := s)
      (by rw [ht]; intro tm htm; rw [List.mem_singleton.1 htm]; trivial)
    simp only [h1] at h
    have at' : a.t = s.t := by rw [ea]
    have adt : a.dt = s.dt := by rw [ea]
    have ait : a.it = s.it := by rw [ea]
    by_cases hT : s.t < T
    · have ha : ¬ a.active.length = 0 := by
        have : 0 ∈ a.active := by
          rw [hact]
          refine ⟨hM, ?_⟩
          intro tm htm
          rw [ht, List.mem_singleton] at htm
          subst htm
          exact not_not_intro hT
        intro h0
        rw [List.length_eq_zero_iff.1 h0] at this
        simp at this
      rw [if_neg ha] at h
      cases h2 : stp a with
      | error e => simp [h2] at h
      | ok b =>
        simp only [h2] at h
        have eb := hi _ _ h2
        cases h3 : schedUpdate env b with
        | error e => simp [h3] at h
        | ok c =>
          simp only [h3] at h
          have ec := sched_frame h3
          have cdt : c.dt = s.dt := by
            simp only [schedUpdate, bind_ok, pure_ok] at h3
            obtain ⟨p, hp, rfl⟩ := h3
            simp only
            rw [hsched _ _ hp, eb.dt, adt]
          have ct : c.t = s.t + s.dt := by rw [ec]; simp only; rw [eb.t, at', adt]
          have cit : c.it = s.it + 1 := by rw [ec]; simp only; rw [eb.it, ait]
          have cterm : c.terms = [.maxTime T] := by rw [ec]; simp only; rw [eb.terms, ea]; exact ht
          have cM : c.M = s.M := by rw [ec]; simp only; rw [eb.M, ea]
          obtain ⟨i1, i2, i3, i4, k, i5, i6⟩ := ih c s' cterm (by omega) (by rw [cdt]; exact hdt) h
          rw [ct, cdt] at i5
          refine ⟨i1, by rw [i2, cdt], fun _ => ?_, fun hc => absurd hT (not_lt.2 hc), k + 1, ?_, by omega⟩
          · rcases lt_or_ge c.t T with hc | hc
            · rw [← cdt]; exact i3 hc
            · rw [i4 hc, ct]; linarith
          · rw [i5]; push_cast; ring
    · have ha : a.active.length = 0 := by
        rw [List.length_eq_zero_iff, List.eq_nil_iff_forall_not_mem]
        intro m hm
        exact ((hact m).1 hm).2 (.maxTime T) (by simp [ht]) hT
      rw [if_pos ha] at h
      injection h with h
      subst h
      refine ⟨by rw [at']; exact not_lt.1 hT, adt, fun hc => absurd hc hT, fun _ => at', 0, ?_, by omega⟩
      rw [at']; simp

/-! ### The step of `CBOMemory` -/

theorem memStep_frame {env : Env K V} {lm sm : K} {s s' : St K V} (h : memStep env lm sm s = .ok s') : StepFrame env s s' := by
  simp only [memStep, bind_ok] at h
  obtain ⟨v, h1, h2⟩ := h
  have e1 := preStep_frame env s
  have e2 := memInner_frame env lm sm _ _ h1
  have e3 := (memPostStep_best h2).frame
  constructor
  all_goals rw [e3]
  all_goals simp only
  all_goals rw [e2]
  all_goals simp only
  all_goals rw [e1]

variable {g : List (Term K) → List (Term K)} {h : (ℕ → Option (List ℕ)) → ℕ → Option (List ℕ)}

theorem memInner_tweak {env : Env K V} (he : env.Ignores (St.tweak id g h)) (lm sm : K) :
    StepIgnores (memInner env lm sm) (St.tweak id g h) := by
  have h1 : StepIgnores (memConsensus env) (St.tweak id g h) := fun s =>
    bind_map_congr fun yb => bind_map_congr fun w => bind_map_congr fun wx => rfl
  have h2 : StepIgnores (memoryStep env lm sm) (St.tweak id g h) := by
    intro s
    refine bind_map_congr fun xp => bind_map_congr fun yp => bind_map_congr fun d => ?_
    refine (congrArg (fun z => z >>= _) (he.noise { s with drift := some d })).trans ?_
    exact bind_map_congr fun n => bind_map_congr fun u => bind_map_congr fun x => rfl
  have h3 : StepIgnores (memUpdate env) (St.tweak id g h) := fun s =>
    bind_map_congr fun xp => bind_map_congr fun b => bind_map_congr fun yp => bind_map_congr fun d => bind_map_congr fun u =>
      bind_map_congr fun y => bind_map_congr fun en => rfl
  intro s
  unfold memInner
  rw [h1]
  refine bind_ignores fun s => ?_
  rw [cboMove_tweak he]
  refine bind_ignores fun s => ?_
  rw [h2]
  exact bind_ignores h3

theorem memPostStep_tweak {env : Env K V} (he : env.Ignores (St.tweak id g h)) : StepIgnores (memPostStep env) (St.tweak id g h) := by
  have hb : StepIgnores (memBestCur (K := K) (V := V)) (St.tweak id g h) := by
    intro s
    unfold memBestCur
    by_cases c : s.energy.cols = 0
    · rw [if_pos c, if_pos (show (s.tweak id g h).energy.cols = 0 from c)]
      rfl
    · rw [if_neg c, if_neg (show ¬ (s.tweak id g h).energy.cols = 0 from c)]
      rfl
  intro s
  simp only [memPostStep, he.post]
  cases env.post s with
  | error e => rfl
  | ok x =>
    show (updateDiff env (St.tweak id g h { s with x := x }) >>= _) = _
    rw [updateDiff_tweak]
    show _ = Except.map _ (updateDiff env { s with x := x } >>= _)
    refine bind_ignores fun s => ?_
    rw [hb]
    refine bind_ignores fun s => ?_
    show (track (St.tweak id g h (updateBest s)) >>= _) = _
    rw [track_tweak]
    exact bind_ignores fun s => rfl

theorem memStep_tweak {env : Env K V} (he : env.Plain) (lm sm : K) (T : List (Term K)) (R : ℕ → Option (List ℕ)) :
    StepIgnores (memStep env lm sm) (St.withTR T R) := by
  have key : StepIgnores (memStep env lm sm) (St.tweak id (fun _ => T) (fun _ => R)) := by
    intro s
    simp only [memStep]
    rw [preStep_tweak, memInner_tweak (he.ignores T R)]
    exact bind_ignores (memPostStep_tweak (he.ignores T R))
  exact key

/-! ### A finished loop as a sequence of operations -/

theorem live_append {env : Env K V} {stp : St K V → Except Err (St K V)} : ∀ {l l' : List Op} {s q : St K V}, Live env stp l s →
    execAllBy env stp l s = .ok q → Live env stp l' q → Live env stp (l ++ l') s
  | [], l', s, q, _, h, h' => by
    simp only [execAllBy] at h
    injection h with h
    subst h
    exact h'
  | o :: l, l', s, q, hl, h, h' => by
    simp only [execAllBy, bind_ok] at h
    obtain ⟨a, ha, h⟩ := h
    refine ⟨hl.1, fun s' hs' => ?_⟩
    rw [ha] at hs'
    injection hs' with hs'
    subst hs'
    exact live_append (hl.2 a ha) h h'

theorem execAllBy_append {env : Env K V} {stp : St K V → Except Err (St K V)} : ∀ {l l' : List Op} {s q r : St K V},
    execAllBy env stp l s = .ok q → execAllBy env stp l' q = .ok r → execAllBy env stp (l ++ l') s = .ok r
  | [], l', s, q, r, h, h' => by
    simp only [execAllBy] at h
    injection h with h
    subst h
    exact h'
  | o :: l, l', s, q, r, h, h' => by
    simp only [execAllBy, bind_ok, List.cons_append] at h ⊢
    obtain ⟨a, ha, h⟩ := h
    exact ⟨a, ha, execAllBy_append h h'⟩

theorem rounds_count (k : ℕ) : (rounds k).count .step = k := by
  induction k with
  | zero => rfl
  | succ k ih =>
    rw [rounds_succ, List.count_append, ih]
    simp
    omega

/-- A call of `optimize` that returns is a sequence of rounds, each step made with an active run, and a last check. -/
theorem optimizeBy_done {env : Env K V} {stp : St K V → Except Err (St K V)} (hi : ∀ s s', stp s = .ok s' → StepFrame env s s') :
    ∀ {fuel : ℕ} {s s' : St K V}, optimizeBy env stp fuel s = .done s' →
      ∃ k q, execAllBy env stp (rounds k) s = .ok q ∧ Live env stp (rounds k) s ∧ selectActive env q = .ok s' ∧ s'.active = [] ∧
        s'.it = s.it + k
  | 0, _, _, h => nomatch h
  | fuel + 1, s, s', h => by
    unfold optimizeBy at h
    cases h1 : selectActive env s with
    | error e => simp only [h1] at h; exact nomatch h
    | ok a =>
      have ea := select_frame h1
      simp only [h1] at h
      by_cases h0 : a.active.length = 0
      · rw [if_pos h0] at h
        injection h with h
        subst h
        exact ⟨0, s, rfl, trivial, h1, List.length_eq_zero_iff.1 h0, by rw [ea]; rfl⟩
      · rw [if_neg h0] at h
        cases h2 : stp a with
        | error e => simp only [h2] at h; exact nomatch h
        | ok b =>
          simp only [h2] at h
          cases h3 : schedUpdate env b with
          | error e => simp only [h3] at h; exact nomatch h
          | ok c =>
            simp only [h3] at h
            obtain ⟨k, q, i1, i2, i3, i4, i5⟩ := optimizeBy_done hi h
            have hseq : execAllBy env stp [.select, .step, .sched] s = .ok c := by
              simp only [execAllBy, execBy, bind_ok]
              exact ⟨a, h1, b, h2, c, h3, rfl⟩
            have hlive : Live env stp [.select, .step, .sched] s := by
              refine ⟨nofun, fun a' h1' => ⟨fun _ => ?_, fun b' h2' => ⟨nofun, fun _ _ => trivial⟩⟩⟩
              rw [show execBy env stp .select s = selectActive env s from rfl, h1] at h1'
              injection h1' with h1'
              subst h1'
              exact fun hc => h0 (by rw [hc]; rfl)
            refine ⟨k + 1, q, execAllBy_append hseq i1, live_append hlive hseq i2, i3, i4, ?_⟩
            rw [i5, sched_frame h3]
            show b.it + k = _
            rw [(hi _ _ h2).it, ea]
            show s.it + 1 + k = _
            omega

theorem optimizeBy_ops {env : Env K V} {stp : St K V → Except Err (St K V)} (hi : ∀ s s', stp s = .ok s' → StepFrame env s s')
    {fuel : ℕ} {s s' : St K V} (h : optimizeBy env stp fuel s = .done s') :
    ∃ ops, execAllBy env stp ops s = .ok s' ∧ Live env stp ops s ∧ s'.active = [] ∧ s'.it = s.it + ops.count .step := by
  obtain ⟨k, q, i1, i2, i3, i4, i5⟩ := optimizeBy_done hi h
  refine ⟨rounds k ++ [.select], execAllBy_append i1 ?_, live_append i2 i1 ⟨nofun, fun _ _ => trivial⟩, i4, ?_⟩
  · simp only [execAllBy, execBy, bind_ok]
    exact ⟨s', i3, rfl⟩
  · rw [i5, List.count_append, rounds_count]
    rfl

theorem psoStep_frame {env : Env K V} {p : PsoPar K} {s s' : St K V} (h : psoStep env p s = .ok s') : StepFrame env s s' :=
  step_frame (psoInner_frame env p) h

end Verif
