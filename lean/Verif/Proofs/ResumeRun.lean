import Verif.Proofs.Resume

/-! Helper lemmas: whole runs of `optimize` with changed criteria. -/

set_option linter.unusedSectionVars false

namespace Verif

variable {K V : Type} [Zero K] [One K] [Neg K] [Add K] [Sub K] [Mul K] [Inv K] [Div K] [NatCast K] [Pow K ℕ] [LinearOrder K] [Add V] [Sub V] [SMul K V]

/-- The flags of stateless criteria. -/
def flags (env : Env K V) (s : St K V) (T : List (Term K)) : List (ℕ → Bool) :=
  T.map fun tm => match evalTerm env tm s with | .ok v => v.1 | .error _ => fun _ => false

/-- The state with criteria, reasons and active runs replaced. -/
def St.set3 (T : List (Term K)) (R : ℕ → Option (List ℕ)) (A : List ℕ) (s : St K V) : St K V :=
  { s with terms := T, reason := R, active := A }

/-- The runs that stay active. -/
def actOf (env : Env K V) (s : St K V) (T : List (Term K)) : List ℕ :=
  (List.range s.M).filter fun m => (flags env s T).all fun b => !b m

/-- The reasons after the check. -/
def reasonOf (env : Env K V) (s : St K V) (T : List (Term K)) (R : ℕ → Option (List ℕ)) : ℕ → Option (List ℕ) := fun m =>
  if m < s.M ∧ (flags env s T).any (fun b => b m) = true then some (firing (flags env s T) m) else R m

theorem evalTerms_flags {env : Env K V} {T : List (Term K)} (hT : ∀ tm ∈ T, Stateless tm) (s : St K V) :
    evalTerms env T s = .ok (flags env s T, T, s) := by
  induction T with
  | nil => rfl
  | cons tm l ih =>
    obtain ⟨b, hb, -⟩ := evalTerm_stateless (env := env) (hT tm (by simp)) s
    have := ih fun t ht => hT t (by simp [ht])
    simp only [evalTerms, hb, this, bind, Except.bind, pure, Except.pure, flags, List.map_cons]

theorem flags_set3 {env : Env K V} (he : env.Plain) (s : St K V) (T T' : List (Term K)) (hT : ∀ tm ∈ T, Stateless tm) (R A) :
    flags env (s.set3 T' R A) T = flags env s T := by
  unfold flags
  refine List.map_congr_left fun tm htm => ?_
  cases tm with
  | energyStag p th l => exact absurd (hT _ htm) (by simp [Stateless])
  | custom i =>
    funext m
    show env.custom i { St.withTR T' R s with active := A } m = env.custom i s m
    rw [he.custom, he.customTR]
  | maxIt b => cases b <;> rfl
  | _ => rfl

theorem select_set3 {env : Env K V} (he : env.Plain) {T : List (Term K)} (hT : ∀ tm ∈ T, Stateless tm) (s : St K V) (R A) :
    selectActive env (s.set3 T R A) = .ok (s.set3 T (reasonOf env s T R) (actOf env s T)) := by
  unfold selectActive
  rw [show (s.set3 T R A).terms = T from rfl, evalTerms_flags hT, flags_set3 he s T T hT]
  rfl

theorem act_nil_reason {env : Env K V} {s : St K V} {T : List (Term K)} {R R' : ℕ → Option (List ℕ)} (h : (actOf env s T).length = 0)
    (hR : ∀ m, s.M ≤ m → R m = R' m) : reasonOf env s T R = reasonOf env s T R' := by
  funext m
  unfold reasonOf
  by_cases c : m < s.M ∧ (flags env s T).any (fun b => b m) = true
  · rw [if_pos c, if_pos c]
  · rw [if_neg c, if_neg c]
    refine hR m ?_
    by_contra hm
    push Not at hm
    have h1 : (flags env s T).any (fun b => b m) = false := by
      simpa [hm] using c
    have : m ∈ actOf env s T := by
      rw [actOf, List.mem_filter, all_not_any, h1]
      exact ⟨List.mem_range.2 hm, rfl⟩
    rw [List.length_eq_zero_iff.1 h] at this
    exact absurd this (by simp)

theorem reason_agree {env : Env K V} {s : St K V} {T T' : List (Term K)} {R R' : ℕ → Option (List ℕ)}
    (hR : ∀ m, s.M ≤ m → R m = R' m) (m : ℕ) (hm : s.M ≤ m) : reasonOf env s T R m = reasonOf env s T' R' m := by
  unfold reasonOf
  rw [if_neg (by omega), if_neg (by omega)]
  exact hR m hm

/-- What one round (`step`, `sched.update`) does for two choices of criteria and reasons. -/
theorem round_set3 {env : Env K V} (he : env.Plain) {inner : St K V → Except Err (St K V)} (hi : InnerFrame inner)
    (hb : ∀ T R, StepIgnores inner (St.withTR T R)) (s : St K V) (T T' : List (Term K)) (R R' : ℕ → Option (List ℕ)) (A : List ℕ) :
    (∃ e, step env inner (s.set3 T R A) = .error e ∧ step env inner (s.set3 T' R' A) = .error e) ∨
    ∃ u, step env inner (s.set3 T R A) = .ok u ∧ step env inner (s.set3 T' R' A) = .ok (u.withTR T' R') ∧
      ((∃ e, schedUpdate env u = .error e ∧ schedUpdate env (u.withTR T' R') = .error e) ∨
        ∃ w : St K V, w.M = s.M ∧ schedUpdate env u = .ok (w.set3 T R A) ∧ schedUpdate env (u.withTR T' R') = .ok (w.set3 T' R' A)) := by
  have h1 : s.set3 T' R' A = (s.set3 T R A).withTR T' R' := rfl
  have h2 : step env inner (s.set3 T' R' A) = (step env inner (s.set3 T R A)).map (St.withTR T' R') := by
    rw [h1]
    exact step_tweak (f := id) (g := fun _ => T') (h := fun _ => R') (he.ignores T' R') (hb T' R') (s.set3 T R A)
  cases hs : step env inner (s.set3 T R A) with
  | error e => exact .inl ⟨e, rfl, by rw [h2, hs]; rfl⟩
  | ok u =>
    refine .inr ⟨u, rfl, by rw [h2, hs]; rfl, ?_⟩
    have fr := step_frame hi hs
    have e1 : u.terms = T := fr.terms
    have e2 : u.reason = R := fr.reason
    have e3 : u.active = A := fr.active
    have e4 : u.M = s.M := fr.M
    simp only [schedUpdate, he.sched]
    cases env.sched u with
    | error e => exact .inl ⟨e, rfl, rfl⟩
    | ok p =>
      refine .inr ⟨{ u with alpha := p.alpha, lamda := p.lamda, sigma := p.sigma, dt := p.dt }, e4, ?_, ?_⟩
      · rw [← e1, ← e2, ← e3]; rfl
      · rw [← e3]; rfl

/-- Reasons and active runs of the past do not matter for a run with stateless criteria. -/
theorem optimize_set3 {env : Env K V} (he : env.Plain) {inner : St K V → Except Err (St K V)} (hi : InnerFrame inner)
    (hb : ∀ T R, StepIgnores inner (St.withTR T R)) {T : List (Term K)} (hT : ∀ tm ∈ T, Stateless tm) :
    ∀ (fuel : ℕ) (s : St K V) (R R' : ℕ → Option (List ℕ)) (A A' : List ℕ), (∀ m, s.M ≤ m → R m = R' m) →
      optimize env inner fuel (s.set3 T R A) = optimize env inner fuel (s.set3 T R' A')
  | 0, _, _, _, _, _, _ => rfl
  | fuel + 1, s, R, R', A, A', hR => by
    unfold optimize
    rw [select_set3 he hT, select_set3 he hT]
    show (if (actOf env s T).length = 0 then _ else _) = (if (actOf env s T).length = 0 then _ else _)
    by_cases h0 : (actOf env s T).length = 0
    · rw [if_pos h0, if_pos h0, act_nil_reason h0 hR]
    · rw [if_neg h0, if_neg h0]
      rcases round_set3 he hi hb s T T (reasonOf env s T R) (reasonOf env s T R') (actOf env s T) with ⟨e, h1, h2⟩ | ⟨u, h1, h2, h3⟩
      · rw [h1, h2]
      · rw [h1, h2]
        rcases h3 with ⟨e, h3, h4⟩ | ⟨w, hM, h3, h4⟩
        · simp only [h3, h4]
        · simp only [h3, h4]
          exact optimize_set3 he hi hb hT fuel w _ _ _ _ (by rw [hM]; exact reason_agree hR)

/-- Before the earlier bound is reached, the active runs are the same. -/
theorem later_act {env : Env K V} {s : St K V} {a b : Term K} (h : Later a b) (T T' : List (Term K)) :
    (actOf env s (T ++ a :: T')).length = 0 ∨ actOf env s (T ++ a :: T') = actOf env s (T ++ b :: T') := by
  have key : (∀ m, (flags env s [a]).all (fun b => !b m) = false) ∨
      (∀ m, (flags env s [a]).all (fun b => !b m) = true ∧ (flags env s [b]).all (fun b => !b m) = true) := by
    cases h with
    | @maxIt n n' h =>
      by_cases c : n ≤ s.it
      · exact .inl fun m => by simp [flags, evalTerm, pure, Except.pure, c]
      · exact .inr fun m => by
          have : ¬ n' ≤ s.it := by omega
          simp [flags, evalTerm, pure, Except.pure, c, this]
    | maxItNone n =>
      by_cases c : n ≤ s.it
      · exact .inl fun m => by simp [flags, evalTerm, pure, Except.pure, c]
      · exact .inr fun m => by simp [flags, evalTerm, pure, Except.pure, c]
    | @maxTime n n' h =>
      by_cases c : n ≤ s.t
      · exact .inl fun m => by simp [flags, evalTerm, pure, Except.pure, c]
      · exact .inr fun m => by
          have : ¬ n' ≤ s.t := fun h' => c (h.trans h')
          simp [flags, evalTerm, pure, Except.pure, c, this]
  have split : ∀ c : Term K, flags env s (T ++ c :: T') = flags env s T ++ (flags env s [c] ++ flags env s T') := by
    intro c
    simp [flags]
  rcases key with hk | hk
  · left
    rw [List.length_eq_zero_iff, actOf, List.filter_eq_nil_iff]
    intro m _
    rw [split, List.all_append, List.all_append, hk m]
    simp
  · right
    unfold actOf
    refine List.filter_congr fun m _ => ?_
    rw [split, split, List.all_append, List.all_append, List.all_append, List.all_append, (hk m).1, (hk m).2]

theorem later_stateless {a b : Term K} (h : Later a b) : Stateless a ∧ Stateless b := by
  cases h <;> exact ⟨trivial, trivial⟩

/-- A run up to the earlier bound, then one up to the later bound, against one run. -/
theorem optimize_resume {env : Env K V} (he : env.Plain) {inner : St K V → Except Err (St K V)} (hi : InnerFrame inner)
    (hb : ∀ T R, StepIgnores inner (St.withTR T R)) {T T' : List (Term K)} (hT : ∀ tm ∈ T, Stateless tm)
    (hT' : ∀ tm ∈ T', Stateless tm) {a b : Term K} (hab : Later a b) :
    ∀ (fuel : ℕ) (s : St K V) (R R' : ℕ → Option (List ℕ)) (A A' : List ℕ), (∀ m, s.M ≤ m → R m = R' m) →
      (∀ s1, optimize env inner fuel (s.set3 (T ++ a :: T') R A) = .done s1 → ∀ fuel2, ∃ k ≤ fuel,
        optimize env inner (fuel2 + k) (s.set3 (T ++ b :: T') R' A') = optimize env inner fuel2 (s1.withTerms (T ++ b :: T'))) ∧
      (∀ e, optimize env inner fuel (s.set3 (T ++ a :: T') R A) = .raised e →
        optimize env inner fuel (s.set3 (T ++ b :: T') R' A') = .raised e) ∧
      (optimize env inner fuel (s.set3 (T ++ a :: T') R A) = .outOfFuel →
        optimize env inner fuel (s.set3 (T ++ b :: T') R' A') = .outOfFuel)
  | 0, _, _, _, _, _, _ => ⟨fun _ h => (nomatch h), fun _ h => (nomatch h), fun _ => rfl⟩
  | fuel + 1, s, R, R', A, A', hR => by
    have ha : ∀ tm ∈ T ++ a :: T', Stateless tm := by
      intro tm h
      rcases List.mem_append.1 h with h | h
      · exact hT _ h
      · rcases List.mem_cons.1 h with rfl | h
        · exact (later_stateless hab).1
        · exact hT' _ h
    have hb' : ∀ tm ∈ T ++ b :: T', Stateless tm := by
      intro tm h
      rcases List.mem_append.1 h with h | h
      · exact hT _ h
      · rcases List.mem_cons.1 h with rfl | h
        · exact (later_stateless hab).2
        · exact hT' _ h
    by_cases h0 : (actOf env s (T ++ a :: T')).length = 0
    · have e1 : optimize env inner (fuel + 1) (s.set3 (T ++ a :: T') R A) =
          .done (s.set3 (T ++ a :: T') (reasonOf env s (T ++ a :: T') R) (actOf env s (T ++ a :: T'))) := by
        unfold optimize
        rw [select_set3 he ha]
        exact if_pos h0
      refine ⟨fun s1 h1 fuel2 => ⟨0, by omega, ?_⟩, fun e h => ?_, fun h => ?_⟩
      · rw [e1] at h1
        injection h1 with h1
        rw [← h1]
        show optimize env inner fuel2 _ = optimize env inner fuel2 (s.set3 (T ++ b :: T') (reasonOf env s (T ++ a :: T') R) _)
        refine optimize_set3 he hi hb hb' fuel2 s _ _ _ _ fun m hm => ?_
        unfold reasonOf
        rw [if_neg (by omega)]
        exact (hR m hm).symm
      · rw [e1] at h; exact nomatch h
      · rw [e1] at h; exact nomatch h
    · have hact := (later_act (env := env) (s := s) hab T T').resolve_left h0
      have e1 : ∀ c R A, (∀ tm ∈ T ++ c :: T', Stateless tm) → actOf env s (T ++ c :: T') = actOf env s (T ++ a :: T') →
          ∀ fuel, optimize env inner (fuel + 1) (s.set3 (T ++ c :: T') R A) =
          match step env inner (s.set3 (T ++ c :: T') (reasonOf env s (T ++ c :: T') R) (actOf env s (T ++ a :: T'))) with
          | .error e => .raised e
          | .ok s => match schedUpdate env s with
            | .error e => .raised e
            | .ok s => optimize env inner fuel s := by
        intro c R A hc hact fuel
        conv_lhs => unfold optimize
        rw [select_set3 he hc, hact]
        exact if_neg h0
      have ea := e1 a R A ha rfl
      have eb := e1 b R' A' hb' hact.symm
      rcases round_set3 he hi hb s (T ++ a :: T') (T ++ b :: T') (reasonOf env s (T ++ a :: T') R) (reasonOf env s (T ++ b :: T') R')
        (actOf env s (T ++ a :: T')) with ⟨e, h1, h2⟩ | ⟨u, h1, h2, h3⟩
      · simp only [h1] at ea
        simp only [h2] at eb
        refine ⟨fun s1 h => ?_, fun e' h => ?_, fun h => ?_⟩
        · rw [ea] at h; exact nomatch h
        · rw [ea] at h; rw [eb]; exact h
        · rw [ea] at h; exact nomatch h
      · simp only [h1] at ea
        simp only [h2] at eb
        rcases h3 with ⟨e, h3, h4⟩ | ⟨w, hM, h3, h4⟩
        · simp only [h3] at ea
          simp only [h4] at eb
          refine ⟨fun s1 h => ?_, fun e' h => ?_, fun h => ?_⟩
          · rw [ea] at h; exact nomatch h
          · rw [ea] at h; rw [eb]; exact h
          · rw [ea] at h; exact nomatch h
        · simp only [h3] at ea
          simp only [h4] at eb
          have ih := optimize_resume he hi hb hT hT' hab fuel w (reasonOf env s (T ++ a :: T') R) (reasonOf env s (T ++ b :: T') R')
            (actOf env s (T ++ a :: T')) (actOf env s (T ++ a :: T')) (by rw [hM]; exact reason_agree hR)
          refine ⟨fun s1 h fuel2 => ?_, fun e' h => ?_, fun h => ?_⟩
          · rw [ea] at h
            obtain ⟨k, hk, hk'⟩ := ih.1 s1 h fuel2
            exact ⟨k + 1, by omega, by rw [← hk']; exact eb (fuel2 + k)⟩
          · rw [ea] at h; rw [eb]; exact ih.2.1 e' h
          · rw [ea] at h; rw [eb]; exact ih.2.2 h

/-- More fuel does not change a result. -/
theorem optimize_more {env : Env K V} {inner : St K V → Except Err (St K V)} : ∀ (fuel k : ℕ) (s : St K V),
    optimize env inner fuel s ≠ .outOfFuel → optimize env inner (fuel + k) s = optimize env inner fuel s
  | 0, _, _, h => absurd rfl h
  | fuel + 1, k, s, h => by
    rw [show fuel + 1 + k = fuel + k + 1 by omega]
    unfold optimize at h ⊢
    cases h1 : selectActive env s with
    | error e => rfl
    | ok q =>
      simp only [h1] at h ⊢
      by_cases h0 : q.active.length = 0
      · rw [if_pos h0, if_pos h0]
      · rw [if_neg h0] at h ⊢
        rw [if_neg h0]
        cases h2 : step env inner q with
        | error e => rfl
        | ok u =>
          simp only [h2] at h ⊢
          cases h3 : schedUpdate env u with
          | error e => rfl
          | ok w =>
            simp only [h3] at h ⊢
            exact optimize_more fuel k w h

/-- After a finished run no run is active. -/
theorem optimize_done_active {env : Env K V} {inner : St K V → Except Err (St K V)} : ∀ (fuel : ℕ) (s s' : St K V),
    optimize env inner fuel s = .done s' → s'.active = []
  | 0, _, _, h => nomatch h
  | fuel + 1, s, s', h => by
    unfold optimize at h
    cases h1 : selectActive env s with
    | error e => simp only [h1] at h; exact nomatch h
    | ok q =>
      simp only [h1] at h
      by_cases h0 : q.active.length = 0
      · rw [if_pos h0] at h
        injection h with h
        rw [← h]
        exact List.length_eq_zero_iff.1 h0
      · rw [if_neg h0] at h
        cases h2 : step env inner q with
        | error e => simp only [h2] at h; exact nomatch h
        | ok u =>
          simp only [h2] at h
          cases h3 : schedUpdate env u with
          | error e => simp only [h3] at h; exact nomatch h
          | ok w =>
            simp only [h3] at h
            exact optimize_done_active fuel w s' h

/-- With no active run, the stagnation criterion raises; so does the loop over the criteria. -/
theorem stag_inactive {env : Env K V} {p : ℕ} {th : Flt K} {L : Option (ℕ → ℕ → Flt K)} : ∀ {T : List (Term K)} {s : St K V},
    .energyStag p th L ∈ T → s.active = [] → (∃ c, s.cons = some c) → ∃ e, evalTerms env T s = .error e
  | [], _, h, _, _ => absurd h (by simp)
  | tm :: T, s, h, ha, ⟨c, hc⟩ => by
    have hraise : ∀ p th L, ∃ e, evalTerm env (.energyStag p th L) s = .error e := by
      intro p th L
      simp only [evalTerm, evalStag, hc, ha]
      rw [if_pos (by simp)]
      by_cases hp : p = 0
      · rw [if_pos hp]; exact ⟨_, rfl⟩
      · rw [if_neg hp, if_neg (by simp)]; exact ⟨_, rfl⟩
    by_cases hs : Stateless tm
    · obtain ⟨b, hb, -⟩ := evalTerm_stateless (env := env) hs s
      have hm : .energyStag p th L ∈ T := by
        rcases List.mem_cons.1 h with h | h
        · rw [← h] at hs; exact absurd hs (by simp [Stateless])
        · exact h
      obtain ⟨e, he⟩ := stag_inactive (env := env) hm ha ⟨c, hc⟩
      exact ⟨e, by simp only [evalTerms, hb, he, bind, Except.bind]⟩
    · cases tm with
      | energyStag p th L =>
        obtain ⟨e, he⟩ := hraise p th L
        exact ⟨e, by simp only [evalTerms, he, bind, Except.bind]⟩
      | _ => exact absurd trivial hs

end Verif
