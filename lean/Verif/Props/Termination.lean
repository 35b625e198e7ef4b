import Verif.Proofs.Term
import Verif.Spec.Example

/-! Properties C01, C02, C05: the termination contract of `optimize`. -/

set_option linter.unusedSectionVars false

namespace Verif

variable {K V : Type} [Zero K] [One K] [Neg K] [Add K] [Sub K] [Mul K] [Inv K] [Div K] [NatCast K] [Pow K ℕ] [LinearOrder K] [Add V] [Sub V] [SMul K V]

/-- `k` loop iterations of `optimize`: check, step, scheduler. -/
def rounds (k : ℕ) : List Op := (List.replicate k [Op.select, Op.step, Op.sched]).flatten

/-- One iteration more. -/
theorem rounds_succ (k : ℕ) : rounds (k + 1) = [Op.select, Op.step, Op.sched] ++ rounds k := rfl

/-- **C01 (bound and termination).** With a `max_it = n` criterion among the criteria, `optimize` never runs
forever, whatever the dynamic, objective, noise and other criteria: within `n - it + 1` evaluations of the loop
condition it has returned or raised; and if it returns it has executed some number `k ≤ n - it` of steps (as a
sequence of public operations), after which `it = it₀ + k`. -/
theorem C01_max_it (env : Env K V) (inner : St K V → Except Err (St K V)) (hi : InnerFrame inner)
    (n : ℕ) : ∀ (fuel : ℕ) (s : St K V), Term.maxIt (some n) ∈ s.terms → n - s.it < fuel →
      (∃ e, optimize env inner fuel s = .raised e) ∨
      ∃ s', optimize env inner fuel s = .done s' ∧ ∃ k ≤ n - s.it, ∃ q,
        execAll env inner (rounds k) s = .ok q ∧ selectActive env q = .ok s' ∧ s'.it = s.it + k ∧
        s'.active = [] := by
  intro fuel
  induction fuel with
  | zero => intro s _ h; omega
  | succ fuel ih =>
    intro s hm hf
    simp only [optimize]
    cases h1 : selectActive env s with
    | error e => left; exact ⟨e, rfl⟩
    | ok a =>
      simp only
      have ea := select_frame h1
      have hit : a.it = s.it := by rw [ea]
      by_cases ha : a.active.length = 0
      · right
        rw [if_pos ha]
        exact ⟨a, rfl, 0, Nat.zero_le _, s, rfl, h1, by omega, List.length_eq_zero_iff.1 ha⟩
      · rw [if_neg ha]
        obtain ⟨hma, q, hq, hnf⟩ := select_stateless_mem (tm := .maxIt (some n)) trivial hm h1
        have hlt : s.it < n := by
          obtain ⟨m, hmem⟩ := List.exists_mem_of_length_pos (Nat.pos_of_ne_zero ha)
          have := hnf m hmem
          by_contra hc
          exact this ⟨n, rfl, by rw [hq]; simpa using hc⟩
        cases h2 : step env inner a with
        | error e => left; exact ⟨e, rfl⟩
        | ok b =>
          simp only
          have eb := step_frame hi h2
          cases h3 : schedUpdate env b with
          | error e => left; exact ⟨e, rfl⟩
          | ok c =>
            simp only
            have ec := sched_frame h3
            have cit : c.it = s.it + 1 := by rw [ec]; simp only; rw [eb.it, hit]
            have ct : Term.maxIt (some n) ∈ c.terms := by
              rw [ec]; simp only; rw [eb.terms]; exact hma
            rcases ih c ct (by omega) with ⟨e, he⟩ | ⟨s', hs', k, hk, q', hq1, hq2, hq3, hq4⟩
            · left; exact ⟨e, he⟩
            · right
              refine ⟨s', hs', k + 1, by omega, q', ?_, hq2, by omega, hq4⟩
              rw [rounds_succ]
              simp only [List.cons_append, List.nil_append, execAll, exec, bind_ok]
              exact ⟨a, h1, b, h2, c, h3, hq1⟩

/-- **C01 (exact count).** If `max_it = n` is the only criterion and there is at least one run, an `optimize`
that returns has executed exactly `n - it` steps. -/
theorem C01_max_it_exact (env : Env K V) (inner : St K V → Except Err (St K V))
    (hi : InnerFrame inner) (n : ℕ) : ∀ (fuel : ℕ) (s s' : St K V), s.terms = [.maxIt (some n)] →
      0 < s.M → optimize env inner fuel s = .done s' →
      ∃ q, execAll env inner (rounds (n - s.it)) s = .ok q ∧ selectActive env q = .ok s' ∧
        s'.it = max n s.it := by
  intro fuel
  induction fuel with
  | zero => intro s s' _ _ h; simp [optimize] at h
  | succ fuel ih =>
    intro s s' ht hM h
    simp only [optimize] at h
    obtain ⟨a, h1, ea, hact, -⟩ := select_stateless (env := env) (s := s)
      (by rw [ht]; intro tm htm; rw [List.mem_singleton.1 htm]; trivial)
    simp only [h1] at h
    have hit : a.it = s.it := by rw [ea]
    by_cases hn : n ≤ s.it
    · have ha : a.active.length = 0 := by
        rw [List.length_eq_zero_iff, List.eq_nil_iff_forall_not_mem]
        intro m hm
        exact ((hact m).1 hm).2 (.maxIt (some n)) (by simp [ht]) ⟨n, rfl, hn⟩
      rw [if_pos ha] at h
      injection h with h
      subst h
      refine ⟨s, ?_, h1, by omega⟩
      rw [Nat.sub_eq_zero_of_le hn]; rfl
    · have ha : ¬ a.active.length = 0 := by
        have : 0 ∈ a.active := by
          rw [hact]
          refine ⟨hM, ?_⟩
          intro tm htm
          rw [ht, List.mem_singleton] at htm
          subst htm
          rintro ⟨k, hk, hk'⟩
          injection hk with hk
          omega
        intro h0
        rw [List.length_eq_zero_iff.1 h0] at this
        simp at this
      rw [if_neg ha] at h
      cases h2 : step env inner a with
      | error e => simp [h2] at h
      | ok b =>
        simp only [h2] at h
        have eb := step_frame hi h2
        cases h3 : schedUpdate env b with
        | error e => simp [h3] at h
        | ok c =>
          simp only [h3] at h
          have ec := sched_frame h3
          have cit : c.it = s.it + 1 := by rw [ec]; simp only; rw [eb.it, hit]
          have ct : c.terms = [.maxIt (some n)] := by
            rw [ec]; simp only; rw [eb.terms, ea]; exact ht
          have cM : c.M = s.M := by rw [ec]; simp only; rw [eb.M, ea]
          obtain ⟨q, hq1, hq2, hq3⟩ := ih c s' ct (by omega) h
          refine ⟨q, ?_, hq2, by omega⟩
          rw [show n - s.it = (n - c.it) + 1 by omega, rounds_succ]
          simp only [List.cons_append, List.nil_append, execAll, exec, bind_ok]
          exact ⟨a, h1, b, h2, c, h3, hq1⟩

/-- C01: the hypotheses are met by a run of two coupled ensembles, which indeed stops after 3 steps. -/
example : Term.maxIt (some 3) ∈ (Example.start [.maxIt (some 3)] (some 2)).terms ∧
    InnerFrame (cboInner Example.env) ∧
    Example.isDone (optimize Example.env (cboInner Example.env) 4
      (Example.start [.maxIt (some 3)] (some 2))) = true ∧
    (Example.final [.maxIt (some 3)] (some 2) 4).it = 3 :=
  ⟨by simp [Example.start, Example.args, init, initBatch, initHistory, checkFDims, callF, baseSt],
    consThen_frame (cboMove_ok _), rfl, rfl⟩

/-- **C02.** With stateless criteria, the check never raises, changes nothing but `active_runs_idx` and
`term_reason`; a run is active afterwards iff it exists and *no* criterion holds for it; for every run for which
some criterion holds, `term_reason` lists exactly the positions of the criteria that hold; the reasons of the other
runs are untouched. -/
theorem C02_active_iff (env : Env K V) (s : St K V) (hs : ∀ tm ∈ s.terms, Stateless tm) :
    ∃ s', selectActive env s = .ok s' ∧
      s' = { s with active := s'.active, reason := s'.reason } ∧
      (∀ m, m ∈ s'.active ↔ m < s.M ∧ ∀ tm ∈ s.terms, ¬ Fires env s m tm) ∧
      (∀ m, (m < s.M ∧ ∃ tm ∈ s.terms, Fires env s m tm) →
        ∃ l, s'.reason m = some l ∧ ∀ i, i ∈ l ↔ ∃ tm, s.terms[i]? = some tm ∧ Fires env s m tm) ∧
      (∀ m, ¬ (m < s.M ∧ ∃ tm ∈ s.terms, Fires env s m tm) → s'.reason m = s.reason m) :=
  select_stateless hs

/-- **C02 (whole loop).** When `optimize` returns, every run satisfies at least one criterion in the returned state,
and its `term_reason` names one that does; conversely, before each step at least one run satisfied none (so the loop does not stop
early: see `C02_not_early`). -/
theorem C02_optimize_done (env : Env K V) (inner : St K V → Except Err (St K V))
    (hi : InnerFrame inner) : ∀ (fuel : ℕ) (s s' : St K V), (∀ tm ∈ s.terms, Stateless tm) →
      (∀ i q q' m, q' = ({ q with active := q'.active, reason := q'.reason } : St K V) →
        env.custom i q m = env.custom i q' m) →
      optimize env inner fuel s = .done s' →
      ∀ m < s'.M, ∃ l i tm, s'.reason m = some l ∧ i ∈ l ∧ s'.terms[i]? = some tm ∧
        Fires env s' m tm := by
  intro fuel
  induction fuel with
  | zero => intro s s' _ _ h; simp [optimize] at h
  | succ fuel ih =>
    intro s s' hs hcu h m hm
    simp only [optimize] at h
    obtain ⟨a, h1, ea, hact, hre, -⟩ := select_stateless (env := env) hs
    simp only [h1] at h
    split_ifs at h with ha
    · injection h with h
      subst h
      have aM : a.M = s.M := by rw [ea]
      have aT : a.terms = s.terms := by rw [ea]
      have hex : ∃ tm ∈ s.terms, Fires env s m tm := by
        by_contra hc
        have : m ∈ a.active := (hact m).2 ⟨by omega, fun tm htm hf => hc ⟨tm, htm, hf⟩⟩
        rw [List.length_eq_zero_iff.1 ha] at this
        simp at this
      obtain ⟨l, hl, hl'⟩ := hre m ⟨by omega, hex⟩
      obtain ⟨tm, htm, hf⟩ := hex
      obtain ⟨i, hi⟩ := List.mem_iff_getElem?.1 htm
      refine ⟨l, i, tm, hl, (hl' i).2 ⟨tm, hi, hf⟩, by rw [aT]; exact hi, ?_⟩
      rw [ea]
      cases tm with
      | custom i => simp only [Fires] at hf ⊢; rw [← hf]; exact (hcu i s _ m rfl).symm
      | _ => exact hf
    · cases h2 : step env inner a with
      | error e => simp [h2] at h
      | ok b =>
        simp only [h2] at h
        have eb := step_frame hi h2
        cases h3 : schedUpdate env b with
        | error e => simp [h3] at h
        | ok c =>
          simp only [h3] at h
          have ec := sched_frame h3
          have ct : c.terms = s.terms := by rw [ec]; simp only; rw [eb.terms, ea]
          exact ih c s' (by rw [ct]; exact hs) hcu h m hm

/-- **C02 (not early).** If some run satisfies no criterion, `optimize` performs a step (or raises) instead of
returning. -/
theorem C02_not_early (env : Env K V) (inner : St K V → Except Err (St K V)) (fuel : ℕ)
    (s s' : St K V) (hs : ∀ tm ∈ s.terms, Stateless tm)
    (hopen : ∃ m < s.M, ∀ tm ∈ s.terms, ¬ Fires env s m tm)
    (h : optimize env inner (fuel + 1) s = .done s') :
    ∃ a b c, selectActive env s = .ok a ∧ step env inner a = .ok b ∧ schedUpdate env b = .ok c ∧
      optimize env inner fuel c = .done s' := by
  simp only [optimize] at h
  obtain ⟨a, h1, ea, hact, -⟩ := select_stateless (env := env) hs
  simp only [h1] at h
  obtain ⟨m, hm, hno⟩ := hopen
  have ha : ¬ a.active.length = 0 := by
    have : m ∈ a.active := (hact m).2 ⟨hm, hno⟩
    intro h0
    rw [List.length_eq_zero_iff.1 h0] at this
    simp at this
  rw [if_neg ha] at h
  cases h2 : step env inner a with
  | error e => simp [h2] at h
  | ok b =>
    simp only [h2] at h
    cases h3 : schedUpdate env b with
    | error e => simp [h3] at h
    | ok c => simp only [h3] at h; exact ⟨a, b, c, h1, h2, h3, h⟩

/-- C02: three different criteria; run 0 is stopped by the energy tolerance (position 0; once frozen also by
the difference tolerance, finally `max_it`), run 1 by `max_it`
(position 2). -/
example : let ts : List (Term ℚ) := [.energyTol (.fin 2), .diffTol (.fin (1/100)), .maxIt (some 2)]
    (∀ tm ∈ (Example.start ts none).terms, Stateless tm) ∧
    (Example.final ts none 5).reason 0 = some [0, 1, 2] ∧ (Example.final ts none 5).reason 1 = some [2] :=
  ⟨by
    intro tm htm
    simp [Example.start, Example.args, init, initBatch, initHistory, checkFDims, callF, baseSt] at htm
    rcases htm with rfl | rfl | rfl <;> trivial, by decide +kernel, by decide +kernel⟩

/-- **C05.** `max_time = T` as the only criterion, a scheduler that leaves `dt > 0` alone, at least one run:
if `optimize` returns, the clock has reached `T` and (if it started before `T`) has passed it by less than one
time step. -/
theorem C05_max_time {K V : Type} [Field K] [LinearOrder K] [IsStrictOrderedRing K] [Add V] [Sub V] [SMul K V] (env : Env K V) (inner : St K V → Except Err (St K V))
    (hi : InnerFrame inner) (T : K) (hsched : ∀ s p, env.sched s = .ok p → p.dt = s.dt) :
    ∀ (fuel : ℕ) (s s' : St K V), s.terms = [.maxTime T] → 0 < s.M → 0 < s.dt →
      optimize env inner fuel s = .done s' →
      T ≤ s'.t ∧ s'.dt = s.dt ∧ (s.t < T → s'.t < T + s.dt) ∧ (T ≤ s.t → s'.t = s.t) ∧
      ∃ k : ℕ, s'.t = s.t + k * s.dt ∧ s'.it = s.it + k := by
  intro fuel
  induction fuel with
  | zero => intro s s' _ _ _ h; simp [optimize] at h
  | succ fuel ih =>
    intro s s' ht hM hdt h
    simp only [optimize] at h
    obtain ⟨a, h1, ea, hact, -⟩ := select_stateless (env := env) (s := s)
      (by rw [ht]; intro tm htm; rw [List.mem_singleton.1 htm]; trivial)
    simp only [h1] at h
    have at' : a.t = s.t := by rw [ea]
    have adt : a.dt = s.dt := by rw [ea]
    have ait : a.it = s.it := by rw [ea]
    by_cases hT : s.t < T
    · have ha : ¬ a.active.length = 0 := by
        have : 0 ∈ a.active := by
          rw [hact]
          refine ⟨hM, ?_⟩
          intro tm htm
          rw [ht, List.mem_singleton] at htm
          subst htm
          exact not_not_intro hT
        intro h0
        rw [List.length_eq_zero_iff.1 h0] at this
        simp at this
      rw [if_neg ha] at h
      cases h2 : step env inner a with
      | error e => simp [h2] at h
      | ok b =>
        simp only [h2] at h
        have eb := step_frame hi h2
        cases h3 : schedUpdate env b with
        | error e => simp [h3] at h
        | ok c =>
          simp only [h3] at h
          have ec := sched_frame h3
          have cdt : c.dt = s.dt := by
            simp only [schedUpdate, bind_ok, pure_ok] at h3
            obtain ⟨p, hp, rfl⟩ := h3
            simp only
            rw [hsched _ _ hp, eb.dt, adt]
          have ct : c.t = s.t + s.dt := by rw [ec]; simp only; rw [eb.t, at', adt]
          have cit : c.it = s.it + 1 := by rw [ec]; simp only; rw [eb.it, ait]
          have cterm : c.terms = [.maxTime T] := by rw [ec]; simp only; rw [eb.terms, ea]; exact ht
          have cM : c.M = s.M := by rw [ec]; simp only; rw [eb.M, ea]
          obtain ⟨i1, i2, i3, i4, k, i5, i6⟩ := ih c s' cterm (by omega) (by rw [cdt]; exact hdt) h
          rw [ct, cdt] at i5
          refine ⟨i1, by rw [i2, cdt], fun _ => ?_, fun hc => absurd hT (not_lt.2 hc), k + 1, ?_, by omega⟩
          · rcases lt_or_ge c.t T with hc | hc
            · rw [← cdt]; exact i3 hc
            · rw [i4 hc, ct]; linarith
          · rw [i5]; push_cast; ring
    · have ha : a.active.length = 0 := by
        rw [List.length_eq_zero_iff, List.eq_nil_iff_forall_not_mem]
        intro m hm
        exact ((hact m).1 hm).2 (.maxTime T) (by simp [ht]) hT
      rw [if_pos ha] at h
      injection h with h
      subst h
      refine ⟨by rw [at']; exact not_lt.1 hT, adt, fun hc => absurd hc hT, fun _ => at', 0, ?_, by omega⟩
      rw [at']; simp

/-- C05: with `dt = 1/2` and `T = 11/10` the run stops at time `3/2` after three steps. -/
example : (Example.start [.maxTime (11/10)] none).terms = [.maxTime (11/10)] ∧
    0 < (Example.start [.maxTime (11/10)] none).dt ∧
    (∀ s p, Example.env.sched s = .ok p → p.dt = s.dt) ∧
    (Example.final [.maxTime (11/10)] none 5).t = 3/2 :=
  ⟨rfl, by decide +kernel, fun s p h => by
    simp only [Example.env] at h
    injection h with h
    subst h
    rfl, by decide +kernel⟩

end Verif
