import Verif.Proofs.Base
import Verif.Proofs.Hist
import Verif.Spec.Base
import Verif.Spec.Example

/-! Property C65: dynamics written directly on `ParticleDynamic`. -/

set_option linter.unusedSectionVars false

namespace Verif

section
variable {K V : Type} [Zero K] [One K] [Neg K] [Add K] [Sub K] [Mul K] [Inv K] [Div K] [NatCast K] [Pow K ℕ] [LinearOrder K] [Add V] [Sub V] [SMul K V]

/-- **C65 (best particle).** For a user dynamic whose inner step evaluates the objective at the beginning of the step: after any number of steps
`best_energy[m]` is the least objective value at the positions the particles of run `m` had before these steps, and `best_particle[m]` is such a
position (unless all values were infinite). -/
theorem C65_best (env : Env K V) (inner : St K V → Except Err (St K V)) (hi : InnerFrame inner) (he : EvaluatesFirst env inner)
    (hpost : PostOK env) (hf : ∀ v, env.f v ≠ .nan) (a : Args K V) (s₀ s : St K V) (h0 : baseInit env a = .ok s₀) (k : ℕ) (h : baseSteps env inner k s₀ = .ok s) :
    ∀ m < a.x0.rows,
      (∀ j < k, ∀ q, baseSteps env inner j s₀ = .ok q → ∀ n < a.x0.cols, Flt.lt (env.f (q.x.get m n)) (s.bestE m) = false) ∧
      (s.bestE m = .pinf ∨ ∃ j < k, ∃ q, baseSteps env inner j s₀ = .ok q ∧ ∃ n < a.x0.cols, s.bestP m = q.x.get m n ∧
        env.f (s.bestP m) = s.bestE m) := by
  have hinit : s₀.M = a.x0.rows ∧ s₀.N = a.x0.cols ∧ (∀ m, s₀.bestE m = .pinf) ∧ 0 < s₀.N ∧ s₀.x.rows = s₀.M ∧ s₀.x.cols = s₀.N := by
    unfold baseInit at h0
    split_ifs at h0 with h1 h2 <;> (injection h0 with h0; rw [← h0]; exact ⟨rfl, rfl, fun _ => rfl, Nat.pos_of_ne_zero h1, rfl, rfl⟩)
  obtain ⟨i1, i2, i3, i4, i5, i6⟩ := hinit
  have key : ∀ k s, baseSteps env inner k s₀ = .ok s → s.M = s₀.M ∧ s.N = s₀.N ∧ s.x.rows = s₀.M ∧ s.x.cols = s₀.N ∧ ∀ m < s₀.M, s.bestE m ≠ .nan ∧
      (∀ j < k, ∀ q, baseSteps env inner j s₀ = .ok q → ∀ n < s₀.N, Flt.lt (env.f (q.x.get m n)) (s.bestE m) = false) ∧
      (s.bestE m = .pinf ∨ ∃ j < k, ∃ q, baseSteps env inner j s₀ = .ok q ∧ ∃ n < s₀.N, s.bestP m = q.x.get m n ∧
        env.f (s.bestP m) = s.bestE m) := by
    intro k
    induction k with
    | zero =>
      intro s h
      simp only [baseSteps, Except.ok.injEq] at h
      subst h
      exact ⟨rfl, rfl, i5, i6, fun m _ => ⟨by rw [i3]; simp, fun j hj => absurd hj (by omega), Or.inl (i3 m)⟩⟩
    | succ k ih =>
      intro s h
      simp only [baseSteps, bind_ok] at h
      obtain ⟨u, hu, h⟩ := h
      obtain ⟨e1, e2, e4, e5, e3⟩ := ih u hu
      obtain ⟨v, hv, F⟩ := baseStep_facts hi h
      obtain ⟨g3, g4, g1, g2⟩ := he (basePreStep u) _ (show u.x.rows = u.M by omega) (show u.x.cols = u.N by omega) hv
      obtain ⟨qq, rr, hqq, qx, -⟩ := F.post
      obtain ⟨z1, z2⟩ := hpost _ _ hqq
      have g3' : s.x.rows = s₀.M := by rw [z1, qx, g3]; exact e1
      have g4' : s.x.cols = s₀.N := by rw [z2, qx, g4]; exact e2
      have g1' : v.energy.cols = s₀.N := by rw [g1]; exact e2
      have g2' : ∀ m < s₀.M, ∀ n < s₀.N, v.energy.get m n = env.f (u.x.get m n) := by
        intro m hm n hn
        exact g2 m (by show m < u.M; omega) n (by show n < u.N; omega)
      refine ⟨by rw [F.frame]; exact e1, by rw [F.frame]; exact e2, g3', g4', fun m hm => ?_⟩
      obtain ⟨n1, n2, n3⟩ := e3 m hm
      have hidx : s.fMinIdx m < s₀.N := by
        rw [F.fMinIdx, g1']
        exact Flt.rowArgmin_lt i4 _
      have hcur : s.bestCurE m = env.f (u.x.get m (s.fMinIdx m)) := by rw [F.bestCurE, g2' m hm _ hidx]
      have hcurmin : ∀ n < s₀.N, Flt.lt (env.f (u.x.get m n)) (s.bestCurE m) = false := by
        intro n hn
        rw [← g2' m hm n hn, F.bestCurE, F.fMinIdx, g1']
        exact Flt.rowArgmin_min _ (fun i hi => by rw [g2' m hm i hi]; exact hf _) n hn
      have hcn : s.bestCurE m ≠ .nan := by rw [hcur]; exact hf _
      have hE := F.bestE m
      have hP := F.bestP m
      by_cases hg : Flt.gt (u.bestE m) (s.bestCurE m) = true
      · rw [if_pos hg] at hE hP
        refine ⟨by rw [hE]; exact hcn, ?_, Or.inr ⟨k, by omega, u, hu, _, hidx, ?_, ?_⟩⟩
        · intro j hj q hq n hn
          rw [hE]
          by_cases hjk : j = k
          · subst hjk
            rw [hu] at hq
            injection hq with hq
            subst hq
            exact hcurmin n hn
          · have hold := n2 j (by omega) q hq n hn
            by_contra hlt
            rw [Bool.not_eq_false] at hlt
            have := Flt.lt_trans hlt hg
            rw [this] at hold
            exact absurd hold (by simp)
        · rw [hP, F.bestCurP]
        · rw [hP, hE, F.bestCurP, hcur]
      · rw [if_neg hg] at hE hP
        rw [hE, hP]
        refine ⟨n1, ?_, ?_⟩
        · intro j hj q hq n hn
          by_cases hjk : j = k
          · subst hjk
            rw [hu] at hq
            injection hq with hq
            subst hq
            by_contra hlt
            rw [Bool.not_eq_false] at hlt
            refine hg (show Flt.lt (s.bestCurE m) (u.bestE m) = true from ?_)
            exact Flt.lt_of_not_lt_of_lt hcn (hcurmin n hn) hlt
          · exact n2 j (by omega) q hq n hn
        · rcases n3 with n3 | ⟨j, hj, q, hq, n, hn, p1, p2⟩
          · exact Or.inl n3
          · exact Or.inr ⟨j, by omega, q, hq, n, hn, p1, p2⟩
  obtain ⟨-, -, -, -, h3⟩ := key k s h
  rw [i1, i2] at h3
  exact fun m hm => (h3 m hm).2

/-- **C65 (history).** With `save_int = 1` and `x` tracked, the entry of the last step is the array the inner step produced, *before* post processing;
`dyn.x` is the post-processed array. -/
theorem C65_history (env : Env K V) (inner : St K V → Except Err (St K V)) (hi : InnerFrame inner) (s s' : St K V) (hs : s.saveInt = 1)
    (hn : s.tracks.Nodup) (hx : Track.x ∈ s.tracks) (h : baseStep env inner s = .ok s') :
    ∃ v q, inner { s with xOld := some s.x } = .ok v ∧ (s'.hist .x).getLast? = some (.x v.x) ∧ q.x = v.x ∧ env.post q = .ok s'.x := by
  obtain ⟨v, hv, F⟩ := baseStep_facts hi h
  obtain ⟨q, r, p1, p2, p3, p4⟩ := F.post
  refine ⟨v, q, hv, ?_, p2, p1⟩
  rw [p4, hs, if_pos (Nat.mod_one _), applyTracks_get _ _ _ _ hn, if_pos hx]
  simp [trackEntry, p3]

/-- **C65 (criteria).** A `ParticleDynamic` with one of the built-in criteria `max_eval`, `max_time`, `energy_stagnation` cannot be optimised: the
first check raises `AttributeError`. -/
theorem C65_criteria_false (env : Env K V) (inner : St K V → Except Err (St K V)) (s : St K V)
    (h : (∃ n, Term.maxEval n ∈ s.terms) ∨ (∃ T, Term.maxTime T ∈ s.terms) ∨ ∃ p th l, Term.energyStag p th l ∈ s.terms) (fuel : ℕ) :
    baseOptimize env inner (fuel + 1) s = .raised .attribute := by
  have : ∃ tm ∈ s.terms, NeedsCBX tm := by
    rcases h with ⟨n, h⟩ | ⟨T, h⟩ | ⟨p, th, l, h⟩
    exacts [⟨_, h, trivial⟩, ⟨_, h, trivial⟩, ⟨_, h, trivial⟩]
  simp only [baseOptimize, baseSelect, baseEvalTerms_raise this, bind, Except.bind]

/-- **C65 (termination).** With `max_it = n` among criteria other than those three, `optimize` ends within `n` steps, or an exception of the inner step, of the
bookkeeping or of the post processing ends it earlier; with `max_it` alone it makes exactly `n` steps from a fresh object. -/
theorem C65_max_it (env : Env K V) (inner : St K V → Except Err (St K V)) (hi : InnerFrame inner) (n : ℕ) : ∀ (fuel : ℕ) (s : St K V),
    Term.maxIt (some n) ∈ s.terms → (∀ tm ∈ s.terms, ¬ NeedsCBX tm) → n - s.it < fuel →
      (∃ e q, baseOptimize env inner fuel s = .raised e ∧ baseStep env inner q = .error e) ∨
      ∃ s', baseOptimize env inner fuel s = .done s' ∧ s'.active = [] ∧ s'.it ≤ max n s.it ∧
        (s.terms = [.maxIt (some n)] → 0 < s.M → s'.it = max n s.it) := by
  intro fuel
  induction fuel with
  | zero => intro s _ _ h; omega
  | succ fuel ih =>
    intro s hm hN hfu
    have hst : ∀ tm ∈ s.terms, Stateless tm := by
      intro tm ht
      have := hN tm ht
      cases tm <;> first | trivial | exact absurd trivial this
    obtain ⟨b, h1, eb, hact, -⟩ := select_stateless (env := env) hst
    have bit : b.it = s.it := by rw [eb]
    have bM : b.M = s.M := by rw [eb]
    have bt : b.terms = s.terms := by rw [eb]
    simp only [baseOptimize, baseSelect_eq hN, h1]
    by_cases hn : b.active.length = 0
    · rw [if_pos hn]
      refine Or.inr ⟨b, rfl, List.length_eq_zero_iff.1 hn, by omega, fun ht hM => ?_⟩
      by_contra hne
      have : 0 ∈ b.active := by
        rw [hact]
        refine ⟨hM, fun tm htm => ?_⟩
        rw [ht, List.mem_singleton] at htm
        subst htm
        rintro ⟨k, hk, hk'⟩
        injection hk with hk
        omega
      rw [List.length_eq_zero_iff.1 hn] at this
      simp at this
    · rw [if_neg hn]
      have hlt : s.it < n := by
        obtain ⟨m, hm'⟩ : ∃ m, m ∈ b.active := List.exists_mem_of_length_pos (by omega)
        by_contra hge
        exact ((hact m).1 hm').2 _ hm ⟨n, rfl, by omega⟩
      cases h2 : baseStep env inner b with
      | error e => exact Or.inl ⟨e, b, rfl, h2⟩
      | ok c =>
        simp only
        obtain ⟨v, -, F⟩ := baseStep_facts hi h2
        have cit : c.it = s.it + 1 := by rw [F.frame]; simp only; rw [bit]
        have ct : c.terms = s.terms := by rw [F.frame]; exact bt
        have cM : c.M = s.M := by rw [F.frame]; exact bM
        rcases ih c (by rw [ct]; exact hm) (by rw [ct]; exact hN) (by omega) with h3 | ⟨s', h3, h4, h5, h6⟩
        · exact Or.inl h3
        · refine Or.inr ⟨s', h3, h4, by omega, fun ht hM => ?_⟩
          have := h6 (by rw [ct]; exact ht) (by omega)
          omega

end

namespace Example

/-- A user inner step that evaluates the objective and then doubles all positions. -/
def innerFirst (s : St ℚ ℚ) : Except Err (St ℚ ℚ) := .ok { s with energy := s.x.map env.f, x := s.x.map fun v => 2 * v }

/-- A user inner step that doubles all positions and then evaluates the objective there. -/
def innerLate (s : St ℚ ℚ) : Except Err (St ℚ ℚ) := .ok { s with x := s.x.map fun v => 2 * v, energy := (s.x.map fun v => 2 * v).map env.f }

theorem innerFirst_frame : InnerFrame innerFirst := by
  intro s s' h
  simp only [innerFirst, Except.ok.injEq] at h
  subst h
  rfl

theorem innerLate_frame : InnerFrame innerLate := by
  intro s s' h
  simp only [innerLate, Except.ok.injEq] at h
  subst h
  rfl

theorem innerFirst_first : EvaluatesFirst env innerFirst := by
  intro s v h1 h2 h
  simp only [innerFirst, Except.ok.injEq] at h
  subst h
  exact ⟨h1, h2, h2, fun _ _ _ _ => rfl⟩

theorem env_post : PostOK env := by
  intro s x' h
  simp only [env, Except.ok.injEq] at h
  subst h
  exact ⟨rfl, rfl⟩

end Example

/-- C65: two runs of three particles, six steps of the first inner step; positions are doubled until they are clipped at 100. -/
example : InnerFrame Example.innerFirst ∧ EvaluatesFirst Example.env Example.innerFirst ∧ PostOK Example.env ∧ (∀ v, Example.env.f v ≠ .nan) ∧
    (match baseInit Example.env (Example.args [.maxIt (some 6)] none) with
    | .ok s₀ => (match baseSteps Example.env Example.innerFirst 6 s₀ with
      | .ok s => decide (s.it = 6 ∧ s.x.get 1 2 = 100 ∧ s.x.get 0 0 = 64 ∧ s.bestP 0 = 2 ∧ s.bestE 0 = .fin (1 / 16) ∧ s.bestP 1 = 5)
      | .error _ => false)
    | .error _ => false) = true :=
  ⟨Example.innerFirst_frame, Example.innerFirst_first, Example.env_post, fun _ => by simp [Example.env], by decide +kernel⟩

/-- C65: the same dynamic optimised with `max_it = 6`. -/
example : (match baseInit Example.env (Example.args [.diffTol (.fin 0), .maxIt (some 6)] none) with
    | .ok s₀ => decide (s₀.saveInt = 1 ∧ s₀.tracks.Nodup ∧ Track.x ∈ s₀.tracks) && (match baseOptimize Example.env Example.innerFirst 7 s₀ with
      | .done s => decide (s.it = 6)
      | _ => false)
    | .error _ => false) = true := by decide +kernel

/-- **C65 does not hold for the history.** Unlike `CBXDynamic`, a `ParticleDynamic` records positions that post processing has not seen: here the last entry
of `history['x']` is outside the bounds (150 and more) while `dyn.x` is inside. -/
theorem C65_history_false : ∃ s₀ s x, baseInit Example.env (Example.args [.maxIt (some 6)] none) = .ok s₀ ∧
    baseSteps Example.env Example.innerFirst 6 s₀ = .ok s ∧ (s.hist .x).getLast? = some (.x x) ∧ s.x.get 1 2 = 100 ∧ 100 < x.get 1 2 :=
  ⟨_, _, _, rfl, rfl, rfl, by decide +kernel, by decide +kernel⟩

/-- **C65 does not hold for inner steps that evaluate last.** If a user dynamic moves the particles and then evaluates them, `best_particle` is taken from the
positions before the step and does not attain `best_energy`. -/
theorem C65_late_false : ∃ s₀ s, baseInit Example.env (Example.args [.maxIt (some 6)] none) = .ok s₀ ∧ InnerFrame Example.innerLate ∧
    baseSteps Example.env Example.innerLate 2 s₀ = .ok s ∧ Example.env.f (s.bestP 0) ≠ s.bestE 0 ∧ s.bestE 0 ≠ .pinf :=
  ⟨_, _, rfl, Example.innerLate_frame, rfl, by decide +kernel, by decide +kernel⟩

end Verif
