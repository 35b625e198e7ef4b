import Verif.Proofs.Run
import Verif.Spec.Best

/-! Invariant behind C09/C10. Helper lemmas. -/

set_option linter.unusedSectionVars false

namespace Verif

variable {K V : Type} [Zero K] [One K] [Neg K] [Add K] [Sub K] [Mul K] [Inv K] [Div K] [NatCast K] [Pow K ℕ] [LinearOrder K] [Add V] [Sub V] [SMul K V]

theorem mem_entries {α : Type} {run : ℕ → ℕ} {a : Mat α} {q : ℕ × α} :
    q ∈ a.entries run ↔ ∃ i < a.rows, ∃ j < a.cols, q = (run i, a.get i j) := by
  unfold Mat.entries
  simp only [List.mem_flatMap, List.mem_range, List.mem_map]
  constructor
  · rintro ⟨i, hi, j, hj, rfl⟩; exact ⟨i, hi, j, hj, rfl⟩
  · rintro ⟨i, hi, j, hj, rfl⟩; exact ⟨i, hi, j, hj, rfl⟩

/-- What is newly evaluated in a step: the selected particles, at their positions before the step. -/
theorem step_evaluated {env : Env K V} {s s' : St K V} (q : StepSum env s s') (m : ℕ) (v : V) :
    Evaluated s' m v ↔ Evaluated s m v ∨ ∃ n, s'.cIdx.Sel m n ∧ v = s.x.get m n := by
  obtain ⟨l, hl, hl'⟩ := q.log
  unfold Evaluated
  rw [hl]
  simp only [List.mem_append, List.mem_map]
  constructor
  · rintro ((h | ⟨a, ha, he⟩) | h)
    · left; exact h
    · right
      obtain ⟨i, hi, j, hj, rfl⟩ := mem_entries.1 ha
      injection he with _ he
      injection he with h1 h2
      subst h1 h2
      exact ⟨s'.cIdx.par i j, ⟨i, hi, j, hj, rfl, rfl⟩, rfl⟩
    · exact absurd rfl (hl' _ h)
  · rintro (h | ⟨n, ⟨i, hi, j, hj, h1, h2⟩, rfl⟩)
    · left; left; exact h
    · left; right
      refine ⟨(m, s.x.get m n), mem_entries.2 ⟨i, hi, j, hj, ?_⟩, rfl⟩
      simp [h1, h2]

/-- The invariant. -/
structure BestInv (env : Env K V) (s : St K V) : Prop where
  src : ∀ m < s.M, ∀ n < s.N, s.energy.get m n = .pinf ∨
    ∃ v, Evaluated s m v ∧ env.f v = s.energy.get m n
  best : ∀ m < s.M, s.bestE m = .pinf ∨ (Evaluated s m (s.bestP m) ∧ env.f (s.bestP m) = s.bestE m)
  least : ∀ m < s.M, ∀ v, Evaluated s m v → Flt.lt (env.f v) (s.bestE m) = false

theorem bestInv_step {env : Env K V} {s s' : St K V} (hw : WF s) (q : StepSum env s s')
    (cin : s'.cIdx.InBounds s.M s.N)
    (hn : NoNaN env.f s') (h : BestInv env s) : BestInv env s' := by
  have ev := step_evaluated q
  have mono : ∀ m v, Evaluated s m v → Evaluated s' m v := fun m v hv => (ev m v).2 (Or.inl hv)
  have hec : s'.energy.cols = s.N := by rw [q.ec, hw.ec]
  -- source of energies
  have src : ∀ m < s.M, ∀ n < s.N, s'.energy.get m n = .pinf ∨
      ∃ v, Evaluated s' m v ∧ env.f v = s'.energy.get m n := by
    intro m hm n hnn
    by_cases hs : s'.cIdx.Sel m n
    · right
      exact ⟨s.x.get m n, (ev _ _).2 (Or.inr ⟨n, hs, rfl⟩), (q.fresh m n hs).symm⟩
    · rw [q.stale m n hs]
      rcases h.src m hm n hnn with h1 | ⟨v, h1, h2⟩
      · left; exact h1
      · right; exact ⟨v, mono _ _ h1, h2⟩
  have nn : ∀ m < s.M, ∀ n < s.N, s'.energy.get m n ≠ .nan := by
    intro m hm n hnn
    rcases src m hm n hnn with h1 | ⟨v, h1, h2⟩
    · rw [h1]; simp
    · rw [← h2]; exact hn m v h1
  have hidx : ∀ m, s'.fMinIdx m < s.N := by
    intro m; rw [q.fMinIdx, hec]; exact Flt.rowArgmin_lt hw.pos _
  have hmin : ∀ m < s.M, ∀ n < s.N, Flt.lt (s'.energy.get m n) (s'.bestCurE m) = false := by
    intro m hm n hnn
    rw [q.bestCurE, q.fMinIdx, hec]
    exact Flt.rowArgmin_min _ (nn m hm) n hnn
  have bnn : ∀ m < s.M, s.bestE m ≠ .nan := by
    intro m hm
    rcases h.best m hm with h1 | ⟨h1, h2⟩
    · rw [h1]; simp
    · rw [← h2]; exact hn m _ (mono _ _ h1)
  refine ⟨?_, ?_, ?_⟩
  · rw [q.M, q.N]; exact src
  · rw [q.M]
    intro m hm
    rw [q.bestE, q.bestP]
    by_cases hg : Flt.gt (s.bestE m) (s'.bestCurE m) = true
    · rw [if_pos hg, if_pos hg]
      right
      -- the minimal entry must be fresh
      have hsel : s'.cIdx.Sel m (s'.fMinIdx m) := by
        by_contra hs
        have e1 := q.bestCurE m
        rw [q.stale m _ hs] at e1
        have hg' : Flt.lt (s.energy.get m (s'.fMinIdx m)) (s.bestE m) = true := by
          rw [← e1]; exact hg
        rcases h.src m hm _ (hidx m) with h1 | ⟨v, h1, h2⟩
        · rw [h1] at hg'
          cases hb : s.bestE m <;> rw [hb] at hg' <;> simp [Flt.lt] at hg'
        · rw [← h2, h.least m hm v h1] at hg'
          simp at hg'
      rw [q.bestCurP, q.bestCurE, q.fresh m _ hsel]
      exact ⟨(ev _ _).2 (Or.inr ⟨_, hsel, rfl⟩), rfl⟩
    · rw [if_neg hg, if_neg hg]
      rcases h.best m hm with h1 | ⟨h1, h2⟩
      · left; exact h1
      · right; exact ⟨mono _ _ h1, h2⟩
  · rw [q.M]
    intro m hm v hv
    have hle : Flt.lt (s'.bestCurE m) (s'.bestE m) = false ∧
        Flt.lt (s.bestE m) (s'.bestE m) = false := by
      rw [q.bestE]
      by_cases hg : Flt.gt (s.bestE m) (s'.bestCurE m) = true
      · rw [if_pos hg]; exact ⟨Flt.lt_irrefl _, Flt.lt_asymm hg⟩
      · rw [if_neg hg]; exact ⟨by simpa [Flt.gt] using hg, Flt.lt_irrefl _⟩
    have cnn : s'.bestCurE m ≠ .nan := by
      rw [q.bestCurE]; exact nn m hm _ (hidx m)
    rcases (ev m v).1 hv with h1 | ⟨n, hs, rfl⟩
    · exact Flt.not_lt_trans (bnn m hm) hle.2 (h.least m hm v h1)
    · have hn' : n < s.N := by
        obtain ⟨i, hi, j, hj, e1, e2⟩ := hs
        rw [← e2]; exact (cin i hi j hj).2
      rw [← q.fresh m n hs]
      exact Flt.not_lt_trans cnn hle.1 (hmin m hm n hn')

theorem evalTerm_log {env : Env K V} {tm : Term K} {s : St K V} {r : (ℕ → Bool) × Term K × St K V}
    (h : evalTerm env tm s = .ok r) (m : ℕ) (v : V) : Evaluated r.2.2 m v ↔ Evaluated s m v := by
  unfold evalTerm at h
  split at h
  case h_7 p th l =>
    unfold evalStag at h
    split at h
    · rw [pure_ok] at h; subst h; rfl
    · split_ifs at h
      rw [pure_ok] at h; subst h
      simp [callF, Evaluated]
  all_goals (rw [pure_ok] at h; subst h; rfl)

theorem evalTerms_log {env : Env K V} (m : ℕ) (v : V) : ∀ {l : List (Term K)} {s : St K V}
    {r : List (ℕ → Bool) × List (Term K) × St K V}, evalTerms env l s = .ok r →
    (Evaluated r.2.2 m v ↔ Evaluated s m v)
  | [], s, r, h => by
    simp only [evalTerms, pure_ok] at h; subst h; rfl
  | tm :: l, s, r, h => by
    simp only [evalTerms, bind_ok, pure_ok] at h
    obtain ⟨a, ha, b, hb, rfl⟩ := h
    exact (evalTerms_log m v hb).trans (evalTerm_log ha m v)

theorem select_log {env : Env K V} {s s' : St K V} (h : selectActive env s = .ok s') (m : ℕ) (v : V) :
    Evaluated s' m v ↔ Evaluated s m v := by
  simp only [selectActive, bind_ok, pure_ok] at h
  obtain ⟨r, hr, rfl⟩ := h
  exact evalTerms_log m v hr

/-- Transfer of the invariant along operations that change neither energies, best values nor the evaluations. -/
theorem bestInv_congr {env : Env K V} {s s' : St K V} (h : BestInv env s) (e1 : s'.M = s.M)
    (e2 : s'.N = s.N) (e3 : s'.energy = s.energy) (e4 : s'.bestE = s.bestE) (e5 : s'.bestP = s.bestP)
    (e6 : ∀ m v, Evaluated s' m v ↔ Evaluated s m v) : BestInv env s' := by
  refine ⟨?_, ?_, ?_⟩
  · rw [e1, e2, e3]
    intro m hm n hn
    rcases h.src m hm n hn with h1 | ⟨v, h1, h2⟩
    · exact Or.inl h1
    · exact Or.inr ⟨v, (e6 _ _).2 h1, h2⟩
  · rw [e1, e4, e5]
    intro m hm
    rcases h.best m hm with h1 | ⟨h1, h2⟩
    · exact Or.inl h1
    · exact Or.inr ⟨(e6 _ _).2 h1, h2⟩
  · rw [e1, e4]
    intro m hm v hv
    exact h.least m hm v ((e6 _ _).1 hv)

/-- Evaluations are never forgotten. -/
theorem exec_mono {env : Env K V} {move : St K V → Except Err (St K V)} (hm : MoveOK move)
    (hpost : PostOK env) {o : Op} {s s' : St K V} (h : exec env (consThen env move) o s = .ok s')
    (m : ℕ) (v : V) (hv : Evaluated s m v) : Evaluated s' m v := by
  cases o with
  | step => exact (step_evaluated (step_sum hm hpost h) m v).2 (Or.inl hv)
  | select => exact (select_log h m v).2 hv
  | sched =>
    simp only [exec] at h
    rw [sched_frame h]; exact hv
  | reset =>
    simp only [exec] at h
    injection h with h
    subst h
    exact hv

theorem execAll_mono {env : Env K V} {move : St K V → Except Err (St K V)} (hm : MoveOK move)
    (hpost : PostOK env) : ∀ {l : List Op} {s s' : St K V},
    execAll env (consThen env move) l s = .ok s' → ∀ m v, Evaluated s m v → Evaluated s' m v
  | [], s, s', h, m, v, hv => by
    simp only [execAll] at h
    injection h with h
    subst h
    exact hv
  | o :: l, s, s', h, m, v, hv => by
    simp only [execAll, bind_ok] at h
    obtain ⟨q, hq, hl⟩ := h
    exact execAll_mono hm hpost hl m v (exec_mono hm hpost hq m v hv)

theorem bestInv_exec {env : Env K V} {move : St K V → Except Err (St K V)} (hm : MoveOK move)
    (hpost : PostOK env) (hp : PermOK env) {o : Op} {s s' : St K V} (hw : WF s) (hn : NoNaN env.f s')
    (hb : BestInv env s) (h : exec env (consThen env move) o s = .ok s') : BestInv env s' := by
  cases o with
  | step =>
    have q := step_sum hm hpost h
    have := (preStep_idx env hp hw).cIn
    exact bestInv_step hw q (q.cIdx ▸ this) hn hb
  | select =>
    have hf := select_frame h
    exact bestInv_congr hb (by rw [hf]) (by rw [hf]) (by rw [hf]) (by rw [hf]) (by rw [hf])
      (select_log h)
  | sched =>
    simp only [exec] at h
    have hf := sched_frame h
    exact bestInv_congr hb (by rw [hf]) (by rw [hf]) (by rw [hf]) (by rw [hf]) (by rw [hf])
      (fun m v => by rw [hf]; rfl)
  | reset =>
    simp only [exec] at h
    injection h with h
    subst h
    exact bestInv_congr hb rfl rfl rfl rfl rfl (fun m v => Iff.rfl)

theorem bestInv_execAll {env : Env K V} {move : St K V → Except Err (St K V)} (hm : MoveOK move)
    (hpost : PostOK env) (hp : PermOK env) : ∀ {l : List Op} {s s' : St K V}, WF s →
    BestInv env s → execAll env (consThen env move) l s = .ok s' → NoNaN env.f s' → BestInv env s'
  | [], s, s', _, hb, h, _ => by
    simp only [execAll] at h
    injection h with h
    subst h
    exact hb
  | o :: l, s, s', hw, hb, h, hn => by
    simp only [execAll, bind_ok] at h
    obtain ⟨q, hq, hl⟩ := h
    have hnq : NoNaN env.f q := fun m v hv => hn m v (execAll_mono hm hpost hl m v hv)
    exact bestInv_execAll hm hpost hp (exec_wf hm hpost hp hw hq)
      (bestInv_exec hm hpost hp hw hnq hb hq) hl hn

theorem bestInv_init {env : Env K V} {a : Args K V} {s : St K V} (h : init env a = .ok s) :
    BestInv env s := by
  have key : ∀ m v, ¬ Evaluated s m v := by
    intro m v
    unfold init at h
    split_ifs at h
    all_goals
      injection h with h
      subst h
      simp [Evaluated, initBatch, initHistory, checkFDims, callF, baseSt]
  unfold init at h
  split_ifs at h
  all_goals
    injection h with h
    subst h
    exact ⟨fun _ _ _ _ => Or.inl rfl, fun _ _ => Or.inl rfl, fun m _ v hv => absurd hv (key m v)⟩

end Verif
