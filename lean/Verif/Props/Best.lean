import Verif.Proofs.Best
import Verif.Spec.Example

/-! Properties C09, C10: best energy and best particle of consensus dynamics (`CBO` and every dynamic that
computes the consensus first and then moves particles). -/

set_option linter.unusedSectionVars false

namespace Verif

variable {K V : Type} [Zero K] [One K] [Neg K] [Add K] [Sub K] [Mul K] [Inv K] [Div K] [NatCast K] [Pow K ℕ] [LinearOrder K] [Add V] [Sub V] [SMul K V]

/-- **C09.** After construction and any sequence of operations (steps, termination checks, scheduler updates,
resets, in any order; batched or not; any number of stopped runs), `best_energy[m]` is the minimum of the objective
over all energy evaluations of run `m` so far (`+inf` if none), provided no evaluation was NaN. -/
theorem C09_best_energy (env : Env K V) (move : St K V → Except Err (St K V)) (hm : MoveOK move)
    (hpost : PostOK env) (hp : PermOK env) (a : Args K V) (s₀ s : St K V) (ops : List Op)
    (h0 : init env a = .ok s₀) (h : execAll env (consThen env move) ops s₀ = .ok s)
    (hn : NoNaN env.f s) : ∀ m < s.M, IsBest env.f s m (s.bestE m) := by
  have hb := bestInv_execAll hm hpost hp (init_wf hp h0) (bestInv_init h0) h hn
  intro m hmM
  refine ⟨hb.least m hmM, ?_⟩
  rcases hb.best m hmM with h1 | ⟨h1, h2⟩
  · exact Or.inl h1
  · exact Or.inr ⟨_, h1, h2⟩

/-- **C09 (monotonicity).** No operation ever makes `best_energy` worse, even with NaN energies and for any inner
step. -/
theorem C09_monotone (env : Env K V) (inner : St K V → Except Err (St K V)) (hi : InnerFrame inner)
    (o : Op) (s s' : St K V) (h : exec env inner o s = .ok s') (m : ℕ) :
    Flt.lt (s.bestE m) (s'.bestE m) = false := by
  cases o with
  | step =>
    obtain ⟨v, hv, hs⟩ := step_split.1 h
    have hb := (postStep_facts hs).bestE m
    have : v.bestE = s.bestE := by rw [hi _ _ hv]; simp only; rw [preStep_frame]
    rw [this] at hb
    rw [hb]
    split_ifs with hg
    · exact Flt.lt_asymm hg
    · exact Flt.lt_irrefl _
  | select => rw [select_frame h]; exact Flt.lt_irrefl _
  | sched =>
    simp only [exec] at h
    rw [sched_frame h]; exact Flt.lt_irrefl _
  | reset =>
    simp only [exec] at h
    injection h with h
    subst h
    exact Flt.lt_irrefl _

/-- **C10.** In the same setting, `best_particle[m]` is a point at which run `m` was evaluated and
`f(best_particle[m]) = best_energy[m]`, as soon as any finite (or `-inf`) energy was seen. -/
theorem C10_best_particle (env : Env K V) (move : St K V → Except Err (St K V)) (hm : MoveOK move)
    (hpost : PostOK env) (hp : PermOK env) (a : Args K V) (s₀ s : St K V) (ops : List Op)
    (h0 : init env a = .ok s₀) (h : execAll env (consThen env move) ops s₀ = .ok s)
    (hn : NoNaN env.f s) : ∀ m < s.M, (∃ v, Evaluated s m v ∧ env.f v ≠ .pinf) →
      Evaluated s m (s.bestP m) ∧ env.f (s.bestP m) = s.bestE m := by
  have hb := bestInv_execAll hm hpost hp (init_wf hp h0) (bestInv_init h0) h hn
  rintro m hmM ⟨v, hv, hf⟩
  rcases hb.best m hmM with h1 | h1
  · have := hb.least m hmM v hv
    rw [h1] at this
    have hnan := hn m v hv
    cases hv' : env.f v <;> simp_all [Flt.lt]
  · exact h1

/-- **C10 (what `optimize` returns).** If `optimize` returns, the returned `best_particle` attains
`best_energy`, and no evaluated point of that run is better. -/
theorem C10_optimize (env : Env K V) (move : St K V → Except Err (St K V)) (hm : MoveOK move)
    (hpost : PostOK env) (hp : PermOK env) (a : Args K V) (s₀ s : St K V) (fuel : ℕ)
    (h0 : init env a = .ok s₀) (h : optimize env (consThen env move) fuel s₀ = .done s)
    (hn : NoNaN env.f s) : ∀ m < s.M, (∃ v, Evaluated s m v ∧ env.f v ≠ .pinf) →
      env.f (s.bestP m) = s.bestE m ∧ ∀ v, Evaluated s m v → Flt.lt (env.f v) (env.f (s.bestP m)) = false := by
  obtain ⟨_, q, hq, k, hk⟩ := optimize_done h
  have hall : execAll env (consThen env move)
      ((List.replicate k [Op.select, Op.step, Op.sched]).flatten ++ [.select]) s₀ = .ok s := by
    have app : ∀ (l₁ l₂ : List Op) (x y z : St K V), execAll env (consThen env move) l₁ x = .ok y →
        execAll env (consThen env move) l₂ y = .ok z →
        execAll env (consThen env move) (l₁ ++ l₂) x = .ok z := by
      intro l₁
      induction l₁ with
      | nil =>
        intro l₂ x y z h1 h2
        simp only [execAll] at h1
        injection h1 with h1
        subst h1
        exact h2
      | cons o l ih =>
        intro l₂ x y z h1 h2
        simp only [execAll, bind_ok, List.cons_append] at h1 ⊢
        obtain ⟨w, hw, hl⟩ := h1
        exact ⟨w, hw, ih l₂ w y z hl h2⟩
    refine app _ _ _ _ _ hk ?_
    simp only [execAll, exec, bind_ok]
    exact ⟨s, hq, rfl⟩
  intro m hmM hv
  have h1 := C10_best_particle env move hm hpost hp a s₀ s _ h0 hall hn m hmM hv
  have h2 := C09_best_energy env move hm hpost hp a s₀ s _ h0 hall hn m hmM
  exact ⟨h1.2, fun v hv => by rw [h1.2]; exact h2.1 v hv⟩

/-- C09/C10: all hypotheses hold for the batched example run; run 0 improves from `1/16` after
the first step to `361/16384` after the fifth, at a point that is none of the initial positions. -/
example : MoveOK (cboMove Example.env) ∧ PostOK Example.env ∧ PermOK Example.env ∧
    (∀ v, Example.env.f v ≠ .nan) ∧
    (∃ s, init Example.env (Example.args [.maxIt (some 4)] (some 2)) = .ok s) ∧
    (Example.final [.maxIt (some 1)] (some 2) 9).bestE 0 = .fin (1/16) ∧
    (Example.final [.maxIt (some 5)] (some 2) 9).bestE 0 = .fin (361/16384) ∧
    Example.env.f ((Example.final [.maxIt (some 5)] (some 2) 9).bestP 0) = .fin (361/16384) := by
  refine ⟨cboMove_ok _, ?_, ?_, ?_, ⟨_, rfl⟩, ?_, ?_, ?_⟩
  · intro s x' h
    simp only [Example.env] at h
    injection h with h
    subst h
    exact ⟨rfl, rfl⟩
  · intro N c m j hj
    simp only [Example.env, if_pos hj]
    exact Nat.mod_lt _ (by omega)
  · intro v; simp [Example.env]
  · decide +kernel
  · decide +kernel
  · decide +kernel

end Verif
