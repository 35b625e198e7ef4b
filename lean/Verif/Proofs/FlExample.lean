import Verif.Proofs.FlClock
import Verif.Proofs.NeverRaises

/-! The example run in floating point arithmetic. -/

set_option linter.unusedSectionVars false

namespace Verif

theorem cboInner_frame {K V : Type} [Zero K] [One K] [Neg K] [Add K] [Sub K] [Mul K] [Inv K] [Div K] [NatCast K] [Pow K ℕ] [LinearOrder K] [Add V] [Sub V] [SMul K V]
    (env : Env K V) : InnerFrame (cboInner env) := by rw [cboInner_eq]; exact consThen_frame (cboMove_ok env)

theorem flEnv_ok (φ : FloatFmt) : EnvOK (Example.flEnv φ) :=
  ⟨rfl, ⟨_, rfl⟩, fun s d h => ⟨d, by simp [Example.flEnv, h], rfl, rfl⟩, fun s => ⟨_, rfl, rfl, rfl⟩, fun s => ⟨_, rfl⟩⟩

theorem flInit (φ : FloatFmt) (dt T : Fl φ) :
    ∃ s, init (Example.flEnv φ) (Example.flArgs φ dt [.maxTime T]) = .ok s ∧ s.terms = [.maxTime T] ∧ 0 < s.M ∧ s.dt = dt ∧ s.t = 0 ∧ s.it = 0 ∧
      ∀ fuel e, optimizeBy (Example.flEnv φ) (step (Example.flEnv φ) (cboInner (Example.flEnv φ))) fuel s ≠ .raised e := by
  obtain ⟨s, h0, e1, e2, e3, e4⟩ := init_total (Example.flEnv φ) (a := Example.flArgs φ dt [.maxTime T]) (by simp [Example.flArgs])
  have hp : PermOK (Example.flEnv φ) := fun _ _ _ _ h => h
  have key : s.dt = dt ∧ s.t = 0 ∧ s.it = 0 := by
    unfold init at h0
    split_ifs at h0
    all_goals
      injection h0 with h0
      subst h0
      exact ⟨rfl, rfl, rfl⟩
  refine ⟨s, h0, e2, by rw [e3]; simp [Example.flArgs], key.1, key.2.1, key.2.2, fun fuel e => ?_⟩
  rw [optimizeBy_step]
  exact optimize_total (flEnv_ok φ) hp fuel s (init_wf hp h0) (by rw [e1]; simp [Example.flArgs]) (by rw [e2]; intro tm ht; simp only [Example.flArgs, List.mem_singleton] at ht; subst ht; trivial)
    (fun h => by cases h) e

/-- The example dynamics runs, and returns as soon as the clock has reached `T`. -/
theorem flRun (φ : FloatFmt) (dt T : Fl φ) (k : ℕ) (hk : T ≤ (· + dt)^[k] (0 : Fl φ)) :
    ∃ s s', init (Example.flEnv φ) (Example.flArgs φ dt [.maxTime T]) = .ok s ∧ s.terms = [.maxTime T] ∧ 0 < s.M ∧ s.dt = dt ∧ s.t = 0 ∧ s.it = 0 ∧
      optimizeBy (Example.flEnv φ) (step (Example.flEnv φ) (cboInner (Example.flEnv φ))) (k + 1) s = .done s' := by
  obtain ⟨s, h0, h1, h2, h3, h4, h5, h6⟩ := flInit φ dt T
  cases ho : optimizeBy (Example.flEnv φ) (step (Example.flEnv φ) (cboInner (Example.flEnv φ))) (k + 1) s with
  | done s' => exact ⟨s, s', h0, h1, h2, h3, h4, h5, ho⟩
  | raised e => exact absurd ho (h6 _ e)
  | outOfFuel =>
    have := clock_fuel _ _ (fun _ _ h => step_frame (cboInner_frame _) h) T (fun s p h => by
      simp only [Example.flEnv] at h; injection h with h; subst h; rfl) _ s h1 ho k (Nat.lt_succ_self k)
    rw [h3, h4] at this
    exact absurd hk (not_le.2 this)

end Verif
