import Verif.Proofs.Units
import Verif.Props.Greedy
import Verif.Props.Affine

/-! # C116: the units of the variables do not matter with anisotropic noise -/

set_option linter.unusedSectionVars false

namespace Verif

section
variable {ι : Type} [Fintype ι] [DecidableEq ι]

/-- **C116.** CBO with anisotropic noise and any batches. Change the unit of every variable (factor `a l`, any real number, each variable its own), the order of the variables and their origins; carry objective and post processing along. If
the second dynamic draws the same batches and for every variable the random numbers the first one draws for it (with the order unchanged: the same random numbers), then after every number of steps all particles of the running
runs and the consensus points are those of the first dynamic in the new units. -/
theorem C116_steps (env env' : Env ℝ (ι → ℝ)) (f f' : (ι → ℝ) → ℝ) (p p' : (ι → ℝ) → ι → ℝ) (smp : ℕ → ℕ → ℕ → ι → ℝ) (u : ι → ℝ) (π : ι → ι) (b : ι → ℝ)
    (hE : Standard env f (fun c dt i j d => Real.sqrt dt • anisoRule d (smp c i j)) p) (hE' : Standard env' f' (fun c dt i j d => Real.sqrt dt • anisoRule d fun l => smp c i j (π l)) p') (hperm : env'.perm = env.perm)
    (hf : ∀ v, f' (unitsMap u π b v) = f v) (hp : ∀ v, p' (unitsMap u π b v) = unitsMap u π b (p v))
    (a a' : Args ℝ (ι → ℝ)) (hb : a.batchSize ≠ some 0) (s₀ t₀ : St ℝ (ι → ℝ)) (ops ops' : List Op) (σ τ : ℕ → St ℝ (ι → ℝ))
    (h0 : init env a = .ok s₀) (h : execAll env (cboInner env) ops s₀ = .ok (σ 0)) (hσ : ∀ k, step env (cboInner env) (σ k) = .ok (σ (k + 1)))
    (h0' : init env' a' = .ok t₀) (h' : execAll env' (cboInner env') ops' t₀ = .ok (τ 0)) (hτ : ∀ k, step env' (cboInner env') (τ k) = .ok (τ (k + 1)))
    (hsame : SameCourse (τ 0) (σ 0)) (halpha : ∀ m ∈ (σ 0).active, (τ 0).alpha m = (σ 0).alpha m)
    (hx : ∀ m ∈ (σ 0).active, ∀ n < (σ 0).N, (τ 0).x.get m n = unitsMap u π b ((σ 0).x.get m n)) :
    ∀ k, (∀ m ∈ (σ 0).active, ∀ n < (σ 0).N, (τ k).x.get m n = unitsMap u π b ((σ k).x.get m n)) ∧
      ∃ c c', (σ (k + 1)).cons = some c ∧ (τ (k + 1)).cons = some c' ∧ ∀ i < (σ 0).active.length, c'.get i 0 = unitsMap u π b (c.get i 0) := by
  simp only [unitsMap_eq] at hf hp hx ⊢
  have hi : InnerFrame (cboInner env) := by rw [cboInner_eq]; exact consThen_frame (cboMove_ok env)
  have hi' : InnerFrame (cboInner env') := by rw [cboInner_eq]; exact consThen_frame (cboMove_ok env')
  have ws0 := std_reach hE hb h0 h
  have wt0 : WF (τ 0) := by
    rw [cboInner_eq] at h'
    exact (execAll_induct (cboMove_ok env') hE'.post.ok hE'.perm (P := fun _ => True) (fun _ _ _ _ _ _ => trivial) ops' t₀ (τ 0) (init_wf hE'.perm h0') trivial h').1
  have hν : ∀ (c : ℕ) (dt : ℝ) (i j : ℕ) (d : ι → ℝ), Real.sqrt dt • anisoRule (Matrix.mulVec (unitsMat u π) d) (fun l => smp c i j (π l)) = Matrix.mulVec (unitsMat u π) (Real.sqrt dt • anisoRule d (smp c i j)) := by
    intro c dt i j d
    funext l
    simp only [Pi.smul_apply, smul_eq_mul, anisoRule, unitsMat_mulVec]
    ring
  have inv : ∀ k, WF (σ k) ∧ WF (τ k) ∧ 1 ≤ (σ k).batchSize ∧ SameCourse (τ k) (σ k) ∧ (σ k).active = (σ 0).active ∧ (σ k).N = (σ 0).N ∧ (∀ m ∈ (σ 0).active, (τ k).alpha m = (σ k).alpha m) ∧
      ∀ m ∈ (σ 0).active, ∀ n < (σ 0).N, (τ k).x.get m n = affMap (unitsMat u π) b ((σ k).x.get m n) := by
    intro k
    induction k with
    | zero => exact ⟨ws0.1, wt0, ws0.2, hsame, rfl, rfl, halpha, hx⟩
    | succ k ih =>
      obtain ⟨i1, i2, i3, i4, i5, i6, i7, i8⟩ := ih
      obtain ⟨o1, o2, -⟩ := image_step hE hE' hperm (unitsMat u π) b hf hp hν i1 i2 i3 i4 (by rw [i5]; exact i7) (by rw [i5, i6]; exact i8) (hσ k) (hτ k)
      have fr := step_frame hi (hσ k)
      have fr' := step_frame hi' (hτ k)
      rw [i5, i6] at o2
      exact ⟨step_wf (cboMove_ok env) hE.post.ok hE.perm i1 (by rw [← cboInner_eq]; exact hσ k), step_wf (cboMove_ok env') hE'.post.ok hE'.perm i2 (by rw [← cboInner_eq]; exact hτ k), by rw [fr.batchSize]; exact i3, o1,
        by rw [fr.active, i5], by rw [fr.N, i6], fun m hm => by rw [fr.alpha, fr'.alpha]; exact i7 m hm, o2⟩
  intro k
  obtain ⟨i1, i2, i3, i4, i5, i6, i7, i8⟩ := inv k
  obtain ⟨-, -, o3⟩ := image_step hE hE' hperm (unitsMat u π) b hf hp hν i1 i2 i3 i4 (by rw [i5]; exact i7) (by rw [i5, i6]; exact i8) (hσ k) (hτ k)
  rw [i5] at o3
  exact ⟨i8, o3⟩

end

/-- The second dynamic of the example: variables exchanged, one in thousandths, one in halves, one origin moved. -/
noncomputable def Example.unitsEnv : Env ℝ (Fin 2 → ℝ) :=
  { Example.realEnv (rowNoise anisoRule fun c i j l => Example.smp c i j (![1, 0] l)) with f := fun w => .fin ((w 1 / 2) ^ 2 + ((w 0 - 5) / 1000) ^ 2), post := fun s => .ok s.x }

/-- C116: two runs of four particles, batches of 3, anisotropic noise; `w = (1000 v₁ + 5, 2 v₀)`. -/
example : ∃ σ τ : ℕ → St ℝ (Fin 2 → ℝ),
    init (Example.ellEnv (rowNoise anisoRule Example.smp)) (Example.realArgs (fun m n => ![n, m]) 3 (some 3)) = .ok (σ 0) ∧
    (∀ k, step (Example.ellEnv (rowNoise anisoRule Example.smp)) (cboInner (Example.ellEnv (rowNoise anisoRule Example.smp))) (σ k) = .ok (σ (k + 1))) ∧
    init Example.unitsEnv (Example.realArgs (fun m n => ![1000 * m + 5, 2 * n]) 3 (some 3)) = .ok (τ 0) ∧ (∀ k, step Example.unitsEnv (cboInner Example.unitsEnv) (τ k) = .ok (τ (k + 1))) ∧
    ∀ k, ∀ m < 2, ∀ n < 4, (τ k).x.get m n = ![1000 * (σ k).x.get m n 1 + 5, 2 * (σ k).x.get m n 0] := by
  have init_ok : ∀ (env : Env ℝ (Fin 2 → ℝ)) x, ∃ s, init env (Example.realArgs x 3 (some 3)) = .ok s := fun env x => by
    unfold init
    rw [if_neg (by simp [Example.realArgs])]
    exact ⟨_, rfl⟩
  obtain ⟨s0, hs0⟩ := init_ok (Example.ellEnv (rowNoise anisoRule Example.smp)) fun m n => ![n, m]
  obtain ⟨t0, ht0⟩ := init_ok Example.unitsEnv fun m n => ![1000 * m + 5, 2 * n]
  have hp1 : PermOK (Example.ellEnv (rowNoise anisoRule Example.smp)) := Example.perm_ok (rowNoise anisoRule Example.smp)
  have hp2 : PermOK Example.unitsEnv := Example.perm_ok (rowNoise anisoRule Example.smp)
  have q1 : PostMap (Example.ellEnv (rowNoise anisoRule Example.smp)) id := fun s => rfl
  have q2 : PostMap Example.unitsEnv id := fun s => rfl
  have facts : SameCourse t0 s0 ∧ (∀ m, t0.alpha m = s0.alpha m) ∧ (∀ m n, s0.x.get m n = ![(n : ℝ), (m : ℝ)]) ∧ (∀ m n, t0.x.get m n = ![1000 * (m : ℝ) + 5, 2 * (n : ℝ)]) ∧ s0.active = [0, 1] ∧ s0.N = 4 ∧ s0.saveInt = 2 ∧ t0.saveInt = 2 := by
    unfold init at hs0 ht0
    simp only [Example.realArgs, if_neg (show ¬ (4 : ℕ) = 0 by omega)] at hs0 ht0
    have a1 := Except.ok.inj hs0
    have a2 := Except.ok.inj ht0
    clear hs0 ht0
    refine ⟨?_, fun m => ?_, fun m n => ?_, fun m n => ?_, ?_, ?_, ?_, ?_⟩
    all_goals first
      | (rw [← a1, ← a2]; constructor <;> rfl)
      | (rw [← a1, ← a2]; rfl)
      | (rw [← a1]; rfl)
      | (rw [← a2]; rfl)
  obtain ⟨c1, c2, c3, c4, c5, c6, c7, c8⟩ := facts
  obtain ⟨σ, σ0, hσ⟩ := cbo_path (env := Example.ellEnv (rowNoise anisoRule Example.smp)) rfl ⟨_, rfl⟩ rfl q1 hp1 rfl s0 (init_wf hp1 hs0) (by omega)
  obtain ⟨τ, τ0, hτ⟩ := cbo_path (env := Example.unitsEnv) (rule := anisoRule) (smp := fun c i j l => Example.smp c i j (![1, 0] l)) rfl ⟨_, rfl⟩ rfl q2 hp2 rfl t0 (init_wf hp2 ht0) (by omega)
  refine ⟨σ, τ, by rw [σ0]; exact hs0, hσ, by rw [τ0]; exact ht0, hτ, ?_⟩
  have key := C116_steps (Example.ellEnv (rowNoise anisoRule Example.smp)) Example.unitsEnv (fun v => v 0 ^ 2 + v 1 ^ 2) (fun w => (w 1 / 2) ^ 2 + ((w 0 - 5) / 1000) ^ 2) id id Example.smp ![1000, 2] ![1, 0] ![5, 0]
    ⟨rfl, rfl, rowNoise_rows rfl, q1, hp1, fun _ => rfl⟩ ⟨rfl, rfl, rowNoise_rows rfl, q2, hp2, fun _ => rfl⟩ rfl
    (fun v => by simp [unitsMap]) (fun v => rfl) _ _ (by simp [Example.realArgs]) s0 t0 [] [] σ τ hs0 (by rw [σ0]; rfl) hσ ht0 (by rw [τ0]; rfl) hτ (by rw [σ0, τ0]; exact c1) (fun m _ => by rw [σ0, τ0]; exact c2 m) (by
      intro m _ n _
      rw [σ0, τ0, c3, c4]
      funext l
      fin_cases l <;> simp [unitsMap])
  intro k m hm n hn
  rw [(key k).1 m (by rw [σ0, c5]; interval_cases m <;> simp) n (by rw [σ0, c6]; exact hn)]
  funext l
  fin_cases l <;> simp [unitsMap]

end Verif
