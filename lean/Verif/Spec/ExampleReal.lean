import Verif.Spec.Noise
import Verif.Model.Post
import Verif.Props.Frozen

/-! A concrete dynamic on the plane over the reals, with default consensus rule, default post processing and a noise model
given as parameter; used to show that hypotheses can be met. -/

set_option linter.unusedSectionVars false

namespace Verif.Example

/-- Some arbitrary "random" numbers. -/
noncomputable def smp (c i j : ℕ) : Fin 2 → ℝ := fun l => (c : ℝ) - i + 2 * j - l.1

/-- Objective `|v|²` on the plane. -/
noncomputable def realEnv (noise : St ℝ (Fin 2 → ℝ) → Except Err (Mat (Fin 2 → ℝ))) : Env ℝ (Fin 2 → ℝ) where
  f v := .fin (v 0 ^ 2 + v 1 ^ 2)
  cons := .mean consDefault
  noise := noise
  corr := .none
  post := postFinite 100
  normDiff l := .fin ((l.map fun p => euclid (p.1 - p.2)).sum / l.length)
  sqrtK := Real.sqrt
  perm N c m j := if j < N then (j + c + m) % N else j
  sampler := smp
  custom _ _ _ := false
  sched s := .ok { alpha := fun m => min (2 * s.alpha m) 1000, lamda := s.lamda, sigma := s.sigma, dt := s.dt }

/-- Two runs of four particles at the given positions, step size 1/10. -/
noncomputable def realArgs (x : ℕ → ℕ → Fin 2 → ℝ) (sigma : ℝ) (batch : Option ℕ) : Args ℝ (Fin 2 → ℝ) where
  x0 := ⟨2, 4, x⟩
  alpha := 3
  lamda := 1
  sigma := sigma
  dt := 1 / 10
  terms := [.maxIt (some 7), .maxEval 20]
  tracks := [.x, .energy]
  saveInt := 2
  batchSize := batch
  batchPartial := true
  batchConcat := false
  checkF := true

theorem perm_ok (noise) : PermOK (realEnv noise) := by
  intro N c m j hj
  simp only [realEnv, if_pos hj]
  exact Nat.mod_lt _ (by omega)

theorem realEnv_standard (rule : (Fin 2 → ℝ) → (Fin 2 → ℝ) → Fin 2 → ℝ) :
    Standard (realEnv (rowNoise rule smp)) (fun v => v 0 ^ 2 + v 1 ^ 2)
      (fun c dt i j d => Real.sqrt dt • rule d (smp c i j)) (clipVec 100) where
  corr := rfl
  cons := rfl
  noise := by
    intro s d hd
    simp only [realEnv, rowNoise, hd]
    exact ⟨_, rfl, rfl, rfl, fun _ _ => rfl⟩
  post _ := rfl
  perm := perm_ok _
  f _ := rfl

/-- With one of the row-wise noise models the constructor succeeds and every sequence of operations succeeds. -/
theorem realEnv_runs (rule : (Fin 2 → ℝ) → (Fin 2 → ℝ) → Fin 2 → ℝ) (x : ℕ → ℕ → Fin 2 → ℝ) (sigma : ℝ) (b : Option ℕ) :
    ∃ s₀, init (realEnv (rowNoise rule smp)) (realArgs x sigma b) = .ok s₀ ∧ ∀ ops : List Op,
      ∃ s, execAll (realEnv (rowNoise rule smp)) (cboInner (realEnv (rowNoise rule smp))) ops s₀ = .ok s := by
  obtain ⟨s₀, h0, h1⟩ := C19_never_raises_partial (realEnv (rowNoise rule smp))
    ⟨rfl, ⟨_, rfl⟩, (realEnv_standard rule).noise.ok, fun s => ⟨_, rfl, rfl, rfl⟩, fun s => ⟨_, rfl⟩⟩ (perm_ok _)
    (realArgs x sigma b) (by simp [realArgs]) (by simp [realArgs]) (by
      intro tm ht
      simp only [realArgs, List.mem_cons, List.not_mem_nil, or_false] at ht
      rcases ht with rfl | rfl <;> trivial) (fun h => by cases h)
  exact ⟨s₀, h0, fun ops => let ⟨s, h, _⟩ := h1 ops (fun h => by cases h); ⟨s, h⟩⟩

end Verif.Example
