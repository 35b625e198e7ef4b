import Verif.Proofs.MirrorL2
import Verif.Props.MirrorDyn
import Verif.Model.Post

/-! Property C100: `MirrorCBO` with the default mirror map next to `CBO`. -/

set_option linter.unusedSectionVars false

namespace Verif

section
variable {K V : Type} [Field K] [LinearOrder K] [AddCommGroup V] [Module K V]

/-- **C100.** Full claim: `MirrorCBO` with mirror map `l/2 |x|²` and parameters `l * lamda`, `l * sigma` computes the same run as `CBO` with `lamda`, `sigma`; in particular (`l = 1`) `MirrorCBO` with its
default mirror map is `CBO`. Proved for every sequence of operations, any noise, batches, stopping criteria, consensus rules and corrections, as long as the particles of the `CBO` run stay where post processing
has not changed them: positions, energies, best particles, counters, histories, active runs agree, and the dual variable is `l` times the position. What is missing: runs in which post processing changes a
particle, for which it is false (`C100_clip_false`, `C100_nan_false`). -/
theorem C100_partial (env : Env K V) (p : V → V) (hpm : PostMap env p) (hpp : ∀ v, p (p v) = p v) (hp : PermOK env) (l : K) (hl : l ≠ 0) (hb : DualBlind env l) (inside : V → Prop)
    (hin : ∀ v, inside (p v) → p v = v) (a : Args K V) (s₀ s : St K V) (ops : List Op) (h0 : init env a = .ok s₀) (h : execAll env (cboInner env) ops s₀ = .ok s)
    (hbox : ∀ l₁ l₂ q, ops = l₁ ++ Op.step :: l₂ → execAll env (cboInner env) (l₁ ++ [.step]) s₀ = .ok q → ∀ m < q.M, ∀ n < q.N, inside (q.x.get m n)) :
    ∃ t₀ t, init env { a with lamda := l * a.lamda, sigma := l * a.sigma, aux1 := fun v => l • v } = .ok t₀ ∧ execAll env (consThen env (mirrorMove env fun y => l⁻¹ • y)) ops t₀ = .ok t ∧
      t = { s with lamda := l * s.lamda, sigma := l * s.sigma, aux1 := t.aux1 } ∧ ∀ m < s.M, ∀ n < s.N, t.aux1.get m n = l • s.x.get m n := by
  have i0 : init env { a with lamda := l * a.lamda, sigma := l * a.sigma, aux1 := fun v => l • v } = .ok (setDual (l * s₀.lamda) (l * s₀.sigma) (s₀.x.map (l • ·)) s₀) := by
    unfold init at h0 ⊢
    split_ifs at h0 ⊢ <;>
    · injection h0 with h0
      subst h0
      rfl
  have rel0 : DualRel p l s₀ (s₀.x.map (l • ·)) := by
    refine ⟨rfl, rfl, fun m _ n _ => rfl, fun m n _ => ?_⟩
    show p (l⁻¹ • l • s₀.x.get m n) = _
    rw [smul_smul, inv_mul_cancel₀ hl, one_smul]
  have key : ∀ (ops : List Op) (s : St K V), execAll env (cboInner env) ops s₀ = .ok s →
      (∀ l₁ l₂ q, ops = l₁ ++ Op.step :: l₂ → execAll env (cboInner env) (l₁ ++ [.step]) s₀ = .ok q → ∀ m < q.M, ∀ n < q.N, inside (q.x.get m n)) →
      ∃ A, execAll env (consThen env (mirrorMove env fun y => l⁻¹ • y)) ops (setDual (l * s₀.lamda) (l * s₀.sigma) (s₀.x.map (l • ·)) s₀) = .ok (setDual (l * s.lamda) (l * s.sigma) A s) ∧ DualRel p l s A := by
    intro ops
    induction ops using List.reverseRecOn with
    | nil =>
      intro s h _
      simp only [execAll] at h
      injection h with h
      subst h
      exact ⟨_, rfl, rel0⟩
    | append_singleton L o ih =>
      intro s h hbox
      have hall := h
      rw [execAll_append] at h
      obtain ⟨q, hq, ho⟩ := h
      obtain ⟨A, hA, hR⟩ := ih q hq fun l₁ l₂ r e hr => hbox l₁ (l₂ ++ [o]) r (by rw [e]; simp) hr
      have ho' : exec env (cboInner env) o q = .ok s := by
        simp only [execAll, bind_ok] at ho
        obtain ⟨r, h1, h2⟩ := ho
        injection h2 with h2
        rw [← h2]
        exact h1
      have fin : ∀ A' : Mat V, exec env (consThen env (mirrorMove env fun y => l⁻¹ • y)) o (setDual (l * q.lamda) (l * q.sigma) A q) = .ok (setDual (l * s.lamda) (l * s.sigma) A' s) →
          execAll env (consThen env (mirrorMove env fun y => l⁻¹ • y)) (L ++ [o]) (setDual (l * s₀.lamda) (l * s₀.sigma) (s₀.x.map (l • ·)) s₀) = .ok (setDual (l * s.lamda) (l * s.sigma) A' s) := by
        intro A' hx
        rw [execAll_append]
        refine ⟨_, hA, ?_⟩
        simp only [execAll, bind_ok]
        exact ⟨_, hx, rfl⟩
      by_cases hs : o = .step
      · subst hs
        have hw : WF q := by
          have h' := hq
          rw [cboInner_eq] at h'
          exact (execAll_induct (P := fun _ => True) (cboMove_ok env) hpm.ok hp (fun _ _ _ _ _ _ => trivial) L s₀ q (init_wf hp h0) trivial h').1
        have fr := step_frame (consThen_frame (cboMove_ok env)) (by rw [cboInner_eq] at ho'; exact ho')
        obtain ⟨A', e1, e2⟩ := step_dual hpm hp hpp hb hl hw hR ho' fun v m hm n hn e => hin v (by
          rw [e]
          exact hbox L [] s rfl hall m (by rw [fr.M]; exact hm) n (by rw [fr.N]; exact hn))
        exact ⟨A', fin A' e1, e2⟩
      · obtain ⟨e1, e2⟩ := exec_dual (i₂ := consThen env (mirrorMove env fun y => l⁻¹ • y)) hb hR hs ho'
        exact ⟨A, fin A e1, e2⟩
  obtain ⟨A, h1, h2⟩ := key ops s h hbox
  exact ⟨_, _, i0, h1, rfl, h2.2.2.1⟩

end

section real
variable {ι : Type}

/-- **C100 for the classes of the library**: `MirrorCBO` with `mirrormap = L2(l)` (default: `l = 1`) and the default post processing equals `CBO`, as long as all coordinates of the `CBO` run are smaller than the
threshold in absolute value after every step. -/
theorem C100_l2_partial (env : Env ℝ (ι → ℝ)) (T : ℝ) (hT : 0 ≤ T) (hpost : env.post = postFinite T) (hp : PermOK env) (l : ℝ) (hl : l ≠ 0) (hb : DualBlind env l) (a : Args ℝ (ι → ℝ))
    (s₀ s : St ℝ (ι → ℝ)) (ops : List Op) (h0 : init env a = .ok s₀) (h : execAll env (cboInner env) ops s₀ = .ok s)
    (hbox : ∀ l₁ l₂ q, ops = l₁ ++ Op.step :: l₂ → execAll env (cboInner env) (l₁ ++ [.step]) s₀ = .ok q → ∀ m < q.M, ∀ n < q.N, ∀ i, |q.x.get m n i| < T) :
    ∃ t₀ t, init env { a with lamda := l * a.lamda, sigma := l * a.sigma, aux1 := Mirror.l2Grad l } = .ok t₀ ∧ execAll env (consThen env (mirrorMove env (Mirror.l2Conj l))) ops t₀ = .ok t ∧
      t = { s with lamda := l * s.lamda, sigma := l * s.sigma, aux1 := t.aux1 } ∧ ∀ m < s.M, ∀ n < s.N, t.aux1.get m n = Mirror.l2Grad l (s.x.get m n) := by
  have e1 : (Mirror.l2Conj l : (ι → ℝ) → ι → ℝ) = fun y => l⁻¹ • y := by
    funext y i
    simp [Mirror.l2Conj]
  have e2 : (Mirror.l2Grad l : (ι → ℝ) → ι → ℝ) = fun y => l • y := by
    funext y i
    simp [Mirror.l2Grad]
  rw [e1, e2]
  refine C100_partial env (clipVec T) (fun s => by rw [hpost]; rfl) (fun v => ?_) hp l hl hb (fun v => ∀ i, |v i| < T) (fun v hv => ?_) a s₀ s ops h0 h hbox
  · funext i
    simp only [clipVec]
    rw [max_eq_left (le_min (le_max_right _ _) (by linarith)), min_eq_left (min_le_right _ _)]
  · funext i
    obtain ⟨h2, h3⟩ := abs_lt.1 (hv i)
    simp only [clipVec] at h2 h3 ⊢
    rcases min_lt_iff.1 h3 with h4 | h4
    · rw [min_eq_left h4.le] at h2 ⊢
      rcases lt_max_iff.1 h2 with h5 | h5
      · rw [max_eq_left h5.le]
      · exact absurd h5 (lt_irrefl _)
    · exact absurd h4 (lt_irrefl _)

end real

section nan
variable {K ι : Type} [Field K] [LinearOrder K] [IsStrictOrderedRing K]

/-- **C100 is false once a coordinate is NaN.** `MirrorCBO` with `L2(l)`: post processing repairs `x` only; a coordinate of the dual variable that is NaN stays NaN whatever is done with the dynamic, and the
coordinate of the particle is the threshold after every step. (For `CBO` the repaired particle moves on, `C100_nan_run_false`.) -/
theorem C100_nan_false (env : Env K (ι → Flt K)) (big T l : K) (hT : 0 ≤ T) (hpost : env.post = postDefault false big T) (m n : ℕ) (i : ι) (s s' : St K (ι → Flt K)) (ops : List Op)
    (h : execAll env (consThen env (mirrorMove env fun y => (1 / l) • y)) ops s = .ok s') (hy : s.aux1.get m n i = .nan) :
    s'.aux1.get m n i = .nan ∧ (Op.step ∈ ops → s'.x.get m n i = .fin T) := by
  have hpm : PostMap env (fun v i => postCoord false big T (v i)) := fun s => by rw [hpost]; rfl
  have add : ∀ y u : ι → Flt K, y i = .nan → (y + u) i = .nan := fun y u hy => by
    show Flt.add (y i) (u i) = .nan
    rw [hy]
    cases u i <;> rfl
  have hy' : s'.aux1.get m n i = .nan := by
    clear hpost
    induction ops generalizing s with
    | nil =>
      simp only [execAll] at h
      injection h with h
      subst h
      exact hy
    | cons o L ih =>
      simp only [execAll, bind_ok] at h
      obtain ⟨q, hq, hL⟩ := h
      refine ih q hL ?_
      cases o with
      | step =>
        obtain ⟨-, -, g1, g2⟩ := mirrorStep_facts hpm hq
        by_cases hs : q.pIdx.Sel m n
        · obtain ⟨d, z, e⟩ := g2 m n hs
          rw [e]
          exact add _ _ hy
        · rw [g1 m n hs]
          exact hy
      | select => rw [select_frame hq]; exact hy
      | sched => rw [sched_frame hq]; exact hy
      | reset =>
        simp only [exec] at hq
        injection hq with hq
        subst hq
        exact hy
  refine ⟨hy', fun hs => ?_⟩
  rw [C33_image env (fun y => (1 / l) • y) _ hpm ops s s' h hs m n]
  have e : ((1 / l : K) • s'.aux1.get m n) i = .nan := by
    show Flt.mul (.fin (1 / l)) (s'.aux1.get m n i) = .nan
    rw [hy']
    rfl
  show postCoord false big T (((1 / l : K) • s'.aux1.get m n) i) = .fin T
  rw [e]
  have hT' : ¬ T < -T := by
    intro h
    linarith
  simp [postCoord, Flt.nanToNum, Flt.clip, Flt.maximum, Flt.minimum, Flt.isNaN, Flt.lt, hT']

end nan

namespace Example

/-- One particle, threshold 4, first noise 8, second noise -8, then none. -/
def l2Env : Env ℚ ℚ := { env with
  noise := fun s => .ok ⟨1, 1, fun _ _ => if s.draws = 0 then 8 else if s.draws = 1 then -8 else 0⟩
  post := fun s => .ok (s.x.map fun v => max (-4) (min 4 v)) }

/-- One particle at 1, `sigma = 1`; the dual variable of the mirror map `L2(1)`. -/
def l2Args : Args ℚ ℚ := { args [] none with x0 := ⟨1, 1, fun _ _ => 1⟩, sigma := 1, checkF := false, aux1 := id }

/-- Two particles in the line with the default post processing (threshold 4); the first noise of particle 0 is NaN, later there is none; `lamda * dt = 1`. -/
def nanEnv : Env ℚ (Unit → Flt ℚ) where
  f v := v ()
  cons := .mean fun l => fun i => Flt.divNat (Flt.sum (l.map fun p => p.2.2 i)) l.length
  noise s := .ok ⟨1, 2, fun _ j => fun _ => if s.draws = 0 ∧ j = 0 then .nan else .fin 0⟩
  corr := .none
  post := postDefault false 1000 4
  normDiff _ := .fin 0
  sqrtK := id
  perm _ _ _ j := j
  sampler _ _ _ := fun _ => .fin 0
  custom _ _ _ := false
  sched s := .ok { alpha := s.alpha, lamda := s.lamda, sigma := s.sigma, dt := s.dt }

/-- Particles at 0 and 2. -/
def nanArgs : Args ℚ (Unit → Flt ℚ) where
  x0 := ⟨1, 2, fun _ j => fun _ => .fin (2 * j)⟩
  alpha := 1
  lamda := 1
  sigma := 1
  dt := 1
  terms := []
  tracks := []
  saveInt := 1
  batchSize := none
  batchPartial := true
  batchConcat := false
  checkF := false
  aux1 := fun v => (1 : ℚ) • v

end Example

open Example in
/-- **C100 is false when post processing acts.** One particle at 1, threshold 4, noise 8 and then -8: `CBO` clips to 4 and ends at -4; `MirrorCBO` with the default mirror map clips `x` but not the dual variable
and returns to 1. -/
theorem C100_clip_false : (match init l2Env l2Args with
    | .error _ => false
    | .ok s₀ => match execAll l2Env (cboInner l2Env) [.step, .step] s₀, execAll l2Env (consThen l2Env (mirrorMove l2Env fun y => (1 / 1 : ℚ) * y)) [.step, .step] s₀ with
      | .ok s, .ok t => decide (s.x.get 0 0 = -4 ∧ t.x.get 0 0 = 1 ∧ t.aux1.get 0 0 = 1)
      | _, _ => false) = true := by decide +kernel

open Example in
/-- **C100 is false after a NaN.** Particles at 0 and 2; the noise of the first step is NaN for particle 0. `CBO` repairs the particle and both end in the same point, `MirrorCBO` with the default mirror map
keeps particle 0 at the threshold in every step. -/
theorem C100_nan_run_false : (match init nanEnv nanArgs with
    | .error _ => false
    | .ok s₀ => match execAll nanEnv (cboInner nanEnv) [.step, .step, .step] s₀, execAll nanEnv (consThen nanEnv (mirrorMove nanEnv fun y => (1 / 1 : ℚ) • y)) [.step, .step, .step] s₀ with
      | .ok s, .ok t => decide (s.x.get 0 0 () = .fin (5 / 2) ∧ s.x.get 0 1 () = .fin (5 / 2) ∧ t.x.get 0 0 () = .fin 4 ∧ t.aux1.get 0 0 () = .nan)
      | _, _ => false) = true := by decide +kernel

open Example in
/-- C100: the hypotheses of `C100_partial` hold for two runs with batches, a stopping criterion, a scheduler and `l = 2`; particles move, and the box is `(-100, 100)`. -/
example : PostMap env (fun v => max (-100) (min 100 v)) ∧ PermOK env ∧ DualBlind env 2 ∧ (∀ v : ℚ, |max (-100) (min 100 v)| < 100 → max (-100) (min 100 v) = v) ∧
    (match init env (args [.maxIt (some 3), .energyTol (.fin 2)] (some 2)) with
      | .error _ => false
      | .ok s₀ => ([[Op.step], [.step, .select, .step], [.step, .select, .step, .sched, .step]].all fun l => match execAll env (cboInner env) l s₀ with
        | .ok q => decide (∀ m < q.M, ∀ n < q.N, |q.x.get m n| < 100) && decide (q.x.get 0 0 ≠ s₀.x.get 0 0)
        | .error _ => false)) = true := by
  refine ⟨fun _ => rfl, ?_, ⟨fun _ _ _ _ => rfl, fun _ _ _ _ _ => rfl, fun c h => (by cases h), fun s A p h => ?_⟩, fun v hv => ?_, by decide +kernel⟩
  · intro N c m j hj
    simp only [env, if_pos hj]
    exact Nat.mod_lt _ (by omega)
  · simp only [env, Except.ok.injEq] at h ⊢
    subst h
    rfl
  · obtain ⟨h1, h2⟩ := abs_lt.1 hv
    rcases lt_max_iff.1 h1 with h | h
    · exact absurd h (lt_irrefl _)
    · rw [max_eq_right h.le] at h2 ⊢
      rcases min_lt_iff.1 h2 with h' | h'
      · exact absurd h' (lt_irrefl _)
      · exact min_eq_right h'.le

end Verif
