import Verif.Proofs.MirrorDyn

/-! C33: particles of `MirrorCBO` are images of the mirror map. -/

set_option linter.unusedSectionVars false

namespace Verif

variable {K V : Type} [Zero K] [One K] [Neg K] [Add K] [Sub K] [Mul K] [Inv K] [Div K] [NatCast K] [Pow K ℕ] [LinearOrder K] [Add V] [Sub V] [SMul K V]

/-- **C33, part 1**: after every sequence of operations containing at least one step — with arbitrary noise, batches, stopped runs,
scheduler updates and resets — every particle is `post_process(grad_conj(y))`. -/
theorem C33_image (env : Env K V) (gc p : V → V) (hpm : PostMap env p) (ops : List Op) (s₀ s : St K V)
    (h : execAll env (consThen env (mirrorMove env gc)) ops s₀ = .ok s) (hs : Op.step ∈ ops) :
    ∀ m n, s.x.get m n = p (gc (s.aux1.get m n)) := by
  have keep : ∀ (l : List Op) (q : St K V), (∀ m n, q.x.get m n = p (gc (q.aux1.get m n))) →
      execAll env (consThen env (mirrorMove env gc)) l q = .ok s → ∀ m n, s.x.get m n = p (gc (s.aux1.get m n)) := by
    intro l
    induction l with
    | nil =>
      intro q hq h
      simp only [execAll] at h
      injection h with h
      subst h
      exact hq
    | cons o l ih =>
      intro q hq h
      simp only [execAll, bind_ok] at h
      obtain ⟨r, hr, hl⟩ := h
      refine ih r ?_ hl
      cases o with
      | step => exact (mirrorStep_facts hpm hr).1
      | select => rw [select_frame hr]; exact hq
      | sched => rw [sched_frame hr]; exact hq
      | reset =>
        simp only [exec] at hr
        injection hr with hr
        subst hr
        exact hq
  induction ops generalizing s₀ with
  | nil => simp at hs
  | cons o l ih =>
    simp only [execAll, bind_ok] at h
    obtain ⟨r, hr, hl⟩ := h
    by_cases ho : o = .step
    · subst ho
      exact keep l r (mirrorStep_facts hpm hr).1 hl
    · exact ih r hl (by
        rcases List.mem_cons.1 hs with h | h
        · exact absurd h.symm ho
        · exact h)

/-- **C33, part 2**: the dual variable keeps the shape of the ensemble and changes only at particles selected in the step. -/
theorem C33_dual (env : Env K V) (gc p : V → V) (hpm : PostMap env p) (hp : PermOK env) (a : Args K V) (ops : List Op)
    (s₀ s : St K V) (h0 : init env a = .ok s₀) (h : execAll env (consThen env (mirrorMove env gc)) ops s₀ = .ok s) :
    (s.aux1.rows = s.x.rows ∧ s.aux1.cols = s.x.cols) ∧
      ∀ s', step env (consThen env (mirrorMove env gc)) s = .ok s' → ∀ m n, m ∉ s.active → s'.aux1.get m n = s.aux1.get m n := by
  obtain ⟨hw, ⟨r1, r2⟩, -⟩ := mirror_shape hpm hp h0 h
  refine ⟨⟨by rw [r1, hw.xr], by rw [r2, hw.xc]⟩, fun s' hs m n hm => ?_⟩
  have f := step_frame (consThen_frame (mirrorMove_ok env gc)) hs
  refine (mirrorStep_facts hpm hs).2.2.1 m n fun hsel => hm ?_
  rw [f.pIdx] at hsel
  exact (pSel_active hp hw hsel).1

/-- **C33, part 3**: if every image of the mirror map lies in a set that post processing does not leave, then after every sequence of
operations with at least one step all particles lie in the set, whatever the noise. -/
theorem C33_feasible (env : Env K V) (gc p : V → V) (hpm : PostMap env p) (S : V → Prop) (hS : ∀ y, S (gc y))
    (hp : ∀ v, S v → S (p v)) (ops : List Op) (s₀ s : St K V)
    (h : execAll env (consThen env (mirrorMove env gc)) ops s₀ = .ok s) (hs : Op.step ∈ ops) : ∀ m n, S (s.x.get m n) := by
  intro m n
  rw [C33_image env gc p hpm ops s₀ s h hs m n]
  exact hp _ (hS _)

/-- **C33, part 4**: with noise of the right shape and without drift correction no step of `MirrorCBO` raises, after any sequence of
operations; as in `C19_never_raises_partial` the step has particles, unless this is not needed. -/
theorem C33_total (env : Env K V) (gc p : V → V) (hpm : PostMap env p) (hp : PermOK env) (he : EnvOK env) (a : Args K V)
    (ha : a.saveInt ≠ 0) (hb : env.emptyRaises = true → a.batchSize ≠ some 0) (ops : List Op) (s₀ s : St K V) (h0 : init env a = .ok s₀)
    (h : execAll env (consThen env (mirrorMove env gc)) ops s₀ = .ok s) (hact : env.emptyRaises = true → s.active ≠ []) :
    ∃ s', step env (consThen env (mirrorMove env gc)) s = .ok s' := by
  obtain ⟨hw, hs, hi⟩ := mirror_shape hpm hp h0 h
  have hne : NonEmpty env s := fun h1 => ⟨hact h1, by rw [mirror_batchSize hpm hp h0 h]; exact init_batch_pos h0 (hb h1)⟩
  exact step_total_of (mirrorMove_ok env gc) he.mean he.post hp hw (hi ha) hne fun c cm _ hr =>
    mirrorMove_total gc he.corr hw hs hr fun q d h _ _ _ _ => he.noise q d h

/-- The hypotheses hold on a run with batches, a stopped run and a reset, in which particles are moved onto the boundary. -/
example : PostMap Example.env (fun v => max (-100) (min 100 v)) ∧ PermOK Example.env ∧
    (match (do let s₀ ← init Example.env (Example.args [.maxIt (some 3), .energyTol (.fin 2)] (some 2))
               execAll Example.env (consThen Example.env (mirrorMove Example.env Example.mirrorClip))
                [.step, .select, .step, .reset, .step, .sched] s₀ : Except Err (St ℚ ℚ)) with
      | .ok s => decide (s.x.get 1 0 = 5 / 4 ∧ s.aux1.get 1 0 = 19 / 4 ∧ s.x.get 0 0 = 9 / 8 ∧ s.active = [1])
      | .error _ => false) = true := by
  refine ⟨fun _ => rfl, ?_, by decide +kernel⟩
  intro N c m j hj
  simp only [Example.env, if_pos hj]
  exact Nat.mod_lt _ (by omega)

section real
variable {ι : Type} [Fintype ι]
open Mirror

/-- **C33, projection to a ball**: with the default post processing (clipping to `[-T, T]`, default `T = 10⁸`) and centre in the clipping
box, every particle is in the ball after every step: all noise outcomes, batches, stopped runs, dimensions. -/
theorem C33_ball (env : Env ℝ (ι → ℝ)) (T r : ℝ) (hr : 0 < r) (c : ι → ℝ) (hc : ∀ i, |c i| ≤ T) (hpost : env.post = postFinite T)
    (ops : List Op) (s₀ s : St ℝ (ι → ℝ)) (h : execAll env (consThen env (mirrorMove env (ballConj r c))) ops s₀ = .ok s)
    (hs : Op.step ∈ ops) : ∀ m n, InBall c r (s.x.get m n) :=
  C33_feasible env (ballConj r c) (clipVec T) (fun s => by rw [hpost]; rfl) (InBall c r) (ball_mem r hr c)
    (fun v hv => (clip_closer T c v hc).trans hv) ops s₀ s h hs

/-- **C33, simplex**: the particles stay in the probability simplex. -/
theorem C33_simplex [Nonempty ι] (env : Env ℝ (ι → ℝ)) (T : ℝ) (hT : 1 ≤ T) (hpost : env.post = postFinite T)
    (ops : List Op) (s₀ s : St ℝ (ι → ℝ)) (h : execAll env (consThen env (mirrorMove env simplexConj)) ops s₀ = .ok s)
    (hs : Op.step ∈ ops) : ∀ m n, InSimplex (s.x.get m n) := by
  refine C33_feasible env simplexConj (clipVec T) (fun s => by rw [hpost]; rfl) InSimplex ?_ ?_ ops s₀ s h hs
  · exact fun y => (C31_simplex y).1
  · intro v hv
    have : clipVec T v = v := by
      refine clipVec_id T v fun i => ⟨by linarith [hv.1 i], ?_⟩
      have : v i ≤ ∑ j, v j := Finset.single_le_sum (fun j _ => hv.1 j) (Finset.mem_univ i)
      linarith [hv.2]
    rw [this]
    exact hv

/-- **C33, hyperplane** (partial): feasible as long as clipping does not act on the projected points. Missing: the general case, which is
false (`C33_plane_false`). -/
theorem C33_plane_partial (env : Env ℝ (ι → ℝ)) (T : ℝ) (a : ι → ℝ) (ha : a ≠ 0) (b : ℝ) (hpost : env.post = postFinite T)
    (ops : List Op) (s₀ s : St ℝ (ι → ℝ)) (h : execAll env (consThen env (mirrorMove env (planeConj (some a) b))) ops s₀ = .ok s)
    (hs : Op.step ∈ ops) (m n : ℕ) (hin : ∀ i, |s.x.get m n i| < T) : InPlane a b (s.x.get m n) := by
  have e := C33_image env (planeConj (some a) b) (clipVec T) (fun s => by rw [hpost]; rfl) ops s₀ s h hs m n
  set v := planeConj (some a) b (s.aux1.get m n) with hv
  have : s.x.get m n = v := by
    rw [e]
    funext i
    have h1 := hin i
    rw [e] at h1
    obtain ⟨h2, h3⟩ := abs_lt.1 h1
    simp only [clipVec] at h2 h3 ⊢
    rcases min_lt_iff.1 h3 with h4 | h4
    · rw [min_eq_left h4.le] at h2 ⊢
      rcases lt_max_iff.1 h2 with h5 | h5
      · rw [max_eq_left h5.le]
      · exact absurd h5 (lt_irrefl _)
    · exact absurd h4 (lt_irrefl _)
  rw [this]
  exact C31_plane a ha b _

/-- **C33 is false for a hyperplane**: clipping moves points off the plane. On `x₀ + 2 x₁ = 0` with threshold 3 the only particle sits on the
plane at the start, and after one step that does not move it in the dual space it is off the plane. -/
theorem C33_plane_false : ∃ s₀ s, init Example.planeEnv Example.planeArgs = .ok s₀ ∧
    step Example.planeEnv (consThen Example.planeEnv (mirrorMove Example.planeEnv (planeConj (some ![1, 2]) 0))) s₀ = .ok s ∧
    InPlane ![1, 2] 0 (s₀.x.get 0 0) ∧ s.aux1.get 0 0 = s₀.aux1.get 0 0 ∧ ¬ InPlane ![1, 2] 0 (s.x.get 0 0) := by
  have hp : PermOK Example.planeEnv := Example.perm_ok fun _ => .error .value
  have hpm : PostMap Example.planeEnv (clipVec 3) := fun _ => rfl
  have e0 : ∃ s₀, init Example.planeEnv Example.planeArgs = .ok s₀ ∧ s₀.x.get 0 0 = ![4, -2] ∧ s₀.aux1.get 0 0 = ![4, -2] ∧
      s₀.lamda = 0 ∧ s₀.sigma = 0 := ⟨_, rfl, rfl, rfl, rfl, rfl⟩
  obtain ⟨s₀, h0, hx, hy, hl, hsg⟩ := e0
  obtain ⟨s, hs⟩ := C33_total Example.planeEnv (planeConj (some ![1, 2]) 0) _ hpm hp Example.planeEnv_ok Example.planeArgs
    (by simp [Example.planeArgs, Example.realArgs]) (fun h => by cases h) [] s₀ s₀ h0 rfl (fun h => by cases h)
  obtain ⟨f1, -, f3, f4⟩ := mirrorStep_facts hpm hs
  have ha : s.aux1.get 0 0 = s₀.aux1.get 0 0 := by
    by_cases hsel : s.pIdx.Sel 0 0
    · obtain ⟨d, z, e⟩ := f4 0 0 hsel
      rw [e, hl, hsg]
      simp [cboUpdate]
    · exact f3 0 0 hsel
  refine ⟨s₀, s, h0, hs, ?_, ha, ?_⟩
  · rw [hx]; simp [InPlane, dotProduct, Fin.sum_univ_two]; norm_num
  · rw [f1, ha, hy]
    have : planeConj (some ![1, 2]) 0 (![4, -2] : Fin 2 → ℝ) = ![4, -2] := by
      funext i; fin_cases i <;> simp [planeConj, planeInit, Fin.sum_univ_two] <;> norm_num
    rw [this]
    simp [InPlane, dotProduct, Fin.sum_univ_two, clipVec]
    norm_num

/-- The hypotheses of `C33_ball`, `C33_simplex`, `C33_plane_partial` are met: steps exist from the constructed state. -/
example : ∃ s₀ s, execAll Example.planeEnv (consThen Example.planeEnv (mirrorMove Example.planeEnv (ballConj 2 ![1, 0]))) [.step] s₀ = .ok s ∧
    InBall ![1, 0] 2 (s.x.get 0 0) := by
  have hp : PermOK Example.planeEnv := Example.perm_ok fun _ => .error .value
  have e0 : ∃ s₀, init Example.planeEnv Example.planeArgs = .ok s₀ := ⟨_, rfl⟩
  obtain ⟨s₀, h0⟩ := e0
  obtain ⟨s, hs⟩ := C33_total Example.planeEnv (ballConj 2 ![1, 0]) (clipVec 3) (fun _ => rfl) hp Example.planeEnv_ok Example.planeArgs
    (by simp [Example.planeArgs, Example.realArgs]) (fun h => by cases h) [] s₀ s₀ h0 rfl (fun h => by cases h)
  have hs1 : exec Example.planeEnv (consThen Example.planeEnv (mirrorMove Example.planeEnv (ballConj 2 ![1, 0]))) .step s₀ = .ok s := hs
  have hs' : execAll Example.planeEnv (consThen Example.planeEnv (mirrorMove Example.planeEnv (ballConj 2 ![1, 0]))) [.step] s₀ = .ok s := by
    simp [execAll, hs1, bind, Except.bind]
  exact ⟨s₀, s, hs', C33_ball Example.planeEnv 3 2 (by norm_num) ![1, 0] (by intro i; fin_cases i <;> norm_num) rfl [.step] s₀ s hs'
    (by simp) 0 0⟩

end real

end Verif
