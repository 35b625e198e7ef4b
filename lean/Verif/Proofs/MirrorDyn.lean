import Verif.Model.Moves
import Verif.Proofs.MoveTotal
import Verif.Props.Mirror
import Verif.Spec.ExampleReal
import Verif.Props.Hull

/-! Helper lemmas for `Props/MirrorDyn.lean`. -/

set_option linter.unusedSectionVars false

namespace Verif

variable {K V : Type} [Zero K] [One K] [Neg K] [Add K] [Sub K] [Mul K] [Inv K] [Div K] [NatCast K] [Pow K ℕ] [LinearOrder K] [Add V] [Sub V] [SMul K V]

/-- What a mirror move does. -/
theorem mirrorMove_facts {env : Env K V} {gc : V → V} {s s' : St K V} (h : mirrorMove env gc s = .ok s') :
    MoveFrame s s' ∧ (s'.x.rows = s.x.rows ∧ s'.x.cols = s.x.cols) ∧
      (∃ l, s'.log = s.log ++ l ∧ ∀ q ∈ l, q.1 ≠ Site.energy) ∧
      (∀ m n, s'.x.get m n = gc (s'.aux1.get m n)) ∧
      (s'.aux1.rows = s.aux1.rows ∧ s'.aux1.cols = s.aux1.cols) ∧
      (∀ m n, ¬ s.pIdx.Sel m n → s'.aux1.get m n = s.aux1.get m n) ∧
      (∀ m n, s.pIdx.Sel m n → ∃ d z : V, s'.aux1.get m n = s.aux1.get m n + cboUpdate s.lamda s.dt s.sigma d z) := by
  unfold mirrorMove at h
  split at h
  · simp at h
  · simp only [bind_ok, pure_ok] at h
    obtain ⟨xp, _, d, _, ⟨d', s1⟩, hc, n, _, u, hu, y, hy, rfl⟩ := h
    obtain ⟨h1, l, h2, h3⟩ := correction_facts hc
    simp only at h1 h2 hy
    obtain ⟨-, e1, e2, e3, e4, -⟩ := Mat.scatterAdd_ok hy
    have ex : s1.x = s.x := by rw [h1]
    have ea : s1.aux1 = s.aux1 := by rw [h1]
    have ep : s1.pIdx = s.pIdx := by rw [h1]
    rw [ea] at e1 e2 e3 e4
    rw [ep] at e3 e4
    refine ⟨?_, ⟨by simp only [ex], by simp only [ex]⟩, ⟨l, h2, h3⟩, fun _ _ => rfl, ⟨e1, e2⟩, e3, ?_⟩
    swap
    · intro m n hs
      obtain ⟨i, _, j, _, _, _, g⟩ := e4 m n hs
      obtain ⟨-, -, hg⟩ := Mat.bin_ok hu
      have l1 : s1.lamda = s.lamda := by rw [h1]
      have l2 : s1.dt = s.dt := by rw [h1]
      have l3 : s1.sigma = s.sigma := by rw [h1]
      rw [hg, l1, l2, l3] at g
      exact ⟨_, _, g⟩
    unfold MoveFrame
    simp only
    rw [h1]

theorem mirrorMove_ok (env : Env K V) (gc : V → V) : MoveOK (mirrorMove env gc) :=
  ⟨fun _ _ h => (mirrorMove_facts h).1, fun _ _ h => (mirrorMove_facts h).2.1.1, fun _ _ h => (mirrorMove_facts h).2.1.2,
    fun _ _ h => (mirrorMove_facts h).2.2.1⟩

/-- Dual and primal variables after a step. -/
theorem mirrorStep_facts {env : Env K V} {gc p : V → V} (hpm : PostMap env p) {s s' : St K V}
    (h : step env (consThen env (mirrorMove env gc)) s = .ok s') :
    (∀ m n, s'.x.get m n = p (gc (s'.aux1.get m n))) ∧
      (s'.aux1.rows = s.aux1.rows ∧ s'.aux1.cols = s.aux1.cols) ∧
      (∀ m n, ¬ s'.pIdx.Sel m n → s'.aux1.get m n = s.aux1.get m n) ∧
      (∀ m n, s'.pIdx.Sel m n → ∃ d z : V, s'.aux1.get m n = s.aux1.get m n + cboUpdate s.lamda s.dt s.sigma d z) := by
  have f := step_frame (consThen_frame (mirrorMove_ok env gc)) h
  obtain ⟨v, hv, hps⟩ := step_split.1 h
  obtain ⟨c, hcc, hmv⟩ := consThen_split.1 hv
  have p1 := preStep_frame env s
  have cf := computeConsensus_frame hcc
  have pf := postStep_facts hps
  have hx := pf.post
  rw [hpm v] at hx
  injection hx with hx
  obtain ⟨-, -, -, g1, g2, g3, g4⟩ := mirrorMove_facts hmv
  have ca : c.aux1 = s.aux1 := by rw [cf]; simp only; rw [p1]
  have va : s'.aux1 = v.aux1 := by rw [pf.frame]
  have ci : c.pIdx = s'.pIdx := by rw [f.pIdx, cf]
  have l1 : c.lamda = s.lamda := by rw [cf]; simp only; rw [p1]
  have l2 : c.dt = s.dt := by rw [cf]; simp only; rw [p1]
  have l3 : c.sigma = s.sigma := by rw [cf]; simp only; rw [p1]
  rw [ca] at g2 g3 g4
  rw [ci] at g3 g4
  rw [l1, l2, l3] at g4
  refine ⟨fun m n => ?_, by rw [va]; exact g2, fun m n hs => by rw [va]; exact g3 m n hs, fun m n hs => by rw [va]; exact g4 m n hs⟩
  rw [va, ← g1, ← hx]
  rfl

/-- The dual variable keeps the shape of the ensemble. -/
theorem mirror_batchSize {env : Env K V} {gc p : V → V} (hpm : PostMap env p) (hp : PermOK env) {a : Args K V} {ops : List Op}
    {s₀ s : St K V} (h0 : init env a = .ok s₀) (h : execAll env (consThen env (mirrorMove env gc)) ops s₀ = .ok s) :
    s.batchSize = s₀.batchSize :=
  (execAll_induct (P := fun s => s.batchSize = s₀.batchSize) (mirrorMove_ok env gc) hpm.ok hp
    (fun o q q' _ hq hx => by
      cases o with
      | step =>
        have f := step_frame (consThen_frame (mirrorMove_ok env gc)) hx
        rw [f.batchSize]; exact hq
      | select => rw [select_frame hx]; exact hq
      | sched => rw [sched_frame hx]; exact hq
      | reset =>
        simp only [exec] at hx
        injection hx with hx
        rw [← hx]; exact hq) ops s₀ s (init_wf hp h0) rfl h).2

theorem mirror_shape {env : Env K V} {gc p : V → V} (hpm : PostMap env p) (hp : PermOK env) {a : Args K V} {ops : List Op}
    {s₀ s : St K V} (h0 : init env a = .ok s₀) (h : execAll env (consThen env (mirrorMove env gc)) ops s₀ = .ok s) :
    WF s ∧ (s.aux1.rows = s.M ∧ s.aux1.cols = s.N) ∧ (a.saveInt ≠ 0 → s.saveInt ≠ 0) := by
  have hw0 := init_wf hp h0
  have i0 : (s₀.aux1.rows = s₀.M ∧ s₀.aux1.cols = s₀.N) ∧ (a.saveInt ≠ 0 → s₀.saveInt ≠ 0) := by
    unfold init at h0
    split_ifs at h0
    all_goals
      injection h0 with h0
      subst h0
      exact ⟨⟨rfl, rfl⟩, id⟩
  exact execAll_induct (P := fun s => (s.aux1.rows = s.M ∧ s.aux1.cols = s.N) ∧ (a.saveInt ≠ 0 → s.saveInt ≠ 0))
    (mirrorMove_ok env gc) hpm.ok hp
    (fun o q q' _ hq hx => by
      cases o with
      | step =>
        have f := step_frame (consThen_frame (mirrorMove_ok env gc)) hx
        obtain ⟨-, ⟨a1, a2⟩, -⟩ := mirrorStep_facts hpm hx
        rw [a1, a2, f.M, f.N, f.saveInt]; exact hq
      | select => rw [select_frame hx]; exact hq
      | sched => rw [sched_frame hx]; exact hq
      | reset =>
        simp only [exec] at hx
        injection hx with hx
        subst hx
        exact ⟨hq.1, fun _ => one_ne_zero⟩) ops s₀ s hw0 i0 h

/-- A rational instance: the mirror map is the projection to `[0, 5/4]`, one run stops after the first check. -/
def Example.mirrorClip (v : ℚ) : ℚ := max 0 (min (5 / 4) v)

theorem clip_closer {ι : Type} [Fintype ι] (T : ℝ) (c v : ι → ℝ) (hc : ∀ i, |c i| ≤ T) : dist2 (clipVec T v) c ≤ dist2 v c := by
  unfold dist2 dotProduct
  refine Finset.sum_le_sum fun i _ => ?_
  obtain ⟨h1, h2⟩ := abs_le.1 (hc i)
  simp only [Pi.sub_apply, clipVec]
  rcases le_total (v i) (-T) with h | h
  · rw [max_eq_right h, min_eq_left (by linarith)]
    nlinarith
  · rw [max_eq_left h]
    rcases le_total (v i) T with h' | h'
    · rw [min_eq_left h']
    · rw [min_eq_right h']
      nlinarith

/-- Surroundings for the hyperplane: clipping at 3, zero noise. -/
noncomputable def Example.planeEnv : Env ℝ (Fin 2 → ℝ) :=
  { Example.realEnv (fun s => match s.drift with
      | some d => .ok ⟨d.rows, d.cols, fun _ _ => 0⟩
      | none => .error .attribute) with post := postFinite 3 }

/-- One particle at `(4, -2)`. -/
noncomputable def Example.planeArgs : Args ℝ (Fin 2 → ℝ) :=
  { Example.realArgs (fun _ _ => ![4, -2]) 0 none with x0 := ⟨1, 1, fun _ _ => ![4, -2]⟩, lamda := 0 }

theorem Example.planeEnv_ok : EnvOK Example.planeEnv where
  corr := rfl
  mean := ⟨_, rfl⟩
  noise := by
    intro s d hd
    simp only [Example.planeEnv, Example.realEnv, hd]
    exact ⟨_, rfl, rfl, rfl⟩
  post _ := ⟨_, rfl, rfl, rfl⟩
  sched _ := ⟨_, rfl⟩

end Verif
