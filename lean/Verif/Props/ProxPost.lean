import Verif.Model.ProxPost
import Verif.Props.MirrorDyn
import Verif.Proofs.Local

/-! C70: mirror maps used as post-processing (`MirrorMaptoPostProcessProx`). -/

set_option linter.unusedSectionVars false

namespace Verif

section
variable {K V : Type} [Zero K] [One K] [Neg K] [Add K] [Sub K] [Mul K] [Inv K] [Div K] [NatCast K] [Pow K ℕ] [LinearOrder K] [Add V] [Sub V] [SMul K V]

/-- **C70, part 1**: whatever the inner step does, after every sequence of operations with at least one step every particle is an image of `grad_conj`, so it lies in every set
that contains the images. -/
theorem C70_feasible (env : Env K V) (gc : V → V) (hpost : env.post = proxPost gc) (S : V → Prop) (hS : ∀ y, S (gc y)) (inner : St K V → Except Err (St K V)) (ops : List Op)
    (s₀ s : St K V) (h : execAll env inner ops s₀ = .ok s) (hs : Op.step ∈ ops) : ∀ m n, S (s.x.get m n) := by
  have one : ∀ q r : St K V, exec env inner .step q = .ok r → ∀ m n, S (r.x.get m n) := by
    intro q r hr m n
    obtain ⟨v, _, hv⟩ := step_split.1 hr
    have hx := (postStep_facts hv).post
    rw [hpost] at hx
    simp only [proxPost] at hx
    injection hx with hx
    rw [← hx]
    exact hS _
  have keep : ∀ (l : List Op) (q : St K V), (∀ m n, S (q.x.get m n)) → execAll env inner l q = .ok s → ∀ m n, S (s.x.get m n) := by
    intro l
    induction l with
    | nil =>
      intro q hq h
      simp only [execAll] at h
      injection h with h
      subst h
      exact hq
    | cons o l ih =>
      intro q hq h
      simp only [execAll, bind_ok] at h
      obtain ⟨r, hr, hl⟩ := h
      refine ih r ?_ hl
      cases o with
      | step => exact one q r hr
      | select => rw [select_frame hr]; exact hq
      | sched => rw [sched_frame hr]; exact hq
      | reset =>
        simp only [exec] at hr
        injection hr with hr
        subst hr
        exact hq
  induction ops generalizing s₀ with
  | nil => simp at hs
  | cons o l ih =>
    simp only [execAll, bind_ok] at h
    obtain ⟨r, hr, hl⟩ := h
    by_cases ho : o = .step
    · subst ho
      exact keep l r (one _ _ hr) hl
    · exact ih r hl (by
        rcases List.mem_cons.1 hs with h | h
        · exact absurd h.symm ho
        · exact h)

/-- **C70, part 2**: if the initial ensemble is feasible, `best_particle` is feasible at all times. Missing: other initial ensembles, see `C70_best_false`. -/
theorem C70_best_partial (env : Env K V) (gc : V → V) (hpost : env.post = proxPost gc) (hp : PermOK env) (S : V → Prop) (hS : ∀ y, S (gc y)) (move : St K V → Except Err (St K V))
    (hm : MoveOK move) (a : Args K V) (hx : ∀ m < a.x0.rows, ∀ n < a.x0.cols, S (a.x0.get m n)) (ops : List Op) (s₀ s : St K V) (h0 : init env a = .ok s₀)
    (h : execAll env (consThen env move) ops s₀ = .ok s) : ∀ m < s.M, S (s.bestP m) := by
  have hpo : PostOK env := PostMap.ok (p := gc) fun s => by rw [hpost]; rfl
  have hw0 := init_wf hp h0
  have hi : s₀.M = a.x0.rows ∧ s₀.N = a.x0.cols ∧ s₀.x = a.x0 ∧ ∀ m, s₀.bestP m = a.x0.get m 0 := by
    unfold init at h0
    split_ifs at h0 <;>
      (injection h0 with h0
       rw [← h0]
       exact ⟨rfl, rfl, rfl, fun _ => rfl⟩)
  obtain ⟨i1, i2, i3, i4⟩ := hi
  refine (execAll_induct hm hpo hp (P := fun q => (∀ m < q.M, ∀ n < q.N, S (q.x.get m n)) ∧ ∀ m < q.M, S (q.bestP m)) ?_ ops s₀ s hw0
    ⟨by rw [i1, i2, i3]; exact hx, fun m hm => by rw [i4 m]; exact hx m (i1 ▸ hm) 0 (i2 ▸ hw0.pos)⟩ h).2.2
  intro o q r hw hq hr
  cases o with
  | select => rw [select_frame hr]; exact hq
  | sched => rw [sched_frame hr]; exact hq
  | reset =>
    simp only [exec] at hr
    injection hr with hr
    subst hr
    exact hq
  | step =>
    have f := step_frame (consThen_frame hm) hr
    have wr := step_wf hm hpo hp hw hr
    obtain ⟨v, hv, hps⟩ := step_split.1 hr
    have hif := consThen_frame hm _ _ hv
    have p1 := preStep_frame env q
    have pf := postStep_facts hps
    have eM : r.M = q.M := by rw [pf.frame, hif, p1]
    have hxo : v.xOld = some q.x := by rw [hif, p1]
    have hb : v.bestP = q.bestP := by rw [hif, p1]
    have hec : v.energy.cols = q.N := by
      have e1 : r.energy = v.energy := by rw [pf.frame]
      have e2 : r.N = q.N := by rw [pf.frame, hif, p1]
      rw [← e1, wr.ec, e2]
    constructor
    · intro m _ n _
      have hx := pf.post
      rw [hpost] at hx
      simp only [proxPost] at hx
      injection hx with hx
      rw [← hx]
      exact hS _
    · intro m hm'
      rw [eM] at hm'
      rw [pf.bestP m, hb]
      split_ifs
      · rw [pf.bestCurP m _ hxo, pf.fMinIdx m, hec]
        exact hq.1 m hm' _ (Flt.rowArgmin_lt hw.pos _)
      · exact hq.2 m hm'

/-- **C70, part 3**: if `grad_conj` leaves the points of the set alone (projections do), a stopped run whose particles lie in the set is frozen, and so are unselected particles of active runs.
Missing: maps that move feasible points, see `C70_stopped_false`. -/
theorem C70_frozen_partial (env : Env K V) (gc : V → V) (hpost : env.post = proxPost gc) (hp : PermOK env) (S : V → Prop) (hS : ∀ y, S y → gc y = y)
    (move : St K V → Except Err (St K V)) (hm : MoveOK move) (hl : MoveLocal move) (s s' : St K V) (hw : WF s) (h : step env (consThen env move) s = .ok s') (m n : ℕ)
    (hx : S (s.x.get m n)) (hn : m ∉ s.active ∨ ¬ s'.pIdx.Sel m n) : s'.x.get m n = s.x.get m n := by
  have hpm : PostMap env gc := fun s => by rw [hpost]; rfl
  have hns : ¬ s'.pIdx.Sel m n := by
    rcases hn with hn | hn
    · intro hsel
      have f := step_frame (consThen_frame hm) h
      rw [f.pIdx] at hsel
      exact hn (pSel_active hp hw hsel).1
    · exact hn
  rw [step_unsel hm hl hpm h m n hns, hS _ hx]

end

namespace Example

/-- The example with `grad_conj` of `L2(lamda=2)`, which halves every particle, or the projection to `[-1, 1]`, as post-processing. -/
def proxEnv (gc : ℚ → ℚ) : Env ℚ ℚ := { env with post := proxPost gc }

end Example

/-- **C70 is false for maps that move feasible points**: `grad_conj` of `L2(lamda=2)` is `y/2`. In a run of two ensembles the second one, which has been stopped, keeps shrinking with every step. -/
theorem C70_stopped_false : (match (do
      let s₀ ← init (Example.proxEnv fun y => y / 2) (Example.args [.maxIt (some 5), .energyTol (.fin 2)] none)
      let s ← execAll (Example.proxEnv fun y => y / 2) (cboInner (Example.proxEnv fun y => y / 2)) [.step, .select] s₀
      let s' ← execAll (Example.proxEnv fun y => y / 2) (cboInner (Example.proxEnv fun y => y / 2)) [.step] s
      pure (s, s') : Except Err (St ℚ ℚ × St ℚ ℚ)) with
    | .ok (s, s') => decide (s.active = [1] ∧ s.x.get 0 0 ≠ 0 ∧ s'.x.get 0 0 = s.x.get 0 0 / 2)
    | .error _ => false) = true := by
  decide +kernel

/-- **C70 is false for `best_particle` with an infeasible initial ensemble**: after a step all particles lie in `[-1, 1]`, but `best_particle` is a particle of the initial ensemble outside. -/
theorem C70_best_false : (match (do
      let s₀ ← init (Example.proxEnv fun y => max (-1) (min 1 y)) (Example.args [.maxIt (some 5)] none)
      execAll (Example.proxEnv fun y => max (-1) (min 1 y)) (cboInner (Example.proxEnv fun y => max (-1) (min 1 y))) [.step, .select, .step] s₀ : Except Err (St ℚ ℚ)) with
    | .ok s => decide (s.bestP 0 = 2 ∧ ∀ n ∈ List.range 3, -1 ≤ s.x.get 0 n ∧ s.x.get 0 n ≤ 1)
    | .error _ => false) = true := by
  decide +kernel

/-- The hypotheses of C70, parts 1 to 3: a run with a feasible initial ensemble, a stopped run and mini-batches. -/
example : (∀ y : ℚ, (fun v => -6 ≤ v ∧ v ≤ 6) (max (-6) (min 6 y))) ∧ PermOK (Example.proxEnv fun y => max (-6) (min 6 y)) ∧ MoveOK (cboMove (Example.proxEnv fun y => max (-6) (min 6 y))) ∧
    MoveLocal (cboMove (Example.proxEnv fun y => max (-6) (min 6 y))) ∧
    (match (do
      let s₀ ← init (Example.proxEnv fun y => max (-6) (min 6 y)) (Example.args [.maxIt (some 5), .energyTol (.fin 2)] (some 2))
      execAll (Example.proxEnv fun y => max (-6) (min 6 y)) (cboInner (Example.proxEnv fun y => max (-6) (min 6 y))) [.step, .select, .step] s₀ : Except Err (St ℚ ℚ)) with
    | .ok s => decide (s.active = [1] ∧ s.bestP 1 = 5)
    | .error _ => false) = true := by
  refine ⟨fun y => ⟨le_max_left _ _, max_le (by norm_num) (min_le_left _ _)⟩, ?_, cboMove_ok _, cboMove_local _, by decide +kernel⟩
  intro N c m j hj
  simp only [Example.proxEnv, Example.env, if_pos hj]
  exact Nat.mod_lt _ (by omega)

section real
variable {ι : Type} [Fintype ι]
open Mirror

/-- **C70, instances**: with `ProjectionBall`, `ProjectionHyperplane` (given normal vector) or `NegativeLogEntropySimplex` as post-processing every particle of *every* dynamic lies in the set after
every step — also for the hyperplane, where the clipping of `MirrorCBO` leaves the plane (`C33_plane_false`). -/
theorem C70_sets (env : Env ℝ (ι → ℝ)) (inner : St ℝ (ι → ℝ) → Except Err (St ℝ (ι → ℝ))) (ops : List Op) (s₀ s : St ℝ (ι → ℝ)) (h : execAll env inner ops s₀ = .ok s) (hs : Op.step ∈ ops) :
    (∀ (r : ℝ) (c : ι → ℝ), 0 < r → env.post = proxPost (ballConj r c) → ∀ m n, InBall c r (s.x.get m n)) ∧
    (∀ (a : ι → ℝ) (b : ℝ), a ≠ 0 → env.post = proxPost (planeConj (some a) b) → ∀ m n, InPlane a b (s.x.get m n)) ∧
    (Nonempty ι → env.post = proxPost simplexConj → ∀ m n, InSimplex (s.x.get m n)) :=
  ⟨fun r c hr hp => C70_feasible env _ hp _ (C31_ball r hr c) inner ops s₀ s h hs, fun a b ha hp => C70_feasible env _ hp _ (C31_plane a ha b) inner ops s₀ s h hs,
    fun _ hp => C70_feasible env _ hp _ (fun y => (C31_simplex y).1) inner ops s₀ s h hs⟩

/-- **C70, Stiefel manifold**, for every `svd` that does what NumPy promises. -/
theorem C70_stiefel {n k : Type} [Fintype n] [Fintype k] [DecidableEq k] (svd : Matrix n k ℝ → Matrix n k ℝ × (k → ℝ) × Matrix k k ℝ)
    (hsvd : ∀ y, IsSVD y (svd y).1 (svd y).2.1 (svd y).2.2) (env : Env ℝ (Matrix n k ℝ)) (hp : env.post = proxPost (stiefelConj svd))
    (inner : St ℝ (Matrix n k ℝ) → Except Err (St ℝ (Matrix n k ℝ))) (ops : List Op) (s₀ s : St ℝ (Matrix n k ℝ)) (h : execAll env inner ops s₀ = .ok s) (hs : Op.step ∈ ops) :
    ∀ i j, InStiefel (s.x.get i j) :=
  C70_feasible env _ hp _ (fun y => C31_stiefel svd y (hsvd y)) inner ops s₀ s h hs

/-- **C70, what the name promises**: for the elastic net with `delta = 1` the post-processing is the proximal map of `lamda ‖·‖₁`: its value is the unique minimiser of
`lamda ‖x‖₁ + ½ ‖x - y‖²`. -/
theorem C70_prox_elastic (lamda : ℝ) (hl : 0 ≤ lamda) (y x : ι → ℝ) (hne : x ≠ elasticConj 1 lamda y) :
    lamda * ∑ i, |elasticConj 1 lamda y i| + 1 / 2 * ∑ i, (elasticConj 1 lamda y i - y i) ^ 2 < lamda * ∑ i, |x i| + 1 / 2 * ∑ i, (x i - y i) ^ 2 := by
  have key : ∀ t u : ℝ, lamda * |npSign t * max (|t| - lamda) 0| + 1 / 2 * (npSign t * max (|t| - lamda) 0 - t) ^ 2 + 1 / 2 * (u - npSign t * max (|t| - lamda) 0) ^ 2 ≤
      lamda * |u| + 1 / 2 * (u - t) ^ 2 := by
    intro t u
    have hu := le_abs_self u
    have hu' := neg_abs_le u
    unfold npSign
    rcases lt_trichotomy t 0 with ht | ht | ht
    · rw [if_neg (by linarith), if_pos ht, abs_of_neg ht]
      rcases le_total (-t - lamda) 0 with h1 | h1
      · rw [max_eq_right h1]; simp; nlinarith [mul_nonneg (sub_nonneg.2 hu) hl, mul_nonneg (sub_nonneg.2 hu') hl, abs_nonneg u]
      · rw [max_eq_left h1, abs_of_nonpos (by linarith)]; nlinarith [mul_nonneg (sub_nonneg.2 hu') hl]
    · subst ht; simp; nlinarith [mul_nonneg hl (abs_nonneg u)]
    · rw [if_pos ht, abs_of_pos ht]
      rcases le_total (t - lamda) 0 with h1 | h1
      · rw [max_eq_right h1]; simp; nlinarith [mul_nonneg (sub_nonneg.2 hu) hl, mul_nonneg (sub_nonneg.2 hu') hl, abs_nonneg u]
      · rw [max_eq_left h1, one_mul, abs_of_nonneg h1]; nlinarith [mul_nonneg (sub_nonneg.2 hu) hl]
  have e : ∀ i, elasticConj 1 lamda y i = npSign (y i) * max (|y i| - lamda) 0 := fun i => by simp [elasticConj]
  have hsum := Finset.sum_le_sum fun i (_ : i ∈ Finset.univ) => key (y i) (x i)
  have hpos : 0 < ∑ i, (x i - elasticConj 1 lamda y i) ^ 2 := by
    obtain ⟨i, hi⟩ := Function.ne_iff.1 hne
    exact Finset.sum_pos' (fun _ _ => sq_nonneg _) ⟨i, Finset.mem_univ i, by have := sub_ne_zero.2 hi; positivity⟩
  simp only [Finset.sum_add_distrib, ← Finset.mul_sum] at hsum
  simp only [e] at hpos ⊢
  linarith

/-- **C70 is false for the simplex as a projection**: the softmax moves the points of the simplex, here a corner. -/
theorem C70_simplex_false : InSimplex (![1, 0] : Fin 2 → ℝ) ∧ simplexConj (![1, 0] : Fin 2 → ℝ) ≠ ![1, 0] := by
  constructor
  · refine ⟨fun i => ?_, by simp⟩
    fin_cases i <;> simp
  · intro h
    have := (C31_simplex (![1, 0] : Fin 2 → ℝ)).2 1
    rw [h] at this
    simp at this

end real
end Verif
