import Verif.Proofs.Indep
import Verif.Props.Best

/-! Property C60: the independent noise of `DriftConstrainedCBO`. -/

set_option linter.unusedSectionVars false

namespace Verif

variable {K V : Type} [Zero K] [One K] [Neg K] [Add K] [Sub K] [Mul K] [Inv K] [Div K] [NatCast K] [Pow K ℕ] [LinearOrder K] [Add V] [Sub V] [SMul K V]

/-- **C60 (the loop).** Whenever the independent-noise step ends, every run has made a walk of `n m` perturbations by rows of the drawn random numbers: it was collapsed (variance around
the consensus of the previous step below `eps_indep`) before each of them, and it is not collapsed at the end. A run that is not collapsed makes no perturbation. Different runs
use different random rows. -/
theorem C60_walk (env : Env K V) (p : IndepArgs K V) (hs : 0 < p.sigma) (z : ℕ → ℕ → ℕ → ℕ → V) (fuel : ℕ) (s : St K V) (c x' : Mat V) (hcons : s.cons = some c)
    (hr : c.rows = s.x.rows ∨ c.rows = 1) (hc : c.cols = 1) (h : indepStep env p z fuel s = .ok (some x')) :
    x'.rows = s.x.rows ∧ x'.cols = s.x.cols ∧ ∃ (n : ℕ → ℕ) (r : ℕ → ℕ → ℕ),
      (∀ m < s.x.rows,
        let w := walk (p.sigma * env.sqrtK s.dt) (fun l => z s.it l (r m l)) (s.x.get m)
        (∀ i < n m, Collapsed p s.x.cols (w i) (c.get (Mat.bpos c.rows m) 0)) ∧ ¬ Collapsed p s.x.cols (w (n m)) (c.get (Mat.bpos c.rows m) 0) ∧
        ∀ j < s.x.cols, x'.get m j = w (n m) j) ∧
      ∀ m < s.x.rows, ∀ m' < s.x.rows, m ≠ m' → ∀ i, i < n m → i < n m' → r m i ≠ r m' i := by
  unfold indepStep at h
  rw [if_pos hs, hcons] at h
  obtain ⟨h1, h2, n, r, h3, h4, -⟩ := indepLoop_walk hc fuel 0 s.x x' hr h
  simp only [Nat.zero_add] at h3
  exact ⟨h1, h2, n, r, h3, h4⟩

/-- **C60 (only collapsed runs are touched).** -/
theorem C60_untouched (env : Env K V) (p : IndepArgs K V) (hs : 0 < p.sigma) (z : ℕ → ℕ → ℕ → ℕ → V) (fuel : ℕ) (s : St K V) (c x' : Mat V) (hcons : s.cons = some c)
    (hr : c.rows = s.x.rows ∨ c.rows = 1) (hc : c.cols = 1) (h : indepStep env p z fuel s = .ok (some x')) (m : ℕ) (hm : m < s.x.rows)
    (hcol : ¬ Collapsed p s.x.cols (s.x.get m) (c.get (Mat.bpos c.rows m) 0)) : ∀ j < s.x.cols, x'.get m j = s.x.get m j := by
  obtain ⟨-, -, n, r, h3, -⟩ := C60_walk env p hs z fuel s c x' hcons hr hc h
  obtain ⟨a1, -, a3⟩ := h3 m hm
  have n0 : n m = 0 := by
    by_contra hne
    exact hcol (a1 0 (by omega))
  intro j hj
  rw [a3 j hj, n0]
  rfl

/-- **C60 (no collapsed run is left).** -/
theorem C60_none_left (env : Env K V) (p : IndepArgs K V) (hs : 0 < p.sigma) (z : ℕ → ℕ → ℕ → ℕ → V) (fuel : ℕ) (s : St K V) (c x' : Mat V) (hcons : s.cons = some c)
    (hr : c.rows = s.x.rows ∨ c.rows = 1) (hc : c.cols = 1) (h : indepStep env p z fuel s = .ok (some x')) (m : ℕ) (hm : m < s.x.rows) :
    ¬ Collapsed p x'.cols (x'.get m) (c.get (Mat.bpos c.rows m) 0) := by
  obtain ⟨-, h2, n, r, h3, -⟩ := C60_walk env p hs z fuel s c x' hcons hr hc h
  obtain ⟨-, a2, a3⟩ := h3 m hm
  rw [h2, collapsed_congr (row' := _) a3]
  exact a2

/-- C60, limits: the loop has no bound. If the perturbations do not change anything (`dt = 0`, or all random numbers zero) and a run is collapsed, it never ends. -/
theorem C60_endless (env : Env K V) (p : IndepArgs K V) (hs : 0 < p.sigma) (z : ℕ → ℕ → ℕ → ℕ → V) (s : St K V) (c : Mat V) (hcons : s.cons = some c)
    (hr : c.rows = s.x.rows ∨ c.rows = 1) (hc : c.cols = 1) (hz : ∀ v k i j, v + (p.sigma * env.sqrtK s.dt) • z s.it k i j = v)
    (m : ℕ) (hm : m < s.x.rows) (hcol : Collapsed p s.x.cols (s.x.get m) (c.get (Mat.bpos c.rows m) 0)) (fuel : ℕ) :
    indepStep env p z fuel s = .ok none := by
  unfold indepStep
  rw [if_pos hs, hcons]
  simp only
  suffices ∀ (fuel k : ℕ) (x : Mat V), (c.rows = x.rows ∨ c.rows = 1) → m < x.rows → Collapsed p x.cols (x.get m) (c.get (Mat.bpos c.rows m) 0) →
      indepLoop p (env.sqrtK s.dt) (z s.it) c fuel k x = .ok none from this fuel 0 s.x hr hm hcol
  intro fuel
  induction fuel with
  | zero => intro k x _ _ _; rfl
  | succ fuel ih =>
    intro k x hr hm hcol
    obtain ⟨v, hv⟩ := indepVar_total (p := p) hr hc
    have mem := indepIdx_mem hr hc hv
    have hB : indepIdx p v ≠ [] := by
      intro e
      have := (mem m).2 ⟨hm, hcol⟩
      rw [e] at this
      simp at this
    obtain ⟨x', hx'⟩ := indepPerturb_total (p := p) (root := env.sqrtK s.dt) (B := indepIdx p v) (z := z s.it k) (x := x) (fun q hq => ((mem q).1 hq).1)
    obtain ⟨q1, q2, q3, q4⟩ := indepPerturb_ok indepIdx_nodup hx'
    simp only [indepLoop, hv, bind, Except.bind, if_neg hB, hx']
    refine ih (k + 1) x' (by rw [q1]; exact hr) (by rw [q1]; exact hm) ?_
    rw [q2, collapsed_congr (row' := x.get m)]
    · exact hcol
    · intro j hj
      by_cases hmB : m ∈ indepIdx p v
      · rw [q4 m hmB j hj, hz]
      · rw [q3 m hmB j]

/-- C60, disagreement in general: the energies of a step are evaluated at the perturbed ensemble `x'`, but the best particle of the step is taken from the ensemble before the
perturbation. -/
theorem C60_mismatch_false (env : Env K V) (hp : PermOK env) (G : ConOps K V) (eps : K) (p : IndepArgs K V) (z : ℕ → ℕ → ℕ → ℕ → V) (fuel : ℕ) (s s' : St K V) (hw : WF s)
    (hb : s.batched = false) (x' : Mat V) (hx : indepStep env p z fuel (preStep env s) = .ok (some x'))
    (h : step env (indepInner env G eps p z fuel) s = .ok s') (m : ℕ) (hm : m ∈ s.active) :
    s'.bestCurE m = env.f (x'.get m (s'.fMinIdx m)) ∧ s'.bestCurP m = s.x.get m (s'.fMinIdx m) := by
  obtain ⟨v, hv, hs⟩ := step_split.1 h
  obtain ⟨y, hy, hv⟩ := indepInner_ok.1 hv
  rw [hx] at hy
  injection hy with hy
  injection hy with hy
  subst hy
  obtain ⟨u, hu, hv⟩ := consThen_split.1 hv
  have pf := postStep_facts hs
  have f1 := (dcMove_full env G eps).frame u v hv
  have f2 := computeConsensus_frame hu
  have cf := computeConsensus_facts hu
  have e1 : v.energy = u.energy := by rw [f1]
  have e2 : v.xOld = some s.x := by
    rw [f1]; simp only; rw [f2]; simp only; rw [preStep_frame]
  have ec : u.energy.cols = s.N := by
    rw [cf.ec]; simp only; rw [preStep_frame]; exact hw.ec
  have hlt : s'.fMinIdx m < s.N := by
    rw [pf.fMinIdx m, e1, ec]
    exact Flt.rowArgmin_lt hw.pos _
  refine ⟨?_, pf.bestCurP m s.x e2⟩
  rw [pf.bestCurE m, e1]
  exact cf.fresh m _ ((preStep_cSel_unbatched hp hw hb _ _).2 ⟨hm, hlt⟩)

/-- **C60 (best particle), partial.** As long as no step starts with a collapsed run, best particle and best energy are consistent: nothing better was evaluated, and the best particle
attains the best energy. Missing: with a collapsed run this is false, see `C60_mismatch_false` and `C60_best_false`. -/
theorem C60_best_partial (env : Env K V) (hmean : ∃ r, env.cons = .mean r) (hpost : PostOK env) (hp : PermOK env) (G : ConOps K V) (eps : K) (p : IndepArgs K V)
    (z : ℕ → ℕ → ℕ → ℕ → V) (fuel : ℕ) (a : Args K V) (s₀ s : St K V) (ops : List Op) (h0 : init env a = .ok s₀)
    (hcol : NeverCollapsed env (indepInner env G eps p z fuel) p ops s₀) (h : execAll env (indepInner env G eps p z fuel) ops s₀ = .ok s) (hn : NoNaN env.f s) :
    ∀ m < s.M, IsBest env.f s m (s.bestE m) ∧
      ((∃ v, Evaluated s m v ∧ env.f v ≠ .pinf) → Evaluated s m (s.bestP m) ∧ env.f (s.bestP m) = s.bestE m) := by
  have hcons : s₀.cons = none := by
    unfold init at h0
    split_ifs at h0 <;> (injection h0 with h0; rw [← h0]; rfl)
  have h' := indep_never hmean hpost hp ops s₀ s (init_wf hp h0) (fun c hc => by rw [hcons] at hc; cases hc) hcol h
  intro m hm
  exact ⟨C09_best_energy env _ (dcMove_full env G eps).ok hpost hp a s₀ s ops h0 h' hn m hm,
    C10_best_particle env _ (dcMove_full env G eps).ok hpost hp a s₀ s ops h0 h' hn m hm⟩

namespace Example

/-- Independent noise that pushes collapsed runs apart. -/
def indepArgs : IndepArgs ℚ ℚ := { sigma := 1, eps := 1 / 4, normSq := fun v => v * v, d0 := 1 }

/-- Random numbers for the independent noise. -/
def indepZ : ℕ → ℕ → ℕ → ℕ → ℚ := fun _ k i j => if j = 0 then 1 / 2 + i else if j = 1 then -1 / 2 - k else 1

/-- The state after some operations of `DriftConstrainedCBO` with the constraint `x = 0`, started near the constraint. -/
def indepRun (terms : List (Term ℚ)) (ops : List Op) : Except Err (St ℚ ℚ) := do
  let s ← init env { args terms none with x0 := ⟨2, 3, fun i j => (j : ℚ) / 4 + 5 * i⟩ }
  execAll env (indepInner env lineOps (1 / 4) indepArgs indepZ 9) ops s

end Example

/-- C60, disagreement with C18: the loop also perturbs runs that have been stopped. Here run 0 has stopped with an energy below 4; the independent noise of the next step moves it. -/
theorem C60_stopped_false : (match Example.indepRun [.energyTol (.fin 4)] [.step, .select] with
    | .ok s => match indepStep Example.env Example.indepArgs Example.indepZ 9 s with
      | .ok (some x) => decide (s.active = [1] ∧ x.row 0 ≠ s.x.row 0 ∧ x.row 1 = s.x.row 1)
      | _ => false
    | .error _ => false) = true := by decide +kernel

/-- C60, disagreement on a concrete run: after three steps `best_energy[0]` is not the value of the objective at `best_particle[0]`. -/
theorem C60_best_false : (match Example.indepRun [] [.step, .step, .step] with
    | .ok s => decide (Example.env.f (s.bestP 0) ≠ s.bestE 0)
    | .error _ => false) = true := by decide +kernel

/-- C60: a loop of two iterations. Run 0 is collapsed and is perturbed twice, run 1 is not collapsed and stays; with fewer iterations allowed the loop is still running. -/
example : (match Example.indepRun [] [.step] with
    | .ok s => match s.cons with
      | some c => decide (c.rows = s.x.rows ∧ c.cols = 1 ∧ 0 < Example.indepArgs.sigma ∧ Collapsed Example.indepArgs 3 (s.x.get 0) (c.get 0 0) ∧
          ¬ Collapsed Example.indepArgs 3 (s.x.get 1) (c.get 1 0)) &&
        match indepStep Example.env Example.indepArgs Example.indepZ 3 s, indepStep Example.env Example.indepArgs Example.indepZ 2 s with
        | .ok (some x), .ok none => decide (x.row 0 = [11/20, -39/40, 11/10] ∧ s.x.row 0 = [1/20, 1/40, 1/10] ∧ x.row 1 = s.x.row 1)
        | _, _ => false
      | none => false
    | .error _ => false) = true := by decide +kernel

/-- Three steps with a small threshold. -/
def Example.indepSmall : IndepArgs ℚ ℚ := { Example.indepArgs with eps := 1 / 1000 }

/-- C60: the partial theorem on best particles applies to a run whose ensembles stay spread out (`neverTest_sound` gives `NeverCollapsed`). -/
example : (match init Example.env { Example.args [] none with x0 := ⟨2, 3, fun i j => (j : ℚ) / 4 + 5 * i⟩ } with
    | .ok s₀ => neverTest Example.env (indepInner Example.env Example.lineOps (1 / 4) Example.indepSmall Example.indepZ 9) Example.indepSmall
        [.step, .select, .step, .sched, .step] s₀ &&
      match execAll Example.env (indepInner Example.env Example.lineOps (1 / 4) Example.indepSmall Example.indepZ 9) [.step, .select, .step, .sched, .step] s₀ with
      | .ok s => decide (s.it = 3 ∧ Example.env.f (s.bestP 0) = s.bestE 0)
      | .error _ => false
    | .error _ => false) = true := by decide +kernel

end Verif
