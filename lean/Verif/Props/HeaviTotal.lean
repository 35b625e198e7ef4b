import Verif.Proofs.HeaviTotal
import Verif.Props.Correction
import Verif.Spec.ExampleReal
import Verif.Props.Equivariance

/-! # C54, C19, C25: runs with a Heaviside correction that do not raise -/

set_option linter.unusedSectionVars false

namespace Verif

section
variable {K V : Type} [Field K] [LinearOrder K] [IsStrictOrderedRing K] [AddCommGroup V] [Module K V]

/-- **C54, when a step succeeds.** A CBO step with a Heaviside correction (sharp or regularised), one consensus point per run, noise of the drift's shape and non-raising post processing, in which some particle is
selected, succeeds *exactly* when every run is still active (or there is only one) and every particle is moved (no batching, or `partial=False`). -/
theorem C54_succeeds_iff (env : Env K V) (g : Flt K → V → V) (hg : env.corr = .heavi g) (r : List (K × Flt K × V) → V) (hr : env.cons = .mean r) (hn : NoiseOK env)
    (hpost : ∀ s, ∃ x', env.post s = .ok x' ∧ x'.rows = s.x.rows ∧ x'.cols = s.x.cols) (hp : PermOK env) (s : St K V) (hw : WF s) (hsi : s.saveInt ≠ 0)
    (ha : env.emptyRaises = true → s.active ≠ []) (hb : 1 ≤ s.batchSize) :
    (∃ s', step env (cboInner env) s = .ok s') ↔ (s.active.length = s.M ∨ s.M = 1) ∧ (s.batched = false ∨ s.batchPartial = false) := by
  constructor
  · rintro ⟨s', h⟩
    constructor
    · by_contra hc
      push Not at hc
      have hle : s.active.length ≤ s.M := by simpa using hw.act.length_le
      obtain ⟨e, he⟩ := C54_stopped_raises env g hg r hr hp s hw (by omega) (by omega)
      rw [h] at he
      cases he
    · by_contra hc
      push Not at hc
      obtain ⟨e, he⟩ := C54_batch_raises env g hg r hr hp s hw (by simpa using hc.1) (by simpa using hc.2) hb
      rw [h] at he
      cases he
  · rintro ⟨h1, h2⟩
    exact heaviStep_total hg ⟨r, hr⟩ hn hpost hp hw hsi (fun h => ⟨ha h, by omega⟩) h2 h1

/-- **C19 with a Heaviside correction, partial.** A single run (`M = 1`) of CBO with a Heaviside correction, without batching or with `partial=False`: the constructor and every sequence of steps, checks,
scheduler updates and resets succeed (as long as no step is made without particles, if these raise), and so does `optimize`, however long it runs. Missing: several runs, which raise as soon as one of them
stops, and partial updates of batches, which always raise (`C54_succeeds_iff`). -/
theorem C19_heaviside_partial (env : Env K V) (he : HeaviEnv env) (hp : PermOK env) (a : Args K V) (hM : a.x0.rows = 1) (hN : 1 ≤ a.x0.cols) (hsi : 1 ≤ a.saveInt)
    (hst : ∀ tm ∈ a.terms, Stateless tm) (hb : a.batchSize = none ∨ a.batchPartial = false) (hb0 : env.emptyRaises = true → a.batchSize ≠ some 0) :
    ∃ s₀, init env a = .ok s₀ ∧ ∀ ops : List Op, (env.emptyRaises = true → StepsActive env (cboInner env) ops s₀) →
      ∃ s, execAll env (cboInner env) ops s₀ = .ok s ∧ s.x.rows = 1 ∧ s.x.cols = a.x0.cols ∧ ∀ fuel e, optimize env (cboInner env) fuel s ≠ .raised e := by
  obtain ⟨s₀, h0, e1, e2, e3, e4⟩ := init_total env hN
  have hfull : s₀.batched = false ∨ s₀.batchPartial = false := by
    have h0' := h0
    unfold init at h0'
    split_ifs at h0' with k1 k2
    all_goals
      injection h0' with h0'
      subst h0'
      rcases hb with hb | hb
      · left
        show decide (batchSizeOf a.batchSize a.x0.cols ≠ a.x0.cols) = false
        rw [hb]
        simp [batchSizeOf]
      · right
        exact hb
  have hs : HeaviSt env a.terms s₀ := ⟨init_wf hp h0, by omega, e2, by omega, hfull, fun h => init_batch_pos h0 (hb0 h)⟩
  refine ⟨s₀, h0, fun ops hops => ?_⟩
  obtain ⟨s, r1, r2, r3⟩ := execAll_heavi he hp hst ops s₀ hs hops
  exact ⟨s, r1, by rw [r2.wf.xr, r2.one], by rw [r2.wf.xc, r3, e4], fun fuel e => optimize_heavi he hp hst fuel s r2 e⟩

/-- **C04 with a Heaviside correction, partial.** The budget `max_eval = n` is exceeded by at most one evaluation per run: after any number of rounds (check, step, scheduler) no counter is above the larger of `n + M` and its
initial value. (That it *is* exceeded: `C04_heaviside_false`.) -/
theorem C04_heaviside_partial (env : Env K V) (g : Flt K → V → V) (hg : env.corr = .heavi g) (r : List (K × Flt K × V) → V) (hr : env.cons = .mean r) (hpost : PostOK env) (hp : PermOK env) (n : ℕ) :
    ∀ (k : ℕ) (s s' : St K V), WF s → (∀ tm ∈ s.terms, Stateless tm) → Term.maxEval n ∈ s.terms →
      execAll env (cboInner env) (rounds k) s = .ok s' → ∀ m < s.M, s'.nEval m ≤ max (n + s.M) (s.nEval m) := by
  intro k
  induction k with
  | zero =>
    intro s s' _ _ _ h m _
    simp only [rounds, List.replicate_zero, List.flatten_nil, execAll] at h
    injection h with h
    subst h
    exact le_max_right _ _
  | succ k ih =>
    intro s s' hw hs hn h m hm
    rw [rounds_succ] at h
    simp only [List.cons_append, List.nil_append, execAll, exec, bind_ok] at h
    obtain ⟨a, h1, b, h2, c, h3, h4⟩ := h
    obtain ⟨e1, e2⟩ := select_nEval hs h1
    have hwa := select_wf hw h1
    have ab := step_frame (consThen_frame (cboMove_ok env)) h2
    have hwb := step_wf (cboMove_ok env) hpost hp hwa h2
    have ec := sched_frame h3
    have hwc := sched_wf hwb h3
    have ct : c.terms = s.terms := by rw [ec]; simp only; rw [ab.terms, e2]
    have cn : c.nEval = b.nEval := by rw [ec]
    obtain ⟨a', h1', ea', hact, -⟩ := select_stateless (env := env) hs
    rw [h1'] at h1
    injection h1 with h1
    subst h1
    have aM : a'.M = s.M := by rw [ea']
    have hbs : a'.batchSize = s.batchSize := by rw [ea']
    have cM : c.M = s.M := by rw [ec]; simp only; rw [ab.M, aM]
    have hle : a'.active.length ≤ a'.M := by simpa using hwa.act.length_le
    have := ih c s' hwc (by rw [ct]; exact hs) (by rw [ct]; exact hn) h4 m (by omega)
    rw [cn, cM, heaviStep_nEval hg hr hp hwa h2 m, e1, hbs] at this
    have hfull : a'.active.length < a'.M → 2 ≤ a'.M → False := by
      intro q1 q2
      obtain ⟨e, he⟩ := C54_stopped_raises env g hg r hr hp a' hwa q2 q1
      rw [h2] at he
      cases he
    split_ifs at this with hma
    · have hnf := ((hact m).1 hma).2 _ hn
      simp only [Fires, not_not] at hnf
      omega
    · by_cases h0 : a'.active.length = 0
      · rw [h0] at this
        simpa using this
      · exfalso
        by_cases hl : a'.active.length < a'.M
        · exact hfull hl (by omega)
        · refine hma ?_
          rw [hwa.act_full (by omega), List.mem_range]
          omega

/-- C04 for `heavi_side`: the two runs of `C04_heaviside_false` satisfy the hypotheses, and end with 13 evaluations at a budget of 11. -/
example : Example.envH.corr = .heavi (fun z v => if Flt.gt z (.fin 0) then v else 0) ∧ (∃ r, Example.envH.cons = .mean r) ∧ PermOK Example.envH ∧ WF (Example.start [.maxEval 11] none) ∧
    (match execAll Example.envH (cboInner Example.envH) (rounds 2) (Example.start [.maxEval 11] none) with
      | .ok s => decide (s.nEval 0 = 13 ∧ s.nEval 1 = 13 ∧ s.M = 2)
      | .error _ => false) = true := by
  refine ⟨rfl, ⟨_, rfl⟩, ?_, ?_, by decide +kernel⟩
  · intro N c m j hj
    simp only [Example.envH, Example.env, if_pos hj]
    exact Nat.mod_lt _ (by omega)
  · refine init_wf (env := Example.env) (a := Example.args [.maxEval 11] none) ?_ rfl
    intro N c m j hj
    simp only [Example.env, if_pos hj]
    exact Nat.mod_lt _ (by omega)

end

/-- C19, C25 with the regularised Heaviside correction: one run of four particles in the plane, default consensus rule, anisotropic noise and default post processing. Every sequence of operations succeeds, `optimize` does not raise,
and scaling the ensemble and the objective by `-3` scales the result. -/
example (ops : List Op) :
    let env := { Example.realEnv (rowNoise anisoRule Example.smp) with corr := .heavi (heaviRegG (1 / 1000)) }
    let env' := scaledEnv env (-3) (clipVec (|(-3)| * 100))
    let a := { Example.realArgs (fun m n => ![(n : ℝ) + m, 2 - n]) 3 none with x0 := ⟨1, 4, fun m n => ![(n : ℝ) + m, 2 - n]⟩ }
    ∃ s t, (do let s ← init env a; execAll env (cboInner env) ops s) = .ok s ∧ (∀ fuel e, optimize env (cboInner env) fuel s ≠ .raised e) ∧
      (do let s ← init env' { a with x0 := a.x0.map ((-3 : ℝ) • ·) }; execAll env' (cboInner env') ops s) = .ok t ∧ t.x = s.x.map ((-3 : ℝ) • ·) := by
  intro env env' a
  have hperm : PermOK env := Example.perm_ok (rowNoise anisoRule Example.smp)
  obtain ⟨s₀, h0, h1⟩ := C19_heaviside_partial env
    ⟨⟨_, rfl⟩, ⟨_, rfl⟩, (Example.realEnv_standard anisoRule).noise.ok, fun s => ⟨_, rfl, rfl, rfl⟩, fun s => ⟨_, rfl⟩⟩ hperm
    a rfl (by simp [a]) (by simp [a, Example.realArgs]) (by
      intro tm ht
      simp only [a, Example.realArgs, List.mem_cons, List.not_mem_nil, or_false] at ht
      rcases ht with rfl | rfl <;> trivial) (.inl rfl) (fun h => by cases h)
  obtain ⟨s, hs, -, -, hopt⟩ := h1 ops (fun h => by cases h)
  have heu : ∀ v : Fin 2 → ℝ, euclid ((-3 : ℝ) • v) = 3 * euclid v := by
    intro v
    unfold euclid
    rw [show (∑ i, ((-3 : ℝ) • v) i ^ 2) = 3 ^ 2 * ∑ i, v i ^ 2 by simp only [Pi.smul_apply, smul_eq_mul, Finset.mul_sum]; congr 1; funext i; ring,
      Real.sqrt_mul (by norm_num), Real.sqrt_sq (by norm_num)]
  have key := C25_scaling_anisotropic env Example.smp 100 (-3) (by norm_num) (by norm_num) rfl ⟨"heavi_side_reg", 1 / 1000, rfl⟩ rfl hperm rfl
    (fun l => by
      simp only [env, Example.realEnv, List.map_map, List.length_map, Flt.mul, Function.comp_def, ← smul_sub, heu]
      rw [List.sum_map_mul_left, abs_of_neg (by norm_num : (-3 : ℝ) < 0), neg_neg, mul_div_assoc]) (fun _ _ _ _ => rfl)
    (fun s t h => by simp only [env, Example.realEnv, h.params.1, h.params.2.1, h.params.2.2.1, h.params.2.2.2]) a (by simp [a, Example.realArgs]) ops
  have hrun : (do let s ← init env a; execAll env (cboInner env) ops s) = .ok s := by
    simp only [bind, Except.bind, h0]
    exact hs
  have hterms : a.terms.map (Term.image (Flt.mul (.fin |(-3 : ℝ)|))) = a.terms := rfl
  rw [hrun, hterms] at key
  cases ht : (do let s ← init env' { a with x0 := a.x0.map ((-3 : ℝ) • ·) }; execAll env' (cboInner env') ops s) with
  | error e =>
    have ht' := ht
    simp only [env'] at ht'
    rw [ht'] at key
    exact key.elim
  | ok t =>
    have ht' := ht
    simp only [env'] at ht'
    rw [ht'] at key
    exact ⟨s, t, hrun, hopt, rfl, key.x⟩

/-- C54: both sides of the characterisation occur, see the examples of `C54_heaviside`, `C54_stopped_raises` and `C54_batch_raises`; the start of the example satisfies the hypotheses. -/
example : (∃ s', step Example.envHeavi (cboInner Example.envHeavi) (Example.start [.maxIt (some 3)] none) = .ok s') := by
  refine (C54_succeeds_iff Example.envHeavi heaviG rfl _ rfl ?_ (fun s => ⟨_, rfl, rfl, rfl⟩) ?_ _ ?_ (by decide) (fun h => by cases h) (by decide)).2 (by decide)
  · intro s d hd
    simp only [Example.envHeavi, Example.env, hd]
    exact ⟨_, rfl, rfl, rfl⟩
  · intro N c m j hj
    simp only [Example.envHeavi, Example.env, if_pos hj]
    exact Nat.mod_lt _ (by omega)
  · refine init_wf (env := Example.env) (a := Example.args [.maxIt (some 3)] none) ?_ rfl
    intro N c m j hj
    simp only [Example.env, if_pos hj]
    exact Nat.mod_lt _ (by omega)

end Verif
