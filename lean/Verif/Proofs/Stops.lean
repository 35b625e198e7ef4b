import Verif.Model.Norm
import Verif.Proofs.AlmostSure
import Verif.Proofs.Frozen
import Mathlib.MeasureTheory.Integral.Lebesgue.Markov

/-! Lemmas for C85: the positions of one run with parameters and batches that change from step to step, and the rounds of `optimize`. -/

set_option linter.unusedSectionVars false

namespace Verif

open MeasureTheory ProbabilityTheory Filter
open scoped ENNReal Topology

section
variable {ι : Type} [Fintype ι]

theorem frobenius_ok : (∀ l : List ((ι → ℝ) × (ι → ℝ)), (∀ q ∈ l, q.1 = q.2) → frobenius l = .fin 0) ∧ ∀ l : List ((ι → ℝ) × (ι → ℝ)), Flt.lt (frobenius l) (.fin 0) = false := by
  refine ⟨fun l hl => ?_, fun l => ?_⟩
  · have : (l.map fun q => ∑ i, (q.1 i - q.2 i) ^ 2) = l.map fun _ => (0 : ℝ) := List.map_congr_left fun q hq => by rw [hl q hq]; simp
    rw [frobenius, this]
    simp
  · simp only [frobenius, Flt.lt, decide_eq_false_iff_not, not_lt]
    positivity

/-- The parameters, the batch and the row of random numbers of one step; `act` says whether the run is active. -/
structure RowStep (M : ℕ) where
  act : Bool
  i : Fin M
  J : List ℕ
  α : ℝ
  lamda : ℝ
  dt : ℝ
  sigma : ℝ

/-- The positions of a run after a step. -/
noncomputable def rowMap (f : (ι → ℝ) → ℝ) (p : (ι → ℝ) → ι → ℝ) (β : (ι → ℝ) → ι → ℝ) {M N : ℕ} (w : RowStep M) (y : ℕ → ι → ℝ) (z : Fin M × Fin N × ι → ℝ) : ℕ → ι → ℝ :=
  if w.act = true then rowNext f p β w.α w.lamda w.dt w.sigma w.i w.J y z else fun n => p (y n)

/-- Batches in range and contraction of the mean square spread by the factor `q`. -/
structure RowStep.OK {M : ℕ} (N : ℕ) (κ q : ℝ) (w : RowStep M) : Prop where
  ne : w.J ≠ []
  lt : ∀ n ∈ w.J, n < N
  dt : 0 ≤ w.dt
  le : (1 - w.lamda * w.dt) ^ 2 + ((N : ℝ) - 1) * κ * w.sigma ^ 2 * w.dt ≤ q

theorem spread_one (y : ℕ → ι → ℝ) : spread (oneRow y) 1 0 = 0 := by
  simp [spread]

theorem rowMap_measurable {f : (ι → ℝ) → ℝ} (hf : Measurable f) {p : (ι → ℝ) → ι → ℝ} (hp : Measurable p) {β : (ι → ℝ) → ι → ℝ} (hβ : Measurable β)
    {M N : ℕ} (w : RowStep M) : Measurable fun q : (ℕ → ι → ℝ) × (Fin M × Fin N × ι → ℝ) => rowMap f p β w q.1 q.2 := by
  unfold rowMap
  by_cases h : w.act = true
  · simp only [h, if_true]
    exact rowNext_measurable hf hp hβ _ _ _ _ _ _
  · simp only [h]
    exact measurable_pi_lambda _ fun n => hp.comp ((measurable_pi_apply n).comp measurable_fst)

variable [DecidableEq ι]

/-- The mean square of the change of all particles in step `k` decays geometrically. -/
theorem row_change {f : (ι → ℝ) → ℝ} {p : (ι → ℝ) → ι → ℝ} (hp : Shrinks p) {rule : (ι → ℝ) → (ι → ℝ) → ι → ℝ} {β : (ι → ℝ) → ι → ℝ} {κ : ℝ} (hr : RuleCoeff rule β κ) (hκ : 0 ≤ κ)
    {M N : ℕ} (hN : 0 < N) (y : ℕ → ι → ℝ) {Ω : Type} [MeasurableSpace Ω] {P : Measure Ω} [IsProbabilityMeasure P] {Z : ℕ → Ω → Fin M × Fin N × ι → ℝ} (hZ : IidNormal P Z)
    (hf : Measurable f) (hβ : Measurable β) (w : ℕ → RowStep M) {q : ℝ} (hw : ∀ k, (w k).OK N κ q) (hq1 : q ≤ 1) (ha : ∀ k, 1 ≤ k → (w k).act = true) (k : ℕ) (hk : 1 ≤ k) :
    ∫⁻ ω, ENNReal.ofReal (∑ n ∈ Finset.range N, ∑ l, (recur (fun k => rowMap f p β (w k)) y (fun j => Z j ω) (k + 1) n l -
        p (recur (fun k => rowMap f p β (w k)) y (fun j => Z j ω) k n) l) ^ 2) ∂P ≤ ENNReal.ofReal (5 / 2 * (q ^ (k - 1) * spread (oneRow y) N 0)) := by
  have hN1 : (0 : ℝ) ≤ (N : ℝ) - 1 := by
    have : (1 : ℝ) ≤ (N : ℝ) := by exact_mod_cast hN
    linarith
  have hq0 : 0 ≤ q := by
    refine le_trans ?_ (hw 0).le
    have := (hw 0).dt
    positivity
  set Φ : ℕ → (ℕ → ι → ℝ) → (Fin M × Fin N × ι → ℝ) → ℕ → ι → ℝ := fun k => rowMap f p β (w k) with hΦ
  have mp := shrinks_measurable hp
  have mΦ : ∀ k, Measurable fun q : (ℕ → ι → ℝ) × (Fin M × Fin N × ι → ℝ) => Φ k q.1 q.2 := fun k => rowMap_measurable hf mp hβ (w k)
  set X : ℕ → Ω → ℕ → ι → ℝ := fun k ω => recur Φ y (fun j => Z j ω) k with hX
  have mX : ∀ k, Measurable (X k) := fun k => (recur_measurable mΦ y k).comp (measurable_pi_lambda _ hZ.meas)
  have mV : ∀ k, Measurable fun ω => ENNReal.ofReal (spread (oneRow (recur Φ y (fun j => Z j ω) k)) N 0) := fun k => ((spread_measurable N).comp (mX k)).ennreal_ofReal
  have hb : ∀ k x, ∫⁻ z, ENNReal.ofReal (spread (oneRow (Φ k x z)) N 0) ∂stdNormal (Fin M × Fin N × ι) ≤
      ENNReal.ofReal (if (w k).act = true then q else 1) * ENNReal.ofReal (spread (oneRow x) N 0) := by
    intro k x
    by_cases h : (w k).act = true
    · rw [if_pos h, ← ENNReal.ofReal_mul hq0]
      simp only [hΦ, rowMap, if_pos h]
      exact (row_spread_bound hp hr hκ (hw k).dt hN (w k).i (hw k).ne (hw k).lt x).trans
        (ENNReal.ofReal_le_ofReal (mul_le_mul_of_nonneg_right (hw k).le (spread_nonneg _ _ _)))
    · rw [if_neg h, ENNReal.ofReal_one, one_mul]
      simp only [hΦ, rowMap, if_neg h, lintegral_const]
      have : stdNormal (Fin M × Fin N × ι) Set.univ = 1 := by
        haveI : IsProbabilityMeasure (stdNormal (Fin M × Fin N × ι)) := by unfold stdNormal; infer_instance
        exact measure_univ
      rw [this, mul_one]
      refine ENNReal.ofReal_le_ofReal ?_
      unfold spread
      exact Finset.sum_le_sum fun n _ => Finset.sum_le_sum fun k _ => Finset.sum_le_sum fun l _ => hp _ _ l
  have hstep : ∀ k, ∫⁻ ω, ENNReal.ofReal (spread (oneRow (X (k + 1) ω)) N 0) ∂P ≤ ENNReal.ofReal (if (w k).act = true then q else 1) * ∫⁻ ω, ENNReal.ofReal (spread (oneRow (X k ω)) N 0) ∂P := by
    intro k
    have h1 := recur_step (P := P) mΦ y hZ.meas hZ.indep hZ.law k (F := fun q => ENNReal.ofReal (spread (oneRow (Φ k q.1 q.2)) N 0))
      ((spread_measurable N).comp (mΦ k)).ennreal_ofReal (G := fun x => ENNReal.ofReal (if (w k).act = true then q else 1) * ENNReal.ofReal (spread (oneRow x) N 0)) (hb k)
    rw [lintegral_const_mul _ (mV k)] at h1
    exact h1
  have hV : ∀ k, ∫⁻ ω, ENNReal.ofReal (spread (oneRow (X (k + 1) ω)) N 0) ∂P ≤ ENNReal.ofReal (q ^ k * spread (oneRow y) N 0) := by
    intro k
    induction k with
    | zero =>
      refine (hstep 0).trans ?_
      have h0 : ∫⁻ ω, ENNReal.ofReal (spread (oneRow (X 0 ω)) N 0) ∂P = ENNReal.ofReal (spread (oneRow y) N 0) := by simp [hX, recur]
      rw [h0, pow_zero, one_mul]
      refine (mul_le_mul_left (b := (ENNReal.ofReal _)) (c := 1) ?_ _).trans (one_mul _).le
      rw [← ENNReal.ofReal_one]
      refine ENNReal.ofReal_le_ofReal ?_
      split_ifs
      · exact hq1
      · exact le_refl _
    | succ k ih =>
      refine (hstep (k + 1)).trans ?_
      rw [if_pos (ha (k + 1) (by omega))]
      refine (mul_le_mul_right ih _).trans (le_of_eq ?_)
      rw [← ENNReal.ofReal_mul hq0]
      congr 1
      ring
  obtain ⟨k, rfl⟩ : ∃ j, k = j + 1 := ⟨k - 1, by omega⟩
  rw [Nat.add_sub_cancel]
  have hinc : ∀ x, ∫⁻ z, ENNReal.ofReal (∑ n ∈ Finset.range N, ∑ l, (Φ (k + 1) x z n l - p (x n) l) ^ 2) ∂stdNormal (Fin M × Fin N × ι) ≤
      ENNReal.ofReal (5 / 2) * ENNReal.ofReal (spread (oneRow x) N 0) := by
    intro x
    have h := ha (k + 1) (by omega)
    simp only [hΦ, rowMap, if_pos h]
    rw [← ENNReal.ofReal_mul (by norm_num)]
    refine (row_inc_bound hp hr hκ (hw (k + 1)).dt hN (w (k + 1)).i (hw (k + 1)).ne (hw (k + 1)).lt x).trans (ENNReal.ofReal_le_ofReal ?_)
    set A := (w (k + 1)).lamda * (w (k + 1)).dt with hA
    set B := κ * (w (k + 1)).sigma ^ 2 * (w (k + 1)).dt with hB
    have hB0 : 0 ≤ B := by
      have := (hw (k + 1)).dt
      rw [hB]; positivity
    have hle : (1 - A) ^ 2 + ((N : ℝ) - 1) * B ≤ 1 := by
      refine le_trans (le_of_eq ?_) ((hw (k + 1)).le.trans hq1)
      rw [hA, hB]; ring
    have hA2 : A ^ 2 ≤ 4 := by
      have h1 : (1 - A) ^ 2 ≤ 1 := by nlinarith [mul_nonneg hN1 hB0]
      have h2 : 0 ≤ A := by nlinarith
      have h3 : A ≤ 2 := by nlinarith
      nlinarith
    have hsp := spread_nonneg (oneRow x) N 0
    by_cases h1 : N = 1
    · subst h1
      rw [spread_one, mul_zero, mul_zero]
    · have h2 : (1 : ℝ) ≤ (N : ℝ) - 1 := by
        have : (2 : ℝ) ≤ (N : ℝ) := by exact_mod_cast (by omega : 2 ≤ N)
        linarith
      have h3 : B ≤ 1 := by nlinarith [sq_nonneg (1 - A)]
      refine mul_le_mul_of_nonneg_right ?_ hsp
      linarith
  have h1 := recur_step (P := P) mΦ y hZ.meas hZ.indep hZ.law (k + 1) (F := fun q => ENNReal.ofReal (∑ n ∈ Finset.range N, ∑ l, (Φ (k + 1) q.1 q.2 n l - p (q.1 n) l) ^ 2))
    (by
      refine Measurable.ennreal_ofReal (Finset.measurable_sum _ fun n _ => Finset.measurable_sum _ fun l _ => ?_)
      have h1 : Measurable fun q : (ℕ → ι → ℝ) × (Fin M × Fin N × ι → ℝ) => Φ (k + 1) q.1 q.2 n l := (measurable_pi_apply l).comp ((measurable_pi_apply n).comp (mΦ (k + 1)))
      have h2 : Measurable fun q : (ℕ → ι → ℝ) × (Fin M × Fin N × ι → ℝ) => p (q.1 n) l := (measurable_pi_apply l).comp (mp.comp ((measurable_pi_apply n).comp measurable_fst))
      exact (h1.sub h2).pow_const 2)
    (G := fun x => ENNReal.ofReal (5 / 2) * ENNReal.ofReal (spread (oneRow x) N 0)) hinc
  rw [lintegral_const_mul _ (mV (k + 1))] at h1
  refine h1.trans ((mul_le_mul_right (hV k) _).trans (le_of_eq ?_))
  rw [← ENNReal.ofReal_mul (by norm_num)]

end

/-! The rounds of `optimize` -/

section
variable {K V : Type} [Zero K] [One K] [Neg K] [Add K] [Sub K] [Mul K] [Inv K] [Div K] [NatCast K] [Pow K ℕ] [LinearOrder K] [Add V] [Sub V] [SMul K V]

/-- The states of the first `k` rounds of `optimize`: before the check, after the check, after the step. -/
structure Trace (env : Env K V) (inner : St K V → Except Err (St K V)) (s : St K V) (k : ℕ) (τ σ ρ : ℕ → St K V) : Prop where
  start : τ 0 = s
  check : ∀ j < k, selectActive env (τ j) = .ok (σ j)
  some : ∀ j < k, (σ j).active ≠ []
  step : ∀ j < k, step env inner (σ j) = .ok (ρ j)
  sched : ∀ j < k, schedUpdate env (ρ j) = .ok (τ (j + 1))

theorem trace_of {env : Env K V} {inner : St K V → Except Err (St K V)} : ∀ (k : ℕ) (s : St K V), optimize env inner k s = .outOfFuel →
    ∃ τ σ ρ, Trace env inner s k τ σ ρ
  | 0, s, _ => ⟨fun _ => s, fun _ => s, fun _ => s, rfl, fun _ h => by omega, fun _ h => by omega, fun _ h => by omega, fun _ h => by omega⟩
  | k + 1, s, h => by
    unfold optimize at h
    cases h1 : selectActive env s with
    | error e => rw [h1] at h; cases h
    | ok a =>
      rw [h1] at h
      simp only at h
      by_cases h2 : a.active.length = 0
      · rw [if_pos h2] at h; cases h
      rw [if_neg h2] at h
      cases h3 : step env inner a with
      | error e => rw [h3] at h; cases h
      | ok b =>
        rw [h3] at h
        simp only at h
        cases h4 : schedUpdate env b with
        | error e => rw [h4] at h; cases h
        | ok c =>
          rw [h4] at h
          simp only at h
          obtain ⟨τ, σ, ρ, t⟩ := trace_of k c h
          refine ⟨fun j => Nat.casesOn j s τ, fun j => Nat.casesOn j a σ, fun j => Nat.casesOn j b ρ, rfl, ?_, ?_, ?_, ?_⟩
          · intro j hj
            cases j with
            | zero => exact h1
            | succ j => exact t.check j (by omega)
          · intro j hj
            cases j with
            | zero => exact fun h => h2 (by have h : a.active = [] := h; rw [h]; rfl)
            | succ j => exact t.some j (by omega)
          · intro j hj
            cases j with
            | zero => exact h3
            | succ j => exact t.step j (by omega)
          · intro j hj
            cases j with
            | zero => show schedUpdate env b = .ok (τ 0); rw [t.start]; exact h4
            | succ j => exact t.sched j (by omega)

theorem cboStep_draws {env : Env K V} (hc : env.corr = .none) {s s' : St K V} (h : Verif.step env (cboInner env) s = .ok s') : s'.draws = s.draws + 1 := by
  rw [cboInner_eq] at h
  obtain ⟨v, hv, hps⟩ := step_split.1 h
  obtain ⟨c, hcc, hmv⟩ := consThen_split.1 hv
  have p1 := preStep_frame env s
  have cf := computeConsensus_frame hcc
  have pf := postStep_facts hps
  have cdr : c.draws = s.draws := by rw [cf]; simp only; rw [p1]
  unfold cboMove at hmv
  cases hcm : c.cons with
  | none => rw [hcm] at hmv; cases hmv
  | some cm =>
    rw [hcm] at hmv
    simp only [correction, hc, bind_ok, pure_ok] at hmv
    obtain ⟨xp, e1, d, e2, ⟨d', c'⟩, e3, n, e4, u, e5, x, e6, rfl⟩ := hmv
    injection e3 with e3 e4
    subst e4
    rw [pf.frame]
    show c.draws + 1 = _
    rw [cdr]

theorem select_filter {env : Env K V} {s s' : St K V} (h : selectActive env s = .ok s') : s'.active = (List.range s.M).filter fun m => decide (m ∈ s'.active) := by
  obtain ⟨bs, l, q, -, -, ha, -⟩ := select_active h
  have : ∀ m ∈ List.range s.M, (bs.all fun b => !b m) = decide (m ∈ s'.active) := by
    intro m hm
    have h1 : m ∈ s'.active ↔ (bs.all fun b => !b m) = true := by
      rw [ha, List.mem_filter]
      exact ⟨fun h => h.2, fun h => ⟨hm, h⟩⟩
    by_cases h2 : m ∈ s'.active
    · rw [decide_eq_true h2]; exact h1.1 h2
    · rw [decide_eq_false h2]; simpa using mt h1.2 h2
  exact ha.trans (List.filter_congr this)

/-- What does not change along the rounds, and how the parameters change. -/
structure TraceFacts (ga gl gs gd : K → K) (s : St K V) (j : ℕ) (q : St K V) : Prop where
  wf : WF q
  best : BestFit q
  M : q.M = s.M
  N : q.N = s.N
  batchSize : q.batchSize = s.batchSize
  batched : q.batched = s.batched
  batchPartial : q.batchPartial = s.batchPartial
  batchConcat : q.batchConcat = s.batchConcat
  saveInt : q.saveInt = s.saveInt
  terms : q.terms = s.terms
  alpha : ∀ m, q.alpha m = ga^[j] (s.alpha m)
  lamda : q.lamda = gl^[j] s.lamda
  sigma : q.sigma = gs^[j] s.sigma
  dt : q.dt = gd^[j] s.dt
  draws : q.draws = s.draws + j

variable [SoundArith K]

theorem TraceFacts.check {env : Env K V} {ga gl gs gd : K → K} {s : St K V} {j : ℕ} {q r : St K V} (hst : ∀ tm ∈ s.terms, BuiltIn tm) (f : TraceFacts ga gl gs gd s j q) (h : selectActive env q = .ok r) :
    TraceFacts ga gl gs gd s j r := by
  obtain ⟨r', e1, e2, -⟩ := select_stateless (env := env) (s := q) (fun tm htm => (hst tm (f.terms ▸ htm)).stateless)
  rw [h] at e1
  injection e1 with e1
  subst e1
  refine ⟨select_wf f.wf h, ?_, ?_, ?_, ?_, ?_, ?_, ?_, ?_, ?_, ?_, ?_, ?_, ?_, ?_⟩
  · exact bestFit_congr f.best (by rw [e2]) (by rw [e2]) (by rw [e2]) (by rw [e2]) (by rw [e2])
  all_goals rw [e2]
  · exact f.M
  · exact f.N
  · exact f.batchSize
  · exact f.batched
  · exact f.batchPartial
  · exact f.batchConcat
  · exact f.saveInt
  · exact f.terms
  · exact f.alpha
  · exact f.lamda
  · exact f.sigma
  · exact f.dt
  · exact f.draws

theorem TraceFacts.next {env : Env K V} (hc : env.corr = .none) (hno : NormOK env) (hpost : PostOK env) (hp : PermOK env) {ga gl gs gd : K → K} (hs : SchedLocal env ga gl gs gd)
    {s : St K V} {j : ℕ} {q r t : St K V} (f : TraceFacts ga gl gs gd s j q) (h : Verif.step env (cboInner env) q = .ok r) (h' : schedUpdate env r = .ok t) : TraceFacts ga gl gs gd s (j + 1) t := by
  have fr := step_frame (by rw [cboInner_eq]; exact consThen_frame (cboMove_ok _)) h
  have hd := cboStep_draws hc h
  have fs := sched_frame h'
  simp only [schedUpdate, hs r, bind_ok, pure_ok] at h'
  obtain ⟨w, e, h'⟩ := h'
  injection e with e
  subst e
  subst h'
  rw [cboInner_eq] at h
  have hw := step_wf (cboMove_ok _) hpost hp f.wf h
  have hb := bestFit_step hno (cboMove_ok _) hpost h
  refine ⟨⟨hw.xr, hw.xc, hw.er, hw.ec, hw.pos, hw.act, hw.unb, hw.bat⟩, bestFit_congr hb rfl rfl rfl rfl rfl, fr.M.trans f.M, fr.N.trans f.N, fr.batchSize.trans f.batchSize, fr.batched.trans f.batched,
    fr.batchPartial.trans f.batchPartial, fr.batchConcat.trans f.batchConcat, fr.saveInt.trans f.saveInt, fr.terms.trans f.terms, ?_, ?_, ?_, ?_, ?_⟩
  · intro m
    simp only [fr.alpha, f.alpha, Function.iterate_succ_apply']
  · simp only [fr.lamda, f.lamda, Function.iterate_succ_apply']
  · simp only [fr.sigma, f.sigma, Function.iterate_succ_apply']
  · simp only [fr.dt, f.dt, Function.iterate_succ_apply']
  · show r.draws = _
    rw [hd, f.draws]
    omega

/-- The facts along a trace of CBO. -/
theorem Trace.facts {env : Env K V} (hc : env.corr = .none) (hno : NormOK env) (hpost : PostOK env) (hp : PermOK env) {ga gl gs gd : K → K} (hs : SchedLocal env ga gl gs gd)
    {s : St K V} (hst : ∀ tm ∈ s.terms, BuiltIn tm) (hw : WF s) (hb : BestFit s) {k : ℕ} {τ σ ρ : ℕ → St K V} (t : Trace env (cboInner env) s k τ σ ρ) :
    ∀ j ≤ k, TraceFacts ga gl gs gd s j (τ j) ∧ (j < k → TraceFacts ga gl gs gd s j (σ j)) := by
  have key : ∀ j ≤ k, TraceFacts ga gl gs gd s j (τ j) := by
    intro j
    induction j with
    | zero =>
      intro _
      rw [t.start]
      exact ⟨hw, hb, rfl, rfl, rfl, rfl, rfl, rfl, rfl, rfl, fun _ => rfl, rfl, rfl, rfl, rfl⟩
    | succ j ih =>
      intro hj
      exact ((ih (by omega)).check hst (t.check j (by omega))).next hc hno hpost hp hs (t.step j (by omega)) (t.sched j (by omega))
  exact fun j hj => ⟨key j hj, fun h => (key j hj).check hst (t.check j h)⟩

/-- A run that is stopped at a check after at least one step stays stopped. -/
theorem Trace.antitone {env : Env K V} (hc : env.corr = .none) (hno : NormOK env) {p : V → V} (hpm : PostMap env p) (hpp : ∀ v, p (p v) = p v) (hp : PermOK env) {ga gl gs gd : K → K}
    (hs : SchedLocal env ga gl gs gd) (hgd : ∀ x, 0 ≤ x → 0 ≤ gd x)
    {s : St K V} (hst : ∀ tm ∈ s.terms, BuiltIn tm) (hw : WF s) (hb : BestFit s) (hdt : 0 ≤ s.dt) {k : ℕ} {τ σ ρ : ℕ → St K V} (t : Trace env (cboInner env) s k τ σ ρ)
    {i j m : ℕ} (hi : 1 ≤ i) (hij : i ≤ j) (hj : j < k) (hm : m ∈ (σ j).active) : m ∈ (σ i).active := by
  induction j, hij using Nat.le_induction with
  | base => exact hm
  | succ j hij ih =>
    refine ih (by omega) ?_
    by_contra hna
    have fj := (t.facts hc hno hpm.ok hp hs hst hw hb j (by omega)).1
    have fj' := (t.facts hc hno hpm.ok hp hs hst hw hb (j + 1) (by omega)).2 hj
    have hM : m < (τ j).M := by
      have := fj'.wf.act_lt hm
      rw [fj'.M] at this
      rw [fj.M]
      exact this
    obtain ⟨j', rfl⟩ : ∃ j', j = j' + 1 := ⟨j - 1, by omega⟩
    have hfix : ∀ n, p ((σ (j' + 1)).x.get m n) = (σ (j' + 1)).x.get m n := by
      intro n
      have dx : (σ (j' + 1)).x = (ρ j').x := by
        rw [select_frame (t.check (j' + 1) (by omega))]; simp only; rw [sched_frame (t.sched j' (by omega))]
      obtain ⟨v, hv⟩ := step_image hpm (t.step j' (by omega)) m n
      rw [dx, hv, hpp]
    have hd : 0 ≤ (τ (j' + 1)).dt := by
      rw [fj.dt]
      generalize j' + 1 = e
      induction e with
      | zero => exact hdt
      | succ e ih => rw [Function.iterate_succ_apply']; exact hgd _ ih
    have h := frozen_core env (cboMove env) (cboMove_ok _) (cboMove_local _) (cboMove_quiet fun g h => by rw [hc] at h; cases h) p hpm hp hno
      (fun s q h hd => by rw [hs s] at h; injection h with h; rw [← h]; exact hgd _ hd) (τ (j' + 1)) (σ (j' + 1)) fj.wf fj.best hd
      (fun tm htm => hst tm (fj.terms ▸ htm)) (t.check _ (by omega)) m hM hna (fun n _ => hfix n) 1 (σ (j' + 1 + 1)) ?_
    · exact h.1 hm
    · have er : further 1 = [.step, .sched, .select] := rfl
      rw [er, ← cboInner_eq]
      simp only [execAll, exec, bind_ok]
      exact ⟨_, t.step _ (by omega), _, t.sched _ (by omega), _, t.check _ hj, rfl⟩

end

end Verif
