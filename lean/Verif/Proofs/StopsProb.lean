import Verif.Proofs.Stops
import Verif.Proofs.Sim
import Mathlib.Data.Fintype.BigOperators
import Mathlib.Data.Fintype.Powerset

/-! Lemmas for C85: the probability that `optimize` has not stopped after a number of rounds. -/

set_option linter.unusedSectionVars false

namespace Verif

open MeasureTheory ProbabilityTheory Filter
open scoped ENNReal Topology

variable {ι : Type} [Fintype ι]

/-- The step of run `m` from `q` as a step of the recursion for its positions. -/
noncomputable def rowData (env : Env ℝ (ι → ℝ)) {M : ℕ} (m : Fin M) (q : St ℝ (ι → ℝ)) (α lamda dt sigma : ℝ) : RowStep M where
  act := decide ((m : ℕ) ∈ q.active)
  i := if h : q.active.idxOf (m : ℕ) < M then ⟨_, h⟩ else m
  J := if (m : ℕ) ∈ q.active then batchList env q (q.active.idxOf (m : ℕ)) else [0]
  α := α
  lamda := lamda
  dt := dt
  sigma := sigma

theorem rowData_same {env : Env ℝ (ι → ℝ)} {M : ℕ} (m : Fin M) {q q' : St ℝ (ι → ℝ)} (h : SameBatch q q') (α lamda dt sigma : ℝ) :
    rowData env m q' α lamda dt sigma = rowData env m q α lamda dt sigma := by
  unfold rowData batchList
  rw [(h.pre (env := env)).1, h.active]

theorem row_steps_of {env : Env ℝ (ι → ℝ)} {f : (ι → ℝ) → ℝ} {ν : ℕ → ℝ → ℕ → ℕ → (ι → ℝ) → ι → ℝ} {p : (ι → ℝ) → ι → ℝ} (hE : Standard env f ν p)
    {rule : (ι → ℝ) → (ι → ℝ) → ι → ℝ} {β : (ι → ℝ) → ι → ℝ} (hr : ∀ d z l, rule d z l = β d l * z l) {M N : ℕ} {q : St ℝ (ι → ℝ)} (hM : q.M = M) (hN : q.N = N) (hw : WF q) (hb : 1 ≤ q.batchSize)
    (hfull : q.batched = false ∨ q.batchPartial = false) (m : Fin M) {α lamda dt sigma : ℝ} (hα : q.alpha m = α) (hl : q.lamda = lamda) (hd : q.dt = dt) (hs : q.sigma = sigma) :
    (rowData env m q α lamda dt sigma).J ≠ [] ∧ (∀ n ∈ (rowData env m q α lamda dt sigma).J, n < N) ∧
      ∀ Z q', step (withSamples env rule M N Z) (cboInner (withSamples env rule M N Z)) q = .ok q' →
        ∀ n < N, q'.x.get m n = rowMap f p β (rowData env m q α lamda dt sigma) (q.x.get m) (Z q.draws) n := by
  subst hM hN hα hl hd hs
  by_cases hm : (m : ℕ) ∈ q.active
  · have hi : q.active.idxOf (m : ℕ) < q.active.length := List.idxOf_lt_length_of_mem hm
    have hiM : q.active.idxOf (m : ℕ) < q.M := by
      have := hw.act.length_le
      rw [List.length_range] at this
      omega
    have hmi : q.active.getD (q.active.idxOf (m : ℕ)) 0 = m := by
      simp only [List.getD, List.getElem?_eq_getElem hi, Option.getD_some]
      exact List.getElem_idxOf hi
    obtain ⟨h1, h2, h3⟩ := row_steps hE hr hw hb hfull hi hmi hiM
    simp only [rowData, if_pos hm, dif_pos hiM]
    refine ⟨h1, h2, fun Z q' h n hn => ?_⟩
    rw [(h3 Z q' h).2 n hn]
    simp only [rowMap, hm, decide_true, if_true]
  · simp only [rowData, if_neg hm]
    refine ⟨by simp, fun n hn => ?_, fun Z q' h n hn => ?_⟩
    · rw [List.mem_singleton] at hn
      rw [hn]
      exact hw.pos
    · simp only [rowMap, hm, decide_false]
      have fr := step_frame (by rw [cboInner_eq]; exact consThen_frame (cboMove_ok _)) h
      rw [cboInner_eq] at h
      have hpm : PostMap (withSamples env rule q.M q.N Z) p := hE.post
      have := step_unsel (cboMove_ok _) (cboMove_local _) hpm h m n ?_
      · simpa using this
      · intro hs
        rw [fr.pIdx] at hs
        exact hm (pSel_active (env := withSamples env rule q.M q.N Z) hE.perm hw hs).1

section
variable {env : Env ℝ (ι → ℝ)} {f : (ι → ℝ) → ℝ} {ν : ℕ → ℝ → ℕ → ℕ → (ι → ℝ) → ι → ℝ} {p : (ι → ℝ) → ι → ℝ} (hE : Standard env f ν p) (hnorm : env.normDiff = frobenius)
  {rule : (ι → ℝ) → (ι → ℝ) → ι → ℝ} {s : St ℝ (ι → ℝ)} (hst : ∀ tm ∈ s.terms, BuiltIn tm) (hw : WF s) (hbf : BestFit s) {ga gl gs gd : ℝ → ℝ} (hsch : SchedLocal env ga gl gs gd)

include hE hnorm hst hw hbf hsch

theorem normOK_samples (Z : ℕ → Fin s.M × Fin s.N × ι → ℝ) : NormOK (withSamples env rule s.M s.N Z) :=
  ⟨fun l hl => by show env.normDiff l = _; rw [hnorm]; exact frobenius_ok.1 l hl, fun l => by show Flt.lt (env.normDiff l) _ = _; rw [hnorm]; exact frobenius_ok.2 l⟩

theorem samples_facts (Z : ℕ → Fin s.M × Fin s.N × ι → ℝ) {k : ℕ} {τ σ ρ : ℕ → St ℝ (ι → ℝ)}
    (t : Trace (withSamples env rule s.M s.N Z) (cboInner (withSamples env rule s.M s.N Z)) s k τ σ ρ) :
    ∀ j ≤ k, TraceFacts ga gl gs gd s j (τ j) ∧ (j < k → TraceFacts ga gl gs gd s j (σ j)) :=
  have hE' := withSamples_std hE rule s.M s.N Z
  have hs' : SchedLocal (withSamples env rule s.M s.N Z) ga gl gs gd := hsch
  t.facts hE'.corr (normOK_samples hE hnorm hst hw hbf hsch Z) hE'.post.ok hE'.perm hs' hst hw hbf

/-- Two executions in which the same runs are active use the same batches. -/
theorem trace_same {Z Z' : ℕ → Fin s.M × Fin s.N × ι → ℝ} {k k₀ : ℕ} {τ σ ρ τ' σ' ρ' : ℕ → St ℝ (ι → ℝ)}
    (t : Trace (withSamples env rule s.M s.N Z) (cboInner (withSamples env rule s.M s.N Z)) s k τ σ ρ)
    (t' : Trace (withSamples env rule s.M s.N Z') (cboInner (withSamples env rule s.M s.N Z')) s k τ' σ' ρ') (hk : k₀ < k)
    (h : ∀ j ≤ k₀, ∀ m < s.M, m ∈ (σ j).active ↔ m ∈ (σ' j).active) : ∀ j ≤ k₀, SameBatch (σ j) (σ' j) := by
  have F := samples_facts hE hnorm hst hw hbf hsch Z t
  have F' := samples_facts hE hnorm hst hw hbf hsch Z' t'
  have hact : ∀ j ≤ k₀, (σ' j).active = (σ j).active := by
    intro j hj
    have e := select_filter (t.check j (by omega))
    have e' := select_filter (t'.check j (by omega))
    rw [(F j (by omega)).1.M] at e
    rw [(F' j (by omega)).1.M] at e'
    rw [e, e']
    refine List.filter_congr fun m hm => ?_
    have := h j hj m (List.mem_range.1 hm)
    exact decide_eq_decide.2 this.symm
  have mk : ∀ j ≤ k₀, (σ' j).indices = (σ j).indices → (σ' j).perms = (σ j).perms → SameBatch (σ j) (σ' j) := by
    intro j hj e1 e2
    have a := (F j (by omega)).2 (by omega)
    have b := (F' j (by omega)).2 (by omega)
    exact ⟨b.M.trans a.M.symm, b.N.trans a.N.symm, hact j hj, b.batchSize.trans a.batchSize.symm, b.batched.trans a.batched.symm, b.batchPartial.trans a.batchPartial.symm,
      b.batchConcat.trans a.batchConcat.symm, e1, e2⟩
  intro j
  induction j with
  | zero =>
    intro _
    have c1 := select_frame (t.check 0 (by omega))
    have c2 := select_frame (t'.check 0 (by omega))
    refine mk 0 (by omega) ?_ ?_
    · rw [c1, c2]; simp only [t.start, t'.start]
    · rw [c1, c2]; simp only [t.start, t'.start]
  | succ j ih =>
    intro hj
    obtain ⟨-, b2, b3⟩ := (ih (by omega)).pre (env := env)
    have c1 := select_frame (t.check (j + 1) (by omega))
    have c2 := select_frame (t'.check (j + 1) (by omega))
    have d1 := sched_frame (t.sched j (by omega))
    have d2 := sched_frame (t'.sched j (by omega))
    have f1 := step_frame (by rw [cboInner_eq]; exact consThen_frame (cboMove_ok _)) (t.step j (by omega))
    have f2 := step_frame (by rw [cboInner_eq]; exact consThen_frame (cboMove_ok _)) (t'.step j (by omega))
    refine mk (j + 1) hj ?_ ?_
    · rw [c1, c2]; simp only; rw [d1, d2]; simp only; rw [f1.indices, f2.indices]; exact b2
    · rw [c1, c2]; simp only; rw [d1, d2]; simp only; rw [f1.perms, f2.perms]; exact b3

variable {β : (ι → ℝ) → ι → ℝ} {κ : ℝ} (hr : RuleCoeff rule β κ) (hbs : 1 ≤ s.batchSize) (hfull : s.batched = false ∨ s.batchPartial = false) (hgd : ∀ x, 0 ≤ x → 0 ≤ gd x) (hdt : 0 ≤ s.dt)
  {q : ℝ} (hq : ∀ j, (1 - gl^[j] s.lamda * gd^[j] s.dt) ^ 2 + ((s.N : ℝ) - 1) * κ * (gs^[j] s.sigma) ^ 2 * gd^[j] s.dt ≤ q)

include hr hbs hfull hgd hdt hq

/-- Along an execution the positions of a run follow the recursion. -/
theorem trace_rows (Z : ℕ → Fin s.M × Fin s.N × ι → ℝ) {k : ℕ} {τ σ ρ : ℕ → St ℝ (ι → ℝ)}
    (t : Trace (withSamples env rule s.M s.N Z) (cboInner (withSamples env rule s.M s.N Z)) s k τ σ ρ) (m : Fin s.M) {j : ℕ} (hj : j < k) :
    (rowData env m (σ j) (ga^[j] (s.alpha m)) (gl^[j] s.lamda) (gd^[j] s.dt) (gs^[j] s.sigma)).OK s.N κ q ∧
      ∀ n < s.N, (τ (j + 1)).x.get m n =
        rowMap f p β (rowData env m (σ j) (ga^[j] (s.alpha m)) (gl^[j] s.lamda) (gd^[j] s.dt) (gs^[j] s.sigma)) ((τ j).x.get m) (Z (s.draws + j)) n := by
  have F := (samples_facts hE hnorm hst hw hbf hsch Z t j (by omega)).2 hj
  have hd : 0 ≤ gd^[j] s.dt := by
    clear F hj
    induction j with
    | zero => exact hdt
    | succ e ih => rw [Function.iterate_succ_apply']; exact hgd _ ih
  obtain ⟨h1, h2, h3⟩ := row_steps_of hE hr.rule F.M F.N F.wf (by rw [F.batchSize]; exact hbs) (by rw [F.batched, F.batchPartial]; exact hfull) m (F.alpha m) F.lamda F.dt F.sigma
  refine ⟨⟨h1, h2, hd, hq j⟩, fun n hn => ?_⟩
  have ex : (σ j).x = (τ j).x := by rw [select_frame (t.check j hj)]
  rw [sched_frame (t.sched j hj)]
  simp only
  rw [h3 Z _ (t.step j hj) n hn, F.draws, ex]

/-- One of the possible histories of the first `k + 2` rounds: run `m` is active in all rounds from 1 to `k + 1`, `F` is the set of runs active in round 0, and every run `m'` is active
in the rounds from 1 to `T m'`, as far as rounds up to `k` are concerned. -/
def History (env : Env ℝ (ι → ℝ)) (rule : (ι → ℝ) → (ι → ℝ) → ι → ℝ) (s : St ℝ (ι → ℝ)) (k : ℕ) (Z : ℕ → Fin s.M × Fin s.N × ι → ℝ) (m : Fin s.M) (F : Finset (Fin s.M)) (T : Fin s.M → Fin (k + 1)) : Prop :=
  ∃ τ σ ρ, Trace (withSamples env rule s.M s.N Z) (cboInner (withSamples env rule s.M s.N Z)) s (k + 2) τ σ ρ ∧ (∀ j, 1 ≤ j → j ≤ k + 1 → (m : ℕ) ∈ (σ j).active) ∧
    (∀ m' : Fin s.M, m' ∈ F ↔ (m' : ℕ) ∈ (σ 0).active) ∧ ∀ (m' : Fin s.M) (j : ℕ), 1 ≤ j → j ≤ k → ((m' : ℕ) ∈ (σ j).active ↔ j ≤ (T m' : ℕ))

omit hr hbs hfull hq in
/-- If `optimize` has not stopped after `k + 2` checks, one of these histories has happened. -/
theorem history_of (hpp : ∀ v, p (p v) = p v) (k : ℕ) (Z : ℕ → Fin s.M × Fin s.N × ι → ℝ)
    (h : optimize (withSamples env rule s.M s.N Z) (cboInner (withSamples env rule s.M s.N Z)) (k + 2) s = .outOfFuel) : ∃ m F T, History env rule s k Z m F T := by
  obtain ⟨τ, σ, ρ, t⟩ := trace_of _ _ h
  have hE' := withSamples_std hE rule s.M s.N Z
  have hs' : SchedLocal (withSamples env rule s.M s.N Z) ga gl gs gd := hsch
  have anti : ∀ {i j m : ℕ}, 1 ≤ i → i ≤ j → j < k + 2 → m ∈ (σ j).active → m ∈ (σ i).active := fun h1 h2 h3 h4 =>
    t.antitone hE'.corr (normOK_samples hE hnorm hst hw hbf hsch Z) hE'.post hpp hE'.perm hs' hgd hst hw hbf hdt h1 h2 h3 h4
  obtain ⟨m, hm⟩ := List.exists_mem_of_ne_nil _ (t.some (k + 1) (by omega))
  have F := (samples_facts hE hnorm hst hw hbf hsch Z t (k + 1) (by omega)).2 (by omega)
  have hmM : m < s.M := by rw [← F.M]; exact F.wf.act_lt hm
  classical
  let c : ℕ → Finset ℕ := fun m' => (Finset.Icc 1 k).filter fun j => m' ∈ (σ j).active
  have hc : ∀ m', (c m').card < k + 1 := by
    intro m'
    have := Finset.card_filter_le (Finset.Icc 1 k) fun j => m' ∈ (σ j).active
    rw [Nat.card_Icc] at this
    show (Finset.filter _ _).card < _
    omega
  refine ⟨⟨m, hmM⟩, Finset.univ.filter fun m' : Fin s.M => (m' : ℕ) ∈ (σ 0).active, fun m' => ⟨(c m').card, hc m'⟩, τ, σ, ρ, t, fun j h1 h2 => anti h1 h2 (by omega) hm, fun m' => by simp, ?_⟩
  intro m' j h1 h2
  constructor
  · intro hj
    have : Finset.Icc 1 j ⊆ c m' := by
      intro i hi
      rw [Finset.mem_Icc] at hi
      exact Finset.mem_filter.2 ⟨Finset.mem_Icc.2 ⟨hi.1, by omega⟩, anti hi.1 hi.2 (by omega) hj⟩
    have := Finset.card_le_card this
    rw [Nat.card_Icc] at this
    show j ≤ (c m').card
    omega
  · intro hj
    by_contra hna
    have : c m' ⊆ Finset.Icc 1 (j - 1) := by
      intro i hi
      obtain ⟨hi1, hi2⟩ := Finset.mem_filter.1 hi
      rw [Finset.mem_Icc] at hi1
      refine Finset.mem_Icc.2 ⟨hi1.1, ?_⟩
      by_contra hc
      exact hna (anti h1 (by omega) (by omega) hi2)
    have := Finset.card_le_card this
    rw [Nat.card_Icc] at this
    have hj : j ≤ (c m').card := hj
    omega

variable [DecidableEq ι]

/-- The probability of one such history. -/
theorem history_prob (hpp : ∀ v, p (p v) = p v) (hp : Shrinks p) (hκ : 0 ≤ κ) (hf : Measurable f) (hβ : Measurable β) (hq1 : q ≤ 1) {tol : ℝ} (htol : 0 < tol) (hin : .diffTol (.fin tol) ∈ s.terms)
    {Ω : Type} [MeasurableSpace Ω] (P : Measure Ω) [IsProbabilityMeasure P] {Z : ℕ → Ω → Fin s.M × Fin s.N × ι → ℝ} (hZ : IidNormal P Z)
    (k : ℕ) (hk : 1 ≤ k) (m : Fin s.M) (F : Finset (Fin s.M)) (T : Fin s.M → Fin (k + 1)) :
    P {ω | History env rule s k (fun d => Z d ω) m F T} ≤ ENNReal.ofReal (5 / 2 * (q ^ (k - 1) * spread s.x s.N m) / (s.N * tol) ^ 2) := by
  by_cases hne : ∃ ω, History env rule s k (fun d => Z d ω) m F T
  · obtain ⟨ω₀, τ₀, σ₀, ρ₀, t₀, m₀, F₀, T₀⟩ := hne
    have hN : (0 : ℝ) < s.N := by exact_mod_cast hw.pos
    -- the recursion of this history
    let w₀ : RowStep s.M := rowData env m (σ₀ 1) (ga^[1] (s.alpha m)) (gl^[1] s.lamda) (gd^[1] s.dt) (gs^[1] s.sigma)
    let w : ℕ → RowStep s.M := fun j => if j ≤ k then rowData env m (σ₀ j) (ga^[j] (s.alpha m)) (gl^[j] s.lamda) (gd^[j] s.dt) (gs^[j] s.sigma) else w₀
    have hrow₀ := fun j (hj : j < k + 2) => trace_rows hE hnorm hst hw hbf hsch hr hbs hfull hgd hdt hq (fun d => Z d ω₀) t₀ m hj
    have hwok : ∀ j, (w j).OK s.N κ q := by
      intro j
      by_cases h : j ≤ k
      · simp only [w, if_pos h]; exact (hrow₀ j (by omega)).1
      · simp only [w, if_neg h]; exact (hrow₀ 1 (by omega)).1
    have hact : ∀ j, 1 ≤ j → (w j).act = true := by
      intro j hj
      by_cases h : j ≤ k
      · simp only [w, if_pos h, rowData, decide_eq_true_eq]; exact m₀ j hj (by omega)
      · simp only [w, if_neg h, w₀, rowData, decide_eq_true_eq]; exact m₀ 1 (by omega) (by omega)
    have hZ' : IidNormal P fun j => Z (s.draws + j) := ⟨fun j => hZ.meas _, fun j => hZ.law _, hZ.indep.precomp (add_right_injective s.draws)⟩
    have key := row_change hp hr hκ hw.pos (s.x.get m) hZ' hf hβ w hwok hq1 hact k hk
    set D : Ω → ℝ := fun ω => ∑ n ∈ Finset.range s.N, ∑ l, (recur (fun k => rowMap f p β (w k)) (s.x.get m) (fun j => Z (s.draws + j) ω) (k + 1) n l -
        p (recur (fun k => rowMap f p β (w k)) (s.x.get m) (fun j => Z (s.draws + j) ω) k n) l) ^ 2 with hD
    have hsub : {ω | History env rule s k (fun d => Z d ω) m F T} ⊆ {ω | ENNReal.ofReal ((s.N * tol) ^ 2) ≤ ENNReal.ofReal (D ω)} := by
      rintro ω ⟨τ, σ, ρ, t, hm, hF, hT⟩
      refine ENNReal.ofReal_le_ofReal ?_
      have same : ∀ j ≤ k, SameBatch (σ₀ j) (σ j) := by
        refine trace_same hE hnorm hst hw hbf hsch t₀ t (by omega) fun j hj m' hm' => ?_
        by_cases h0 : j = 0
        · subst h0
          rw [← F₀ ⟨m', hm'⟩, ← hF ⟨m', hm'⟩]
        · rw [T₀ ⟨m', hm'⟩ j (by omega) hj, hT ⟨m', hm'⟩ j (by omega) hj]
      have hrow := fun j (hj : j < k + 2) => trace_rows hE hnorm hst hw hbf hsch hr hbs hfull hgd hdt hq (fun d => Z d ω) t m hj
      have hx : ∀ j ≤ k + 1, ∀ n < s.N, (τ j).x.get m n = recur (fun k => rowMap f p β (w k)) (s.x.get m) (fun j => Z (s.draws + j) ω) j n := by
        intro j
        induction j with
        | zero => intro _ n _; rw [t.start]; rfl
        | succ j ih =>
          intro hj n hn
          rw [(hrow j (by omega)).2 n hn, rowData_same m (same j (by omega))]
          have ew : w j = rowData env m (σ₀ j) (ga^[j] (s.alpha m)) (gl^[j] s.lamda) (gd^[j] s.dt) (gs^[j] s.sigma) := if_pos (by omega)
          simp only [recur]
          rw [← ew]
          unfold rowMap
          split_ifs
          · exact rowNext_congr f p β _ _ _ _ _ (hwok j).lt (ih (by omega)) _ n hn
          · exact congrArg p (ih (by omega) n hn)
      -- the criterion does not fire in round `k + 1`
      have Fk := (samples_facts hE hnorm hst hw hbf hsch _ t (k + 1) (by omega)).1
      have Fs := (samples_facts hE hnorm hst hw hbf hsch _ t k (by omega)).2 (by omega)
      obtain ⟨r', e1, -, e3, -⟩ := select_stateless (env := withSamples env rule s.M s.N fun d => Z d ω) (s := τ (k + 1)) (fun tm htm => (hst tm (Fk.terms ▸ htm)).stateless)
      rw [t.check (k + 1) (by omega)] at e1
      injection e1 with e1
      subst e1
      have hnf := ((e3 m).1 (hm (k + 1) (by omega) (by omega))).2 _ (by rw [Fk.terms]; exact hin)
      have hstep := t.step k (by omega)
      rw [cboInner_eq] at hstep
      have hE' := withSamples_std hE rule s.M s.N fun d => Z d ω
      have hu := step_updDiff (cboMove_ok _) hE'.post.ok Fs.wf (m := m) (by rw [Fs.M]; exact m.2) hstep
      have eu : (τ (k + 1)).updDiff = (ρ k).updDiff := by rw [sched_frame (t.sched k (by omega))]
      have exr : (ρ k).x = (τ (k + 1)).x := by rw [sched_frame (t.sched k (by omega))]
      have exs : (σ k).x = (τ k).x := by rw [select_frame (t.check k (by omega))]
      simp only [Fires] at hnf
      rw [eu, hu, Fs.N] at hnf
      have en : (withSamples env rule s.M s.N fun d => Z d ω).normDiff = frobenius := hnorm
      rw [en, frobenius, exr, exs] at hnf
      simp only [Flt.lt, decide_eq_true_eq, not_lt, List.length_map, List.length_range, List.map_map, Function.comp_def] at hnf
      rw [le_div_iff₀ hN] at hnf
      have hsum : ((List.range s.N).map fun j => ∑ i, ((τ (k + 1)).x.get m j i - (τ k).x.get m j i) ^ 2).sum = D ω := by
        have e : ((List.range s.N).map fun j => ∑ i, ((τ (k + 1)).x.get m j i - (τ k).x.get m j i) ^ 2).sum = ∑ j ∈ Finset.range s.N, ∑ i, ((τ (k + 1)).x.get m j i - (τ k).x.get m j i) ^ 2 := rfl
        rw [e, hD]
        refine Finset.sum_congr rfl fun n hn => Finset.sum_congr rfl fun l _ => ?_
        have hn := Finset.mem_range.1 hn
        rw [hx (k + 1) (by omega) n hn, hx k (by omega) n hn]
        have e2 : p (recur (fun k => rowMap f p β (w k)) (s.x.get m) (fun j => Z (s.draws + j) ω) k n) = recur (fun k => rowMap f p β (w k)) (s.x.get m) (fun j => Z (s.draws + j) ω) k n := by
          obtain ⟨k', rfl⟩ : ∃ j, k = j + 1 := ⟨k - 1, by omega⟩
          simp only [recur]
          unfold rowMap
          split_ifs
          · simp only [rowNext, hpp]
          · exact hpp _
        rw [e2]
      rw [hsum] at hnf
      rw [mul_comm]
      exact (Real.le_sqrt' (by positivity)).1 hnf
    refine (measure_mono hsub).trans ?_
    have hpos : (0 : ℝ) < (s.N * tol) ^ 2 := by positivity
    have hmk := meas_ge_le_lintegral_div (μ := P) (f := fun ω => ENNReal.ofReal (D ω)) (ε := ENNReal.ofReal ((s.N * tol) ^ 2)) ?_ (by rw [ne_eq, ENNReal.ofReal_eq_zero, not_le]; exact hpos) ENNReal.ofReal_ne_top
    · refine hmk.trans ?_
      rw [ENNReal.ofReal_div_of_pos hpos]
      exact ENNReal.div_le_div_right key _
    · have mp := shrinks_measurable hp
      have mX : ∀ k, Measurable fun ω => recur (fun k => rowMap f p β (w k)) (s.x.get m) (fun j => Z (s.draws + j) ω) k := fun k =>
        (recur_measurable (fun k => rowMap_measurable hf mp hβ (w k)) (s.x.get m) k).comp (measurable_pi_lambda _ hZ'.meas)
      refine (Measurable.ennreal_ofReal (Finset.measurable_sum _ fun n _ => Finset.measurable_sum _ fun l _ => ?_)).aemeasurable
      have h1 : ∀ k, Measurable fun ω => recur (fun k => rowMap f p β (w k)) (s.x.get m) (fun j => Z (s.draws + j) ω) k n := fun k => (measurable_pi_apply n).comp (mX k)
      exact (((measurable_pi_apply l).comp (h1 (k + 1))).sub ((measurable_pi_apply l).comp (mp.comp (h1 k)))).pow_const 2
  · have : {ω | History env rule s k (fun d => Z d ω) m F T} = ∅ := by
      ext ω
      simp only [Set.mem_ofPred_eq, Set.mem_empty_iff_false, iff_false]
      exact fun h => hne ⟨ω, h⟩
    rw [this, measure_empty]
    exact bot_le

/-- The probability that `optimize` has not stopped after `k + 2` checks. -/
theorem stop_tail (hpp : ∀ v, p (p v) = p v) (hp : Shrinks p) (hκ : 0 ≤ κ) (hf : Measurable f) (hβ : Measurable β) (hq1 : q ≤ 1) {tol : ℝ} (htol : 0 < tol) (hin : .diffTol (.fin tol) ∈ s.terms)
    {Ω : Type} [MeasurableSpace Ω] (P : Measure Ω) [IsProbabilityMeasure P] {Z : ℕ → Ω → Fin s.M × Fin s.N × ι → ℝ} (hZ : IidNormal P Z) (k : ℕ) (hk : 1 ≤ k) :
    P {ω | optimize (withSamples env rule s.M s.N fun d => Z d ω) (cboInner (withSamples env rule s.M s.N fun d => Z d ω)) (k + 2) s = .outOfFuel} ≤
      ENNReal.ofReal ((2 * ((k : ℝ) + 1)) ^ s.M * (5 / 2 * q ^ (k - 1) * (∑ m ∈ Finset.range s.M, spread s.x s.N m) / (s.N * tol) ^ 2)) := by
  have hq0 : 0 ≤ q := by
    refine le_trans ?_ (hq 0)
    have hN1 : (0 : ℝ) ≤ (s.N : ℝ) - 1 := by
      have : (1 : ℝ) ≤ (s.N : ℝ) := by exact_mod_cast hw.pos
      linarith
    have : 0 ≤ gd^[0] s.dt := hdt
    positivity
  have hsub : {ω | optimize (withSamples env rule s.M s.N fun d => Z d ω) (cboInner (withSamples env rule s.M s.N fun d => Z d ω)) (k + 2) s = .outOfFuel} ⊆
      ⋃ w : Fin s.M × Finset (Fin s.M) × (Fin s.M → Fin (k + 1)), {ω | History env rule s k (fun d => Z d ω) w.1 w.2.1 w.2.2} := by
    intro ω h
    obtain ⟨m, F, T, h⟩ := history_of hE hnorm hst hw hbf hsch hgd hdt hpp k (fun d => Z d ω) h
    exact Set.mem_iUnion.2 ⟨(m, F, T), h⟩
  refine (measure_mono hsub).trans ((measure_iUnion_fintype_le _ _).trans ?_)
  refine (Finset.sum_le_sum fun w _ => history_prob hE hnorm hst hw hbf hsch hr hbs hfull hgd hdt hq hpp hp hκ hf hβ hq1 htol hin P hZ k hk w.1 w.2.1 w.2.2).trans (le_of_eq ?_)
  have hnn : ∀ m : ℕ, 0 ≤ 5 / 2 * (q ^ (k - 1) * spread s.x s.N m) / (s.N * tol) ^ 2 := by
    intro m
    have := spread_nonneg s.x s.N m
    positivity
  rw [← ENNReal.ofReal_sum_of_nonneg fun w _ => hnn _]
  congr 1
  rw [Fintype.sum_prod_type]
  simp only [Finset.sum_const, Finset.card_univ, Fintype.card_prod, Fintype.card_finset, Fintype.card_fun, Fintype.card_fin, nsmul_eq_mul]
  rw [Finset.sum_range, ← Finset.mul_sum]
  push_cast
  congr 1
  · rw [mul_pow]
  rw [Finset.mul_sum, Finset.sum_div]
  exact Finset.sum_congr rfl fun m _ => by ring

end

end Verif
