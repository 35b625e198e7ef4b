import Verif.Proofs.MemBatch
import Verif.Proofs.CovTotal
import Verif.Props.MemOptimize

/-! Property C83: mini-batches with `CBOMemory` and `PSO`. -/

set_option linter.unusedSectionVars false

namespace Verif

section
variable {K V : Type} [Zero K] [One K] [Neg K] [Add K] [Sub K] [Mul K] [Inv K] [Div K] [NatCast K] [Pow K ℕ] [LinearOrder K] [Add V] [Sub V] [SMul K V]

/-- **C83 is false for `CBOMemory`.** With a batch size `1 < B < N` every `step` raises, in every state that can be reached, whatever `batch_partial` is and however many runs are
active: the weights are computed from the energies of all `N` particles and multiplied with the `B` positions of the batch. So no call that does not raise makes a step. -/
theorem C83_memory_false (env : Env K V) (hp : PermOK env) (lm sm : K) (a : Args K V) (hB : 1 < batchSizeOf a.batchSize a.x0.cols)
    (hN : batchSizeOf a.batchSize a.x0.cols < a.x0.cols) (s₀ : St K V) (h0 : memInit env a = .ok s₀) :
    (∀ (ops : List Op) (s : St K V), execAllBy env (memStep env lm sm) ops s₀ = .ok s → Op.step ∉ ops ∧ memStep env lm sm s = .error .value) ∧
    ∀ (fuel : ℕ) (s : St K V), optimizeBy env (memStep env lm sm) fuel s₀ = .done s → s.it = 0 := by
  obtain ⟨w, hpa, hb⟩ := memInit_batch hp h0
  obtain ⟨-, -, -, hi, hs⟩ := memInit_facts h0
  have hsel : ∀ s s', selectActive env s = .ok s' → (BatchShape s ∧ s.batched = true ∧ 1 < s.batchSize) → BatchShape s' ∧ s'.batched = true ∧ 1 < s'.batchSize :=
    fun s s' h hP => ⟨batchShape_select hP.1 h, by rw [select_frame h]; exact hP.2⟩
  have hsch : ∀ s s', schedUpdate env s = .ok s' → (BatchShape s ∧ s.batched = true ∧ 1 < s.batchSize) → BatchShape s' ∧ s'.batched = true ∧ 1 < s'.batchSize :=
    fun s s' h hP => ⟨batchShape_sched hP.1 h, by rw [sched_frame h]; exact hP.2⟩
  have herr : ∀ s, (BatchShape s ∧ s.batched = true ∧ 1 < s.batchSize) → memStep env lm sm s = .error .value :=
    fun s hP => memStep_batch_error hp lm sm hP.1.toWF hP.1.yr hP.1.yc hP.2.1 hP.2.2
  have hno : ∀ s s', (BatchShape s ∧ s.batched = true ∧ 1 < s.batchSize) → memStep env lm sm s ≠ .ok s' :=
    fun s s' hP => by rw [herr s hP]; simp
  have hP₀ : BatchShape s₀ ∧ s₀.batched = true ∧ 1 < s₀.batchSize := ⟨w, hb.2 hN, by rw [hs]; exact hB⟩
  have hrun : ∀ (ops : List Op) (s : St K V), execAllBy env (memStep env lm sm) ops s₀ = .ok s → Op.step ∉ ops :=
    fun ops s h => no_step_run (P := fun s => BatchShape s ∧ s.batched = true ∧ 1 < s.batchSize) hsel hsch (fun s hP => ⟨batchShape_reset hP.1, hP.2⟩) hno ops s₀ s hP₀ h
  have hreach : ∀ (ops : List Op) (q s : St K V), (BatchShape q ∧ q.batched = true ∧ 1 < q.batchSize) → execAllBy env (memStep env lm sm) ops q = .ok s →
      BatchShape s ∧ s.batched = true ∧ 1 < s.batchSize := by
    intro ops
    induction ops with
    | nil => intro q s hP h; injection h with h; rw [← h]; exact hP
    | cons o l ih =>
      intro q s hP h
      simp only [execAllBy, bind_ok] at h
      obtain ⟨b, h1, h2⟩ := h
      refine ih b s ?_ h2
      cases o with
      | step => exact absurd h1 (hno q b hP)
      | select => exact hsel _ _ h1 hP
      | sched => exact hsch _ _ h1 hP
      | reset =>
        have h1 : Except.ok (reset q) = Except.ok b := h1
        injection h1 with h1
        subst h1
        exact ⟨batchShape_reset hP.1, hP.2⟩
  refine ⟨fun ops s h => ⟨hrun ops s h, herr s (hreach ops s₀ s hP₀ h)⟩, fun fuel s h => ?_⟩
  obtain ⟨ops, h1, h2, -, h3⟩ := optimizeBy_ops (fun _ _ h => memStep_frame h) h
  rw [hi, Nat.zero_add] at h3
  rw [h3]
  exact List.count_eq_zero.2 (hrun ops s (by first | exact h1 | exact h2))

/-- **C83 (partial, `CBOMemory`).** Which steps with batches work when all runs are active: exactly those with `batch_size = 1` and `batch_partial=False` (then the consensus is a
position of one drawn particle). Missing: the other batch sizes, with which the step raises. -/
theorem C83_memory_partial (env : Env K V) (he : EnvOK env) (hp : PermOK env) (lm sm : K) (s : St K V) (w : BatchShape s) (full : s.active.length = s.M)
    (hb : s.batched = true) (h1 : 1 ≤ s.batchSize) (hsi : s.saveInt ≠ 0) :
    (∃ s', memStep env lm sm s = .ok s') ↔ s.batchSize = 1 ∧ s.batchPartial = false := by
  constructor
  · rintro ⟨s', h⟩
    have h1' : s.batchSize = 1 := by
      by_contra hne
      rw [memStep_batch_error hp lm sm w.toWF w.yr w.yc hb (by omega)] at h
      cases h
    refine ⟨h1', ?_⟩
    by_contra hne
    exact memStep_partial_error hp lm sm w.toWF hb (by simpa using hne) h1' s' h
  · rintro ⟨h2, h3⟩
    obtain ⟨s', h, -⟩ := memStep_one he hp lm sm w full hb h3 h2 hsi
    exact ⟨s', h⟩

/-- **C83 (partial, `CBOMemory`, whole call).** With `batch_size = 1`, `batch_partial=False` and criteria that stop all runs together, `optimize` never raises. -/
theorem C83_memory_one_partial (env : Env K V) (he : EnvOK env) (hp : PermOK env) (lm sm : K) (a : Args K V) (hB : batchSizeOf a.batchSize a.x0.cols = 1)
    (hN : 1 < a.x0.cols) (hpa : a.batchPartial = false) (hsi : a.saveInt ≠ 0) (hst : ∀ tm ∈ a.terms, Stateless tm)
    (hu : a.x0.rows = 1 ∨ ∀ tm ∈ a.terms, RunBlind tm) (s₀ : St K V) (h0 : memInit env a = .ok s₀) (fuel : ℕ) (e : Err) :
    optimizeBy env (memStep env lm sm) fuel s₀ ≠ .raised e := by
  obtain ⟨i1, -, i3, -⟩ := memInit_nEval h0
  obtain ⟨-, j2, -, -, j5⟩ := memInit_facts h0
  obtain ⟨w, hpa', hb⟩ := memInit_batch hp h0
  refine optimizeBy_not_raised_of (fun _ _ h => memStep_frame h) he.sched hst hu
    (P := fun s => BatchShape s ∧ s.batched = true ∧ s.batchPartial = false ∧ s.batchSize = 1 ∧ s.saveInt ≠ 0)
    (P₀ := fun s => BatchShape s ∧ s.batched = true ∧ s.batchPartial = false ∧ s.batchSize = 1 ∧ s.saveInt ≠ 0)
    (fun s s' h hP => ⟨batchShape_select hP.1 h, by rw [select_frame h]; exact hP.2⟩)
    (fun s s' h hP => ⟨batchShape_sched hP.1 h, by rw [sched_frame h]; exact hP.2⟩) (fun s hP => hP.1.act)
    (fun s hP full => ?_) fuel s₀ ⟨w, hb.2 (by omega), by rw [hpa', hpa], by rw [j5, hB], by rw [j2]; exact hsi⟩ i1 i3 e
  obtain ⟨s', h, w'⟩ := memStep_one he hp lm sm hP.1 full hP.2.1 hP.2.2.1 hP.2.2.2.1 hP.2.2.2.2
  have fr := memStep_frame h
  exact ⟨s', h, w', by rw [fr.batched, fr.batchPartial, fr.batchSize, fr.saveInt]; exact hP.2⟩

/-- **C83 is false for `PSO` with `batch_partial=True`** (the default): with a batch size `1 ≤ B < N` no `step` succeeds, in any reachable state, because the energies of all `N`
particles are compared with those of the `B` moved ones. -/
theorem C83_pso_false (env : Env K V) (hp : PermOK env) (p : PsoPar K) (a : Args K V) (hB : 1 ≤ batchSizeOf a.batchSize a.x0.cols)
    (hN : batchSizeOf a.batchSize a.x0.cols < a.x0.cols) (hpa : a.batchPartial = true) (s₀ : St K V) (h0 : memInit env a = .ok s₀) :
    (∀ (ops : List Op) (s : St K V), execAllBy env (psoStep env p) ops s₀ = .ok s → Op.step ∉ ops) ∧
    ∀ (fuel : ℕ) (s : St K V), optimizeBy env (psoStep env p) fuel s₀ = .done s → s.it = 0 := by
  obtain ⟨w, hpa', hb⟩ := memInit_batch hp h0
  obtain ⟨-, -, -, hi, hs⟩ := memInit_facts h0
  have hrun : ∀ (ops : List Op) (s : St K V), execAllBy env (psoStep env p) ops s₀ = .ok s → Op.step ∉ ops :=
    fun ops s h => no_step_run (P := fun s => BatchShape s ∧ s.batched = true ∧ s.batchPartial = true ∧ 1 ≤ s.batchSize)
      (fun s s' h hP => ⟨batchShape_select hP.1 h, by rw [select_frame h]; exact hP.2⟩)
      (fun s s' h hP => ⟨batchShape_sched hP.1 h, by rw [sched_frame h]; exact hP.2⟩) (fun s hP => ⟨batchShape_reset hP.1, hP.2⟩)
      (fun s s' hP => psoStep_partial_error hp p hP.1.toWF hP.2.1 hP.2.2.1 hP.2.2.2 s') ops s₀ s
      ⟨w, hb.2 hN, by rw [hpa', hpa], by rw [hs]; exact hB⟩ h
  refine ⟨hrun, fun fuel s h => ?_⟩
  obtain ⟨ops, h1, h2, -, h3⟩ := optimizeBy_ops (fun _ _ h => psoStep_frame h) h
  rw [hi, Nat.zero_add] at h3
  rw [h3]
  exact List.count_eq_zero.2 (hrun ops s (by first | exact h1 | exact h2))

/-- **C83 (partial, `PSO`).** With batches of any size and `batch_partial=False`, criteria that stop all runs together and `m + gamma*dt` never zero, `optimize` of `PSO` never raises.
Missing: `batch_partial=True` (`C83_pso_false`). -/
theorem C83_pso_partial (env : Env K V) (he : EnvOK env) (hp : PermOK env) (p : PsoPar K) (a : Args K V)
    (hN : batchSizeOf a.batchSize a.x0.cols < a.x0.cols) (hpa : a.batchPartial = false) (hsi : a.saveInt ≠ 0) (hst : ∀ tm ∈ a.terms, Stateless tm)
    (hu : a.x0.rows = 1 ∨ ∀ tm ∈ a.terms, RunBlind tm) (hz : p.m + p.gamma * a.dt ≠ 0) (hz' : ∀ s q, env.sched s = .ok q → p.m + p.gamma * q.dt ≠ 0)
    (s₀ : St K V) (h0 : memInit env a = .ok s₀) (fuel : ℕ) (e : Err) :
    optimizeBy env (psoStep env p) fuel s₀ ≠ .raised e := by
  obtain ⟨i1, -, i3, -⟩ := memInit_nEval h0
  obtain ⟨j1, j2, j3, -, j5⟩ := memInit_facts h0
  obtain ⟨w, hpa', hb⟩ := memInit_batch hp h0
  refine optimizeBy_not_raised_of (fun _ _ h => psoStep_frame h) he.sched hst hu
    (P := fun s => BatchShape s ∧ p.m + p.gamma * s.dt ≠ 0 ∧ VShape s ∧ s.batched = true ∧ s.batchPartial = false ∧ s.saveInt ≠ 0)
    (P₀ := fun s => BatchShape s ∧ VShape s ∧ s.batched = true ∧ s.batchPartial = false ∧ s.saveInt ≠ 0)
    (fun s s' h hP => ⟨batchShape_select hP.1 h, by rw [select_frame h]; exact hP.2⟩)
    (fun s s' h hP => ⟨batchShape_sched hP.1 h, ?_, by rw [sched_frame h]; exact hP.2⟩) (fun s hP => hP.1.act)
    (fun s hP full => ?_) fuel s₀ ⟨w, by rw [j3]; exact hz, j1, hb.2 hN, by rw [hpa', hpa], by rw [j2]; exact hsi⟩ i1 i3 e
  · simp only [schedUpdate, bind_ok, pure_ok] at h
    obtain ⟨q, hq', rfl⟩ := h
    exact hz' _ _ hq'
  · obtain ⟨s', h, w', v'⟩ := psoStep_ready he hp p hP.1 hP.2.2.1 full hP.2.2.2.1 hP.2.2.2.2.1 hP.2.2.2.2.2 hP.2.1
    have fr := psoStep_frame h
    exact ⟨s', h, w', v', by rw [fr.batched, fr.batchPartial, fr.saveInt]; exact hP.2.2.2⟩

end

/-- **C83 for `AdamCBO`.** With batches of any size, `batch_partial` true or false, with any runs stopped, `step` succeeds in every reachable state (an idle step, or an empty batch,
only if the objective and the noise accept empty arrays). -/
theorem C83_adam {K V : Type} [Field K] [LinearOrder K] [IsStrictOrderedRing K] [Add V] [Sub V] [SMul K V] (env : Env K V) (he : EnvOK env) (hp : PermOK env)
    (A : AdamOps V) (β1 β2 : K) (hβ1 : 0 ≤ β1) (hβ1' : β1 < 1) (hβ2 : 0 ≤ β2) (hβ2' : β2 < 1) (a : Args K V) (ha : a.saveInt ≠ 0)
    (hb : env.emptyRaises = true → a.batchSize ≠ some 0) (ops : List Op) (s₀ s : St K V) (h0 : init env a = .ok s₀)
    (h : execAll env (consThen env (adamMove env A β1 β2)) ops s₀ = .ok s) (hact : env.emptyRaises = true → s.active ≠ []) :
    ∃ s', step env (consThen env (adamMove env A β1 β2)) s = .ok s' := by
  have hne : ∀ β : K, 0 ≤ β → β < 1 → ∀ k : ℕ, 1 - β ^ (k + 1) ≠ 0 := fun β h1 h2 k => by
    have := pow_lt_one₀ h1 h2 (Nat.succ_ne_zero k)
    exact (sub_pos.2 this).ne'
  have i0 : ((s₀.aux1.rows = s₀.M ∧ s₀.aux1.cols = s₀.N) ∧ s₀.aux2.rows = s₀.M ∧ s₀.aux2.cols = s₀.N) ∧ s₀.saveInt ≠ 0 ∧ s₀.batchSize = s₀.batchSize := by
    have h0' := h0
    unfold init at h0'
    split_ifs at h0'
    all_goals
      injection h0' with h0'
      subst h0'
      exact ⟨⟨⟨rfl, rfl⟩, rfl, rfl⟩, ha, rfl⟩
  obtain ⟨hw, hs, hi, hB⟩ := execAll_induct
    (P := fun s => ((s.aux1.rows = s.M ∧ s.aux1.cols = s.N) ∧ s.aux2.rows = s.M ∧ s.aux2.cols = s.N) ∧ s.saveInt ≠ 0 ∧ s.batchSize = s₀.batchSize)
    (adamMove_ok env A β1 β2) he.postOK hp
    (fun o q q' _ hq hx => by
      cases o with
      | step =>
        have f := step_frame (consThen_frame (adamMove_ok env A β1 β2)) hx
        obtain ⟨⟨a1, a2⟩, a3, a4⟩ := adamStep_shape hx
        rw [a1, a2, a3, a4, f.M, f.N, f.saveInt, f.batchSize]; exact hq
      | select => rw [select_frame hx]; exact hq
      | sched => rw [sched_frame hx]; exact hq
      | reset =>
        simp only [exec] at hx
        injection hx with hx
        subst hx
        exact ⟨hq.1, Nat.one_ne_zero, hq.2.2⟩) ops s₀ s (init_wf hp h0) i0 h
  have hne' : NonEmpty env s := fun h1 => ⟨hact h1, by rw [hB]; exact init_batch_pos h0 (hb h1)⟩
  exact step_total_of (adamMove_ok env A β1 β2) he.mean he.post hp hw hi hne' fun c cm _ hr =>
    adamMove_total A hw (hne β1 hβ1 hβ1' _) (hne β2 hβ2 hβ2' _) hs.1 hs.2 hr fun q d h _ _ _ _ => he.noise q d h

/-! ### The hypotheses are met by concrete runs -/

namespace Example

/-- Two runs of three particles in batches of `b` particles. -/
def batchArgs (terms : List (Term ℚ)) (b : ℕ) (part : Bool) : Args ℚ ℚ := { memArgs terms with batchSize := some b, batchPartial := part }

end Example

open Example in
/-- Batches of two of three particles: `CBOMemory` raises, `PSO` only with `batch_partial=True`; one particle and `batch_partial=False`: both work. -/
example :
    (match memInit env (batchArgs [.maxIt (some 2)] 2 true) with
      | .ok s => (match memStep env (2/5) (1/10) s with | .error .value => true | _ => false) && (match psoStep env psoPar s with | .error _ => true | _ => false)
      | .error _ => false) = true ∧
    (match memInit env (batchArgs [.maxIt (some 2)] 2 false) with
      | .ok s => isDone (optimizeBy env (psoStep env psoPar) 5 s)
      | .error _ => false) = true ∧
    (match memInit env (batchArgs [.maxIt (some 2)] 1 false) with
      | .ok s => isDone (optimizeBy env (memStep env (2/5) (1/10)) 5 s)
      | .error _ => false) = true := by
  decide +kernel

open Example in
/-- C11, C12, C13, C04 with batches: `PSO` on batches of one of three particles (`batch_partial=False`) makes one step with `max_eval = 7`, after which each run has been charged nine
evaluations (six by the constructor); memories and positions have moved apart after three steps. The other hypotheses on the callables are those of the unbatched examples. -/
example : (batchArgs [.maxEval 7] 1 false).batchSize ≠ some 0 ∧ (batchArgs [.maxEval 7] 1 false).aux1 = id ∧ PermOK memEnv ∧
    (if (batchArgs [.maxEval 7] 1 false).checkF then 2 else 1) * 3 + batchSizeOf (batchArgs [.maxEval 7] 1 false).batchSize 3 ≤ 7 ∧
    7 < (if (batchArgs [.maxEval 7] 1 false).checkF then 2 else 1) * 3 + 3 ∧
    (match memInit memEnv (batchArgs [.maxEval 7] 1 false) with
      | .ok s => (match optimizeBy memEnv (psoStep memEnv psoPar) 5 s with
        | .done s => decide (s.it = 1 ∧ s.nEval 0 = 9 ∧ s.nEval 1 = 9)
        | _ => false) && (match optimizeBy memEnv (memStep memEnv (2/5) (1/10)) 5 s with
        | .done s => decide (s.it = 1 ∧ s.nEval 0 = 9 ∧ s.nEval 1 = 9)
        | _ => false)
      | .error _ => false) = true ∧
    (match memInit memEnv (batchArgs [.maxIt (some 3)] 2 false) with
      | .ok s => (match optimizeBy memEnv (psoStep memEnv psoPar) 5 s with
        | .done q => decide (q.it = 3 ∧ q.batched = true ∧ q.aux1.get 1 2 ≠ q.x.get 1 2 ∧ q.energy.get 1 0 ≠ s.energy.get 1 0)
        | _ => false)
      | .error _ => false) = true :=
  ⟨by decide, rfl, memEnv_perm, by decide, by decide, by decide +kernel, by decide +kernel⟩

open Example in
/-- `AdamCBO` makes two steps on batches of two of three particles, so states as in `C83_adam` are reached. -/
example : (match init env { args [.maxIt (some 3)] (some 2) with aux2 := fun _ => 0 } with
      | .ok s => (match execAll env (consThen env (adamMove env ⟨fun v => v * v, fun m v => m / (v + 1)⟩ (1/2) (3/4))) [.step, .select, .step] s with
        | .ok q => decide (q.it = 2) | .error _ => false)
      | .error _ => false) = true := by
  decide +kernel

open Example in
/-- The hypotheses on sizes, criteria and the denominators hold for these arguments. -/
example : 1 < batchSizeOf (batchArgs [.maxIt (some 2)] 2 true).batchSize 3 ∧ batchSizeOf (batchArgs [.maxIt (some 2)] 2 true).batchSize 3 < 3 ∧
    (∀ tm ∈ (batchArgs [.maxIt (some 2)] 2 true).terms, Stateless tm) ∧ (∀ tm ∈ (batchArgs [.maxIt (some 2)] 2 true).terms, RunBlind tm) ∧
    psoPar.m + psoPar.gamma * (batchArgs [.maxIt (some 2)] 2 true).dt ≠ 0 ∧ batchSizeOf (batchArgs [.maxIt (some 2)] 1 false).batchSize 3 = 1 := by
  refine ⟨by decide, by decide, ?_, ?_, by decide +kernel, by decide⟩ <;>
  · intro tm htm
    have : tm = .maxIt (some 2) := by simpa [batchArgs, memArgs, args] using htm
    subst this
    simp [Stateless, RunBlind]

end Verif
