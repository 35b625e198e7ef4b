import Verif.Proofs.LivePlot
import Verif.Props.Plot
import Verif.Props.HistCons

/-! Property C99: live plots and history plots show data that belong together. -/

set_option linter.unusedSectionVars false

namespace Verif

section
variable {K V : Type} [Zero K] [One K] [Neg K] [Add K] [Sub K] [Mul K] [Inv K] [Div K] [NatCast K] [Pow K ℕ] [LinearOrder K] [AddCommGroup V] [SMul K V]

/-- **C99 (live plot).** Full claim: after a step, `update()` draws the particles of the plotted run as they were before the step, the consensus point computed from them, and arrows that lead from
the particles moved to this point. Proved for `CBO` without correction, with or without batches, after every sequence of operations, as long as row `r` of the active runs is run `r` (in particular
while all runs are active). What is missing: runs behind a stopped run, for which it is false (`C99_stopped_false`, `C99_index_false`). -/
theorem C99_live_partial (env : Env K V) (hcorr : env.corr = .none) (hns : NoiseShape env) (hpost : PostOK env) (hp : PermOK env) (rule : List (K × Flt K × V) → V) (hmean : env.cons = .mean rule)
    (a : Args K V) (s₀ s s' : St K V) (ops : List Op) (h0 : init env a = .ok s₀) (h : execAll env (cboInner env) ops s₀ = .ok s) (hs : step env (cboInner env) s = .ok s')
    (d r : ℕ) (plotC plotD : Bool) (hr : s.active[r]? = some r) :
    ∃ fr c, liveUpdate d r plotC plotD s' = .ok fr ∧ fr.particles = s.x.row r ∧
      c = rule ((List.range s.batchSize).map fun j => (s.alpha r, env.f (s.x.get r (s'.cIdx.par r j)), s.x.get r (s'.cIdx.par r j))) ∧
      (∀ q, fr.cons = some q ↔ plotC = true ∧ q = [c]) ∧ (fr.arrows.isSome ↔ plotD = true ∧ d ≠ 1) ∧
      ∀ ps ds, fr.arrows = some (ps, ds) → ps.length = ds.length ∧ ps.length = s'.pIdx.cols ∧ (∀ q ∈ ps, q ∈ s.x.row r) ∧ (∀ q ∈ ps.zip ds, q.1 + -q.2 = c) := by
  have hw : WF s := by
    have h' := h
    rw [cboInner_eq] at h'
    exact (execAll_induct (P := fun _ => True) (cboMove_ok env) hpost hp (fun _ _ _ _ _ _ => trivial) ops s₀ s (init_wf hp h0) trivial h').1
  obtain ⟨ds, e1, e2, e3⟩ := live_frame hcorr hns hp hmean hw hs d r r plotC plotD hr
  refine ⟨_, _, e1, rfl, rfl, fun q => ?_, ?_, ?_⟩
  · cases plotC <;> simp [eq_comm]
  · by_cases hd : plotD = true ∧ d ≠ 1 <;> simp [hd]
  · intro ps ds' hps
    by_cases hd : plotD = true ∧ d ≠ 1
    · simp only [if_pos hd, Option.some.injEq, Prod.mk.injEq] at hps
      obtain ⟨rfl, rfl⟩ := hps
      rw [e2]
      refine ⟨by simp, by simp, fun q hq => ?_, fun q hq => ?_⟩
      · obtain ⟨j, hj, rfl⟩ := List.mem_map.1 hq
        refine List.mem_map.2 ⟨_, List.mem_range.2 ?_, rfl⟩
        rw [hw.xc]
        exact e3 j (List.mem_range.1 hj)
      · rw [List.zip_map', List.mem_map] at hq
        obtain ⟨j, -, rfl⟩ := hq
        simp
    · simp only [if_neg hd] at hps
      cases hps


/-- **C99 is false for a run behind a stopped run (index).** If fewer than `r + 1` runs are active, `update()` of the plot of run `r` with consensus or arrows raises `IndexError`, after every sequence of
operations. -/
theorem C99_index_false (env : Env K V) (hcorr : env.corr = .none) (hns : NoiseShape env) (hpost : PostOK env) (hp : PermOK env) (rule : List (K × Flt K × V) → V) (hmean : env.cons = .mean rule)
    (a : Args K V) (s₀ s s' : St K V) (ops : List Op) (h0 : init env a = .ok s₀) (h : execAll env (cboInner env) ops s₀ = .ok s) (hs : step env (cboInner env) s = .ok s')
    (d r : ℕ) (plotC plotD : Bool) (hr : s.active.length ≤ r) (hpl : plotC = true ∨ plotD = true ∧ d ≠ 1) : liveUpdate d r plotC plotD s' = .error .index := by
  rw [cboInner_eq] at h
  exact live_index hcorr hns hp hmean (execAll_induct (P := fun _ => True) (cboMove_ok env) hpost hp (fun _ _ _ _ _ _ => trivial) ops s₀ s (init_wf hp h0) trivial h).1 hs d r plotC plotD hr hpl

/-- **C99 is false for a run behind a stopped run (wrong run).** If row `r` of the active runs is run `m`, then the plot of run `r` shows the particles of run `r`, but the consensus point and the arrows of
run `m`. -/
theorem C99_wrong_run_false (env : Env K V) (hcorr : env.corr = .none) (hns : NoiseShape env) (hpost : PostOK env) (hp : PermOK env) (rule : List (K × Flt K × V) → V)
    (hmean : env.cons = .mean rule) (a : Args K V) (s₀ s s' : St K V) (ops : List Op) (h0 : init env a = .ok s₀) (h : execAll env (cboInner env) ops s₀ = .ok s)
    (hs : step env (cboInner env) s = .ok s') (d r m : ℕ) (hd : d ≠ 1) (hr : s.active[r]? = some m) :
    ∃ fr c ps ds, liveUpdate d r true true s' = .ok fr ∧ fr.particles = s.x.row r ∧ fr.cons = some [c] ∧ fr.arrows = some (ps, ds) ∧
      c = rule ((List.range s.batchSize).map fun j => (s.alpha m, env.f (s.x.get m (s'.cIdx.par r j)), s.x.get m (s'.cIdx.par r j))) ∧ ∀ q ∈ ps, q ∈ s.x.row m := by
  rw [cboInner_eq] at h
  have hw := (execAll_induct (P := fun _ => True) (cboMove_ok env) hpost hp (fun _ _ _ _ _ _ => trivial) ops s₀ s (init_wf hp h0) trivial h).1
  obtain ⟨ds, e1, -, e3⟩ := live_frame hcorr hns hp hmean hw hs d r m true true hr
  rw [if_pos rfl, if_pos ⟨rfl, hd⟩] at e1
  refine ⟨_, _, _, _, e1, rfl, rfl, rfl, rfl, fun q hq => ?_⟩
  obtain ⟨j, hj, rfl⟩ := List.mem_map.1 hq
  refine List.mem_map.2 ⟨_, List.mem_range.2 ?_, rfl⟩
  rw [hw.xc]
  exact e3 j (List.mem_range.1 hj)

/-- C99: before the first step `update()` raises `AttributeError` (`x_old` does not exist yet), and `init_plot` draws the positions themselves as arrows: they lead from every particle to the
origin, and all particles are drawn as consensus points. -/
theorem C99_fresh_false (env : Env K V) (a : Args K V) (s : St K V) (h : init env a = .ok s) (d r : ℕ) (hd : d ≠ 1) (hr : r < a.x0.rows) :
    (∀ plotC plotD, liveUpdate d r plotC plotD s = .error .attribute) ∧
      ∃ ps ds, liveInit d r true true s = .ok { particles := a.x0.row r, cons := some (a.x0.row r), arrows := some (ps, ds) } ∧ ps = a.x0.row r ∧ ∀ q ∈ ps.zip ds, q.1 + -q.2 = 0 := by
  have e : s.xOld = none ∧ s.x = a.x0 ∧ s.cons = none ∧ s.drift = none := by
    unfold init at h
    split_ifs at h <;>
    · injection h with h
      subst h
      exact ⟨rfl, rfl, rfl, rfl⟩
  obtain ⟨e1, e2, e3, e4⟩ := e
  refine ⟨fun plotC plotD => by unfold liveUpdate; rw [e1], a.x0.row r, a.x0.row r, ?_, rfl, fun q hq => ?_⟩
  · have g : rowOf a.x0 r = .ok (a.x0.row r) := if_pos hr
    unfold liveInit liveInitCons liveInitArrows
    rw [e2, e3, e4, if_pos rfl, if_pos ⟨rfl, hd⟩]
    simp only [Option.getD_none, g]
    rfl
  · rw [List.zip_eq_zipWith, List.zipWith_self, List.mem_map] at hq
    obtain ⟨v, -, rfl⟩ := hq
    simp

/-- **C99 (history plot).** If every step is recorded, frame `j` of the history plot shows exactly what `update()` of the live plot shows after step number `j`, for every dynamic (any inner step) and
after every sequence of operations. Entries are taken with the values they had when they were recorded (entry 0 is overwritten by dynamics working in place, `C40_inplace_false`). -/
theorem C99_history_partial (env : Env K V) (inner : St K V → Except Err (St K V)) (hi : InnerFrame inner) (a : Args K V) (s₀ s : St K V) (ops : List Op) (h0 : init env a = .ok s₀) (hs : a.saveInt = 1)
    (hn : a.tracks.Nodup) (hx : Track.x ∈ a.tracks) (hc : Track.consensus ∈ a.tracks) (hd : Track.drift ∈ a.tracks) (hr : Op.reset ∉ ops) (h : execAll env inner ops s₀ = .ok s)
    (d r : ℕ) (plotC plotD : Bool) (p : Plot V) (hp : mkPlot d r none plotC plotD s = .ok p) (j : ℕ) (hj : j < nSteps ops) :
    ∃ l₁ l₂ v, ops = l₁ ++ Op.step :: l₂ ∧ nSteps l₁ = j ∧ execAll env inner (l₁ ++ [.step]) s₀ = .ok v ∧ plotAt p j = liveUpdate d r plotC plotD v := by
  obtain ⟨l₁, l₂, q, v, hl, hlj, hq, hv, h1, -, -, h4, h5⟩ := hist_at hi h0 hs hn hr h hj
  have I := histInv_init h0 (by omega : 1 ≤ a.saveInt)
  have k := kindInv_execAll hi hn hr I (kindInv_init h0) h
  have f := step_frame hi hv
  have ht : s.tracks = a.tracks := (histInv_execAll hi hn hr I h).1.tracks
  refine ⟨l₁, l₂, v, hl, hlj, ?_, ?_⟩
  · rw [execAll_append]
    refine ⟨q, hq, ?_⟩
    show (step env inner q >>= _) = _
    rw [hv]
    rfl
  · unfold mkPlot at hp
    rw [ht, if_pos hx] at hp
    obtain ⟨p1, p2, p3, p4⟩ := initPlot_fields hp
    simp only at p1 p2 p3 p4
    have gx : pyItem p.x j = .ok q.x := by
      unfold pyItem
      rw [p2, Option.getD_none, histX_get k.xs (h1 hx).1]
    have gc : frameCons p j = liveCons r plotC v := by
      unfold frameCons liveCons
      rw [p3, p1]
      cases plotC with
      | false => rfl
      | true =>
        simp only [hc, and_self, if_true]
        unfold pyItem
        rw [histC_get k.cs (h4 hc)]
        show (match v.cons with | none => _ | some c => _) = _
        cases v.cons <;> rfl
    have ga : frameArrows p j q.x = liveArrows d r plotD q.x v := by
      unfold frameArrows liveArrows
      rw [p4, p1]
      by_cases hd1 : d = 1
      · subst hd1
        simp
      · rw [if_neg hd1]
        cases plotD with
        | false => simp
        | true =>
          simp only [hd, and_self, if_true, hd1, ne_eq, not_false_eq_true]
          unfold pyItem
          rw [histD_get k.ds (h5 hd)]
          rfl
    unfold plotAt liveUpdate
    rw [f.xOld, p1]
    simp only [gx, gc]
    show (rowOf q.x r >>= fun pts => liveCons r plotC v >>= fun c => frameArrows p j q.x >>= _) = _
    rw [ga]

end

namespace Example

/-- Two runs with consensus and drift recorded, of which the first stops after the first step; `save_int` given. -/
def liveArgs (saveInt : ℕ) : Args ℚ ℚ := { plotArgs with saveInt := saveInt }

/-- Is the tip of every arrow of a frame the consensus point drawn? -/
def tipsRight (f : Frame ℚ) : Bool :=
  match f.cons, f.arrows with
  | some [c], some (ps, ds) => (ps.zip ds).all fun q => decide (q.1 - q.2 = c)
  | _, _ => false

end Example

open Example in
/-- **C99 is false for a stopped run.** Two runs, the first has stopped. The live plot of run 0 draws its particles together with a consensus point that lies outside the interval they span, and arrows at
other particles: those of run 1. -/
theorem C99_stopped_false : (match init plotEnv plotArgs with
    | .error _ => false
    | .ok s₀ => match execAll plotEnv (cboInner plotEnv) [.select, .step, .sched, .select, .step] s₀ with
      | .error _ => false
      | .ok s => match liveUpdate 2 0 true true s with
        | .error _ => false
        | .ok f => decide (s.active = [1]) && (match f.cons, f.arrows with
          | some [c], some (ps, _) => ((f.particles.all fun x => decide (c < x)) || (f.particles.all fun x => decide (x < c))) && decide (ps ≠ f.particles)
          | _, _ => false)) = true := by decide +kernel

open Example in
/-- **C99 is false for `save_int > 1`.** Two runs, both active, recorded every second step: in the second frame the arrows do not end in the consensus point; if every step is recorded, they do. -/
theorem C99_interval_false : (match init env (liveArgs 2), init env (liveArgs 1) with
    | .ok s₀, .ok s₁ => match execAll env (cboInner env) [.step, .step, .step, .step] s₀, execAll env (cboInner env) [.step, .step, .step, .step] s₁ with
      | .ok s, .ok t => match mkPlot 2 0 none true true s, mkPlot 2 0 none true true t with
        | .ok p, .ok q => match plotAt p 1, plotAt q 1 with
          | .ok f, .ok g => !tipsRight f && tipsRight g
          | _, _ => false
        | _, _ => false
      | _, _ => false
    | _, _ => false) = true := by decide +kernel

open Example in
/-- C99: the hypotheses of `C99_live_partial` hold for run 1 of a dynamic with two runs (both active), and of `C99_wrong_run_false` and `C99_index_false` after the first run has stopped; the steps succeed. -/
example : (match init plotEnv plotArgs with
    | .error _ => false
    | .ok s₀ => match step plotEnv (cboInner plotEnv) s₀, execAll plotEnv (cboInner plotEnv) [.select, .step, .sched, .select] s₀ with
      | .ok v, .ok s => (match step plotEnv (cboInner plotEnv) s with
        | .ok _ => true
        | .error _ => false) && decide (s₀.active[1]? = some 1 ∧ s.active[0]? = some 1 ∧ s.active.length ≤ 1 ∧ v.it = 1)
      | _, _ => false) = true := by decide +kernel

end Verif
