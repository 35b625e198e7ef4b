import Verif.Model.LivePlot
import Verif.Proofs.HistCons
import Verif.Proofs.Plot

/-! Helper lemmas for plots of a running dynamic. -/

set_option linter.unusedSectionVars false

namespace Verif

variable {K V : Type} [Zero K] [One K] [Neg K] [Add K] [Sub K] [Mul K] [Inv K] [Div K] [NatCast K] [Pow K ℕ] [LinearOrder K] [Add V] [Sub V] [SMul K V]

/-- Every tracker writes entries of its own kind. -/
structure KindInv (s : St K V) : Prop where
  xs : ∀ e ∈ s.hist .x, ∃ a, e = .x a
  cs : ∀ e ∈ s.hist .consensus, ∃ a, e = .consensus a
  ds : ∀ e ∈ s.hist .drift, ∃ a ix, e = .drift a ix

theorem kindInv_step {env : Env K V} {inner : St K V → Except Err (St K V)} (hi : InnerFrame inner) {s s' : St K V} (hn : s.tracks.Nodup) (k : KindInv s)
    (h : step env inner s = .ok s') : KindInv s' := by
  have hh := fun t => (step_hist hi h hn t).1
  refine ⟨?_, ?_, ?_⟩
  · intro e he
    rw [hh .x] at he
    split_ifs at he
    · rcases List.mem_append.1 he with he | he
      · exact k.xs e he
      · simp only [trackEntry, List.mem_singleton] at he
        exact ⟨_, he⟩
    · exact k.xs e he
  · intro e he
    rw [hh .consensus] at he
    split_ifs at he
    · rcases List.mem_append.1 he with he | he
      · exact k.cs e he
      · simp only [trackEntry, List.mem_singleton] at he
        exact ⟨_, he⟩
    · exact k.cs e he
  · intro e he
    rw [hh .drift] at he
    split_ifs at he
    · rcases List.mem_append.1 he with he | he
      · exact k.ds e he
      · simp only [trackEntry, List.mem_singleton] at he
        exact ⟨_, _, he⟩
    · exact k.ds e he

theorem kindInv_execAll {env : Env K V} {inner : St K V → Except Err (St K V)} (hi : InnerFrame inner) {a : Args K V} (hn : a.tracks.Nodup) :
    ∀ {ops : List Op} {s s' : St K V} {k : ℕ}, Op.reset ∉ ops → HistInv a k s → KindInv s → execAll env inner ops s = .ok s' → KindInv s'
  | [], s, s', k, _, _, hk, h => by
    simp only [execAll] at h
    injection h with h
    subst h
    exact hk
  | o :: l, s, s', k, hr, hI, hk, h => by
    simp only [execAll, bind_ok] at h
    obtain ⟨b, hb, h⟩ := h
    simp only [List.mem_cons, not_or] at hr
    refine kindInv_execAll hi hn hr.2 (histInv_exec hi hn (Ne.symm hr.1) hI hb).1 ?_ h
    cases o with
    | step => exact kindInv_step hi (by rw [hI.tracks]; exact hn) hk hb
    | reset => exact absurd rfl hr.1
    | select => rw [select_frame hb]; exact ⟨hk.xs, hk.cs, hk.ds⟩
    | sched => rw [sched_frame hb]; exact ⟨hk.xs, hk.cs, hk.ds⟩

theorem kindInv_init {env : Env K V} {a : Args K V} {s : St K V} (h : init env a = .ok s) : KindInv s := by
  unfold init at h
  split_ifs at h <;>
  · injection h with h
    subst h
    refine ⟨fun e he => ?_, fun e he => ?_, fun e he => ?_⟩
    · simp [initBatch, initHistory, trackInit] at he
      exact ⟨_, he⟩
    · simp [initBatch, initHistory, trackInit] at he
    · simp [initBatch, initHistory, trackInit] at he

theorem histX_get : ∀ {l : List (Entry K V)}, (∀ e ∈ l, ∃ a, e = .x a) → ∀ {j : ℕ} {X : Mat V}, l[j]? = some (.x X) → (histX l)[j]? = some X
  | [], _, j, X, h => by simp at h
  | e :: l, hl, j, X, h => by
    obtain ⟨a, rfl⟩ := hl _ (List.mem_cons_self ..)
    cases j with
    | zero =>
      simp only [List.getElem?_cons_zero, Option.some.injEq, Entry.x.injEq] at h
      subst h
      rfl
    | succ j =>
      rw [List.getElem?_cons_succ] at h
      have := histX_get (fun e he => hl e (List.mem_cons_of_mem _ he)) h
      simpa [histX] using this

theorem histC_get : ∀ {l : List (Entry K V)}, (∀ e ∈ l, ∃ a, e = .consensus a) → ∀ {j : ℕ} {X : Option (Mat V)}, l[j]? = some (.consensus X) → (histC l)[j]? = some X
  | [], _, j, X, h => by simp at h
  | e :: l, hl, j, X, h => by
    obtain ⟨a, rfl⟩ := hl _ (List.mem_cons_self ..)
    cases j with
    | zero =>
      simp only [List.getElem?_cons_zero, Option.some.injEq, Entry.consensus.injEq] at h
      subst h
      rfl
    | succ j =>
      rw [List.getElem?_cons_succ] at h
      have := histC_get (fun e he => hl e (List.mem_cons_of_mem _ he)) h
      simpa [histC] using this

theorem histD_get : ∀ {l : List (Entry K V)}, (∀ e ∈ l, ∃ a ix, e = .drift a ix) → ∀ {j : ℕ} {X : Option (Mat V)} {ix : Idx}, l[j]? = some (.drift X ix) → (histD l)[j]? = some (X, ix)
  | [], _, j, X, ix, h => by simp at h
  | e :: l, hl, j, X, ix, h => by
    obtain ⟨a, ix', rfl⟩ := hl _ (List.mem_cons_self ..)
    cases j with
    | zero =>
      simp only [List.getElem?_cons_zero, Option.some.injEq, Entry.drift.injEq] at h
      obtain ⟨rfl, rfl⟩ := h
      rfl
    | succ j =>
      rw [List.getElem?_cons_succ] at h
      have := histD_get (fun e he => hl e (List.mem_cons_of_mem _ he)) h
      simpa [histD] using this

/-- What the constructor of the history plot keeps. -/
theorem initPlot_fields {d : ℕ} {p q : Plot V} (h : initPlot d p = .ok q) : q.numRun = p.numRun ∧ q.x = p.x ∧ q.c = p.c ∧ (q.dr = if d = 1 then none else p.dr) := by
  simp only [initPlot, bind_ok] at h
  obtain ⟨x0, -, -, -, -, -, h⟩ := h
  unfold initArrows at h
  split at h
  · rename_i hd
    simp only [pure_ok] at h
    subst h
    refine ⟨rfl, rfl, rfl, ?_⟩
    rw [hd]; split_ifs <;> rfl
  · simp only [bind_ok] at h
    obtain ⟨e, -, h⟩ := h
    split_ifs at h with hd
    · simp only [pure_ok] at h
      subst h
      exact ⟨rfl, rfl, rfl, (if_pos hd).symm⟩
    · simp only [bind_ok, pure_ok] at h
      obtain ⟨_, -, rfl⟩ := h
      exact ⟨rfl, rfl, rfl, (if_neg hd).symm⟩

/-- The frame drawn after a step of `CBO`, row `r` of the active runs being run `m`. -/
theorem live_frame {env : Env K V} (hcorr : env.corr = .none) (hns : NoiseShape env) (hp : PermOK env) {rule : List (K × Flt K × V) → V} (hmean : env.cons = .mean rule)
    {s s' : St K V} (hw : WF s) (hs : step env (cboInner env) s = .ok s') (d r m : ℕ) (plotC plotD : Bool) (hr : s.active[r]? = some m) :
    let c := rule ((List.range s.batchSize).map fun j => (s.alpha m, env.f (s.x.get m (s'.cIdx.par r j)), s.x.get m (s'.cIdx.par r j)))
    ∃ ds : List V, liveUpdate d r plotC plotD s' = .ok
      { particles := s.x.row r, cons := if plotC then some [c] else none,
        arrows := if plotD = true ∧ d ≠ 1 then some ((List.range s'.pIdx.cols).map fun j => s.x.get m (s'.pIdx.par r j), ds) else none } ∧
      ds = ((List.range s'.pIdx.cols).map fun j => s.x.get m (s'.pIdx.par r j) - c) ∧ ∀ j < s'.pIdx.cols, s'.pIdx.par r j < s.N := by
  intro c
  obtain ⟨cm, dr, nz, xm, S⟩ := cboStep_facts hcorr hns hmean hp hw hs
  have hs2 := hs
  rw [cboInner_eq] at hs2
  have f := step_frame (consThen_frame (cboMove_ok env)) hs2
  have hix := preStep_idx env hp hw
  have hra : r < s.active.length := by
    by_contra hc
    rw [List.getElem?_eq_none (by omega)] at hr
    cases hr
  have hrr : s.active.getD r 0 = m := by rw [List.getD_eq_getElem?_getD, hr]; rfl
  have hrM : r < s.x.rows := by
    rw [hw.xr]
    have := hw.act.length_le
    rw [List.length_range] at this
    omega
  have hpi : s'.pIdx.InBounds s.x.rows s.x.cols := by rw [f.pIdx, hw.xr, hw.xc]; exact hix.pIn
  have hpr : s'.pIdx.rows = s.active.length := by rw [f.pIdx]; exact hix.pRows
  have hrun : s'.pIdx.run r = m := by rw [f.pIdx, hix.pRun r hra, hrr]
  have hc : cm.get r 0 = c := by
    rw [S.cget r hra]
    show rule _ = rule _
    congr 1
    unfold sampleOf
    simp only
    rw [show s'.cIdx.cols = s.batchSize by rw [f.cIdx]; exact hix.cCols, hrr, show s'.cIdx.run r = m by rw [f.cIdx, hix.cRun r hra, hrr]]
  refine ⟨_, ?_, rfl, fun j hj => by have := (hpi r (by rw [hpr]; exact hra) j hj).2; rwa [hw.xc] at this⟩
  unfold liveUpdate
  rw [f.xOld]
  have e1 : rowOf s.x r = .ok (s.x.row r) := if_pos hrM
  have e2 : liveCons r plotC s' = .ok (if plotC then some [c] else none) := by
    unfold liveCons
    rw [S.cons]
    split_ifs
    · have : rowOf cm r = .ok [c] := by
        unfold rowOf
        rw [if_pos (by rw [S.crows]; exact hra)]
        unfold Mat.row
        rw [S.ccols, ← hc]
        rfl
      simp only [this]
      rfl
    · rfl
  have e3 : liveArrows d r plotD s.x s' = .ok (if plotD = true ∧ d ≠ 1 then some ((List.range s'.pIdx.cols).map fun j => s.x.get m (s'.pIdx.par r j),
      (List.range s'.pIdx.cols).map fun j => s.x.get m (s'.pIdx.par r j) - c) else none) := by
    unfold liveArrows
    split_ifs
    · have g1 : s.x.gather s'.pIdx = .ok ⟨s'.pIdx.rows, s'.pIdx.cols, fun i j => s.x.get (s'.pIdx.run i) (s'.pIdx.par i j)⟩ := if_pos hpi
      have g2 : rowOf (⟨s'.pIdx.rows, s'.pIdx.cols, fun i j => s.x.get (s'.pIdx.run i) (s'.pIdx.par i j)⟩ : Mat V) r = .ok ((List.range s'.pIdx.cols).map fun j => s.x.get m (s'.pIdx.par r j)) := by
        unfold rowOf
        rw [if_pos (by show r < s'.pIdx.rows; rw [hpr]; exact hra)]
        unfold Mat.row
        simp only [hrun]
      have g3 : rowOf dr r = .ok ((List.range s'.pIdx.cols).map fun j => s.x.get m (s'.pIdx.par r j) - c) := by
        unfold rowOf
        rw [if_pos (by rw [S.dr]; exact hra)]
        unfold Mat.row
        rw [S.dc]
        congr 1
        apply List.map_congr_left
        intro j hj
        rw [S.dget r hra j (List.mem_range.1 hj), hrun, hc]
      unfold arrowsOf
      rw [S.drift]
      simp only [g1, g3]
      show (rowOf _ r >>= _) >>= _ = _
      rw [g2]
      rfl
    · rfl
  simp only [e1, e2, e3]
  rfl

/-- Without a row for the plotted run nothing can be drawn. -/
theorem live_index {env : Env K V} (hcorr : env.corr = .none) (hns : NoiseShape env) (hp : PermOK env) {rule : List (K × Flt K × V) → V} (hmean : env.cons = .mean rule)
    {s s' : St K V} (hw : WF s) (hs : step env (cboInner env) s = .ok s') (d r : ℕ) (plotC plotD : Bool) (hr : s.active.length ≤ r) (hpl : plotC = true ∨ plotD = true ∧ d ≠ 1) :
    liveUpdate d r plotC plotD s' = .error .index := by
  obtain ⟨cm, dr, nz, xm, S⟩ := cboStep_facts hcorr hns hmean hp hw hs
  have hs2 := hs
  rw [cboInner_eq] at hs2
  have f := step_frame (consThen_frame (cboMove_ok env)) hs2
  have hix := preStep_idx env hp hw
  have hpi : s'.pIdx.InBounds s.x.rows s.x.cols := by rw [f.pIdx, hw.xr, hw.xc]; exact hix.pIn
  have hpr : s'.pIdx.rows = s.active.length := by rw [f.pIdx]; exact hix.pRows
  unfold liveUpdate
  rw [f.xOld]
  by_cases h1 : r < s.x.rows
  · have e1 : rowOf s.x r = .ok (s.x.row r) := if_pos h1
    cases plotC with
    | true =>
      have e2 : liveCons r true s' = .error .index := by
        unfold liveCons
        rw [S.cons]
        have : rowOf cm r = .error .index := if_neg (by rw [S.crows]; omega)
        simp only [this]
        rfl
      simp only [e1, e2]
      rfl
    | false =>
      have hd := hpl.resolve_left (by decide)
      have e3 : liveArrows d r plotD s.x s' = .error .index := by
        unfold liveArrows
        rw [if_pos hd]
        have g1 : s.x.gather s'.pIdx = .ok ⟨s'.pIdx.rows, s'.pIdx.cols, fun i j => s.x.get (s'.pIdx.run i) (s'.pIdx.par i j)⟩ := if_pos hpi
        have g2 : rowOf (⟨s'.pIdx.rows, s'.pIdx.cols, fun i j => s.x.get (s'.pIdx.run i) (s'.pIdx.par i j)⟩ : Mat V) r = .error .index :=
          if_neg (by show ¬ r < s'.pIdx.rows; rw [hpr]; omega)
        unfold arrowsOf
        rw [S.drift]
        simp only [g1]
        show (rowOf _ r >>= _) >>= _ = _
        rw [g2]
        rfl
      simp only [e1, e3]
      rfl
  · have e1 : rowOf s.x r = .error .index := if_neg h1
    simp only [e1]
    rfl

end Verif
