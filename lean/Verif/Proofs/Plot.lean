import Verif.Spec.Plot
import Verif.Proofs.Hist
import Verif.Proofs.Total

/-! Lemmas on the plots of histories. -/

set_option linter.unusedSectionVars false

namespace Verif

section
variable {V : Type}

theorem pyItem_ok {α : Type} {l : List α} {i : ℕ} {a : α} : pyItem l i = .ok a ↔ l[i]? = some a := by
  unfold pyItem
  cases l[i]? <;> simp

theorem rowOf_ok {a : Mat V} {r : ℕ} {l : List V} : rowOf a r = .ok l ↔ r < a.rows ∧ l = a.row r := by
  unfold rowOf
  split_ifs with h
  · simp [h, eq_comm]
  · simp [h]

theorem wanted_len (n f : ℕ) (hf : 1 ≤ f) : (wanted n f).length = (n - 1 + f - 1) / f := by
  unfold wanted
  induction n - 1 with
  | zero => simp [Nat.div_eq_of_lt (show f - 1 < f by omega)]
  | succ k ih =>
    rw [List.range_succ, List.filter_append, List.length_append, ih, ceil_step k f (by omega)]
    congr 1
    by_cases h : f ∣ k
    · simp [h, Nat.mod_eq_zero_of_dvd h]
    · have : k % f ≠ 0 := fun h2 => h (Nat.dvd_of_mod_eq_zero h2)
      simp [h, this]

theorem runPlotsFrom_ok {p : Plot V} {f : ℕ} (hf : 1 ≤ f) : ∀ {l : List ℕ} {fs : List (ℕ × Frame V)}, runPlotsFrom p f l = .ok fs →
    fs.map Prod.fst = l.filter (fun i => f ∣ i) ∧ ∀ e ∈ fs, plotAt p e.1 = .ok e.2
  | [], fs, h => by
    simp only [runPlotsFrom, Except.ok.injEq] at h
    subst h
    simp
  | i :: l, fs, h => by
    unfold runPlotsFrom at h
    rw [if_neg (by omega)] at h
    split_ifs at h with hi
    · simp only [bind_ok, pure_ok] at h
      obtain ⟨a, ha, b, hb, rfl⟩ := h
      obtain ⟨h1, h2⟩ := runPlotsFrom_ok hf hb
      refine ⟨?_, ?_⟩
      · rw [List.map_cons, h1, List.filter_cons_of_pos (by simpa using Nat.dvd_of_mod_eq_zero hi)]
      · intro e he
        rcases List.mem_cons.1 he with rfl | he
        · exact ha
        · exact h2 e he
    · obtain ⟨h1, h2⟩ := runPlotsFrom_ok hf h
      refine ⟨?_, h2⟩
      rw [h1, List.filter_cons_of_neg]
      intro hd
      exact hi (Nat.mod_eq_zero_of_dvd (by simpa using hd))

theorem runPlotsFrom_total {p : Plot V} {f : ℕ} (hf : 1 ≤ f) : ∀ {l : List ℕ}, (∀ i ∈ l, ∃ fr, plotAt p i = .ok fr) → ∃ fs, runPlotsFrom p f l = .ok fs
  | [], _ => ⟨[], rfl⟩
  | i :: l, h => by
    obtain ⟨fs, hfs⟩ := runPlotsFrom_total hf (l := l) (fun j hj => h j (List.mem_cons_of_mem _ hj))
    obtain ⟨fr, hfr⟩ := h i (List.mem_cons_self ..)
    unfold runPlotsFrom
    rw [if_neg (by omega)]
    split_ifs
    · exact ⟨(i, fr) :: fs, by simp [hfr, hfs, bind, Except.bind, pure, Except.pure]⟩
    · exact ⟨fs, hfs⟩

/-- What a successful frame shows. -/
theorem plotAt_ok {p : Plot V} {i : ℕ} {fr : Frame V} (h : plotAt p i = .ok fr) :
    (∃ a, p.x[i]? = some a ∧ p.numRun < a.rows ∧ fr.particles = a.row p.numRun) ∧
    (p.c = none → fr.cons = none) ∧
    (∀ l, p.c = some l → ∃ c, l[i]? = some c ∧ fr.cons = c.map (fun a => a.row p.numRun) ∧ ∀ a, c = some a → p.numRun < a.rows) ∧
    (p.dr = none → fr.arrows = none) ∧
    (∀ l, p.dr = some l → ∃ a d ix g, p.x[i]? = some a ∧ l[i]? = some (some d, ix) ∧ a.gather ix = .ok g ∧ p.numRun < g.rows ∧ p.numRun < d.rows ∧
      fr.arrows = some (g.row p.numRun, d.row p.numRun)) := by
  simp only [plotAt, bind_ok, pure_ok] at h
  obtain ⟨a, ha, pts, hpts, c, hc, ar, har, rfl⟩ := h
  rw [pyItem_ok] at ha
  rw [rowOf_ok] at hpts
  refine ⟨⟨a, ha, hpts.1, hpts.2⟩, ?_, ?_, ?_, ?_⟩
  · intro hn
    simp only [frameCons, hn, pure_ok] at hc
    exact hc.symm
  · intro l hl
    simp only [frameCons, hl, bind_ok] at hc
    obtain ⟨q, hq, hc⟩ := hc
    rw [pyItem_ok] at hq
    refine ⟨q, hq, ?_⟩
    cases q with
    | none =>
      simp only [pure_ok] at hc
      subst hc
      simp
    | some q =>
      simp only [bind_ok, pure_ok] at hc
      obtain ⟨r, hr, rfl⟩ := hc
      rw [rowOf_ok] at hr
      simp [hr.1, hr.2]
  · intro hn
    simp only [frameArrows, hn, pure_ok] at har
    exact har.symm
  · intro l hl
    simp only [frameArrows, hl, bind_ok, pure_ok] at har
    obtain ⟨e, he, q, hq, rfl⟩ := har
    rw [pyItem_ok] at he
    obtain ⟨d, ix⟩ := e
    unfold arrowsOf at hq
    cases d with
    | none => simp at hq
    | some d =>
      simp only [bind_ok, pure_ok] at hq
      obtain ⟨g, hg, u, hu, v, hv, rfl⟩ := hq
      rw [rowOf_ok] at hu hv
      exact ⟨a, d, ix, g, ha, he, hg, hu.1, hv.1, by rw [hu.2, hv.2]⟩

theorem arrowsOf_total {r : ℕ} {x : Mat V} {e : Option (Mat V) × Idx} {a : Mat V} (h1 : e.1 = some a) (h2 : r < a.rows) (h3 : r < e.2.rows)
    (h4 : e.2.InBounds x.rows x.cols) : ∃ q, arrowsOf r x e = .ok q := by
  obtain ⟨d, ix⟩ := e
  simp only at h1 h3 h4
  subst h1
  refine ⟨((⟨ix.rows, ix.cols, fun i j => x.get (ix.run i) (ix.par i j)⟩ : Mat V).row r, a.row r), ?_⟩
  unfold arrowsOf Mat.gather rowOf
  simp only [if_pos h4, bind, Except.bind, if_pos h3, if_pos h2, pure, Except.pure]

theorem plotAt_total {p : Plot V} (h : Covered p) {i : ℕ} (hi : i < p.x.length - 1) : ∃ fr, plotAt p i = .ok fr := by
  obtain ⟨a, ha⟩ : ∃ a, p.x[i]? = some a := ⟨p.x[i], by rw [List.getElem?_eq_getElem]⟩
  have hm : a ∈ p.x := List.mem_of_getElem? ha
  have hr := h.x a hm
  have e1 : pyItem p.x i = .ok a := pyItem_ok.2 ha
  have e2 : rowOf a p.numRun = .ok (a.row p.numRun) := rowOf_ok.2 ⟨hr, rfl⟩
  obtain ⟨c, hc⟩ : ∃ c, frameCons p i = .ok c := by
    unfold frameCons
    cases hc : p.c with
    | none => exact ⟨none, rfl⟩
    | some l =>
      obtain ⟨h1, h2⟩ := h.c l hc
      obtain ⟨q, hq⟩ : ∃ q, l[i]? = some q := ⟨l[i]'(by omega), by rw [List.getElem?_eq_getElem]⟩
      have e3 : pyItem l i = .ok q := pyItem_ok.2 hq
      cases q with
      | none => exact ⟨none, by simp [e3, bind, Except.bind, pure, Except.pure]⟩
      | some q =>
        have e4 : rowOf q p.numRun = .ok (q.row p.numRun) := rowOf_ok.2 ⟨h2 q (List.mem_of_getElem? hq), rfl⟩
        exact ⟨some (q.row p.numRun), by simp [e3, e4, bind, Except.bind, pure, Except.pure]⟩
  obtain ⟨b, hb⟩ : ∃ b, frameArrows p i a = .ok b := by
    unfold frameArrows
    cases hd : p.dr with
    | none => exact ⟨none, rfl⟩
    | some l =>
      obtain ⟨h1, h2⟩ := h.d l hd
      obtain ⟨e, he⟩ : ∃ e, l[i]? = some e := ⟨l[i]'(by omega), by rw [List.getElem?_eq_getElem]⟩
      obtain ⟨d, hd1, hd2, hd3, hd4⟩ := h2 e (List.mem_of_getElem? he)
      have e3 : pyItem l i = .ok e := pyItem_ok.2 he
      obtain ⟨q, hq⟩ := arrowsOf_total hd1 hd2 hd3 (hd4 a hm)
      exact ⟨some q, by simp [e3, hq, bind, Except.bind, pure, Except.pure]⟩
  refine ⟨⟨a.row p.numRun, c, b⟩, ?_⟩
  unfold plotAt
  simp only [e1, e2, hc, hb, bind, Except.bind, pure, Except.pure]

end

section
variable {K V : Type} [Zero K] [One K] [Neg K] [Add K] [Sub K] [Mul K] [Inv K] [Div K] [NatCast K] [Pow K ℕ] [LinearOrder K] [Add V] [Sub V] [SMul K V]

/-- Shapes of the recorded entries while all runs are active. -/
structure PlotInv (s : St K V) : Prop where
  xs : ∀ e ∈ s.hist .x, ∃ a, e = .x a ∧ a.rows = s.M ∧ a.cols = s.N
  cs : ∀ e ∈ s.hist .consensus, ∃ a, e = .consensus (some a) ∧ a.rows = s.M
  ds : ∀ e ∈ s.hist .drift, ∃ a ix, e = .drift (some a) ix ∧ a.rows = s.M ∧ ix.rows = s.M ∧ ix.InBounds s.M s.N

theorem plotInv_step {env : Env K V} (he : EnvOK env) (hp : PermOK env) {s s' : St K V} (hw : WF s) (hn : s.tracks.Nodup)
    (hf : s.active.length = s.M) (hi : PlotInv s) (h : step env (cboInner env) s = .ok s') : PlotInv s' := by
  obtain ⟨r, hr⟩ := he.mean
  obtain ⟨c, d, n, xm, cs⟩ := cboStep_facts he.corr he.noise.shape hr hp hw h
  have h2 := h
  rw [cboInner_eq] at h2
  have f := step_frame (consThen_frame (cboMove_ok env)) h2
  have w' := step_wf (cboMove_ok env) he.postOK hp hw h2
  have hh := fun t => (step_hist (consThen_frame (cboMove_ok env)) h2 hn t).1
  have hix := preStep_idx env hp hw
  refine ⟨?_, ?_, ?_⟩
  · intro e hmem
    rw [hh] at hmem
    rw [f.M, f.N]
    split_ifs at hmem with hc
    · rcases List.mem_append.1 hmem with hm | hm
      · exact hi.xs e hm
      · simp only [trackEntry, List.mem_singleton] at hm
        exact ⟨s'.x, hm, by rw [w'.xr, f.M], by rw [w'.xc, f.N]⟩
    · exact hi.xs e hmem
  · intro e hmem
    rw [hh] at hmem
    rw [f.M]
    split_ifs at hmem with hc
    · rcases List.mem_append.1 hmem with hm | hm
      · exact hi.cs e hm
      · simp only [trackEntry, List.mem_singleton, cs.cons] at hm
        exact ⟨c, hm, by rw [cs.crows, hf]⟩
    · exact hi.cs e hmem
  · intro e hmem
    rw [hh] at hmem
    rw [f.M, f.N]
    split_ifs at hmem with hc
    · rcases List.mem_append.1 hmem with hm | hm
      · exact hi.ds e hm
      · simp only [trackEntry, List.mem_singleton, cs.drift] at hm
        exact ⟨d, s'.pIdx, hm, by rw [cs.dr, hf], by rw [f.pIdx, hix.pRows, hf], by rw [f.pIdx]; exact hix.pIn⟩
    · exact hi.ds e hmem

theorem plotInv_exec {env : Env K V} (he : EnvOK env) (hp : PermOK env) {o : Op} (ho : o ≠ .reset) {s s' : St K V} (hw : WF s) (hn : s.tracks.Nodup)
    (hf : o = .step → s.active.length = s.M) (hi : PlotInv s) (h : exec env (cboInner env) o s = .ok s') :
    PlotInv s' ∧ s'.tracks = s.tracks := by
  cases o with
  | step =>
    have h2 : step env (cboInner env) s = .ok s' := h
    refine ⟨plotInv_step he hp hw hn (hf rfl) hi h2, ?_⟩
    rw [cboInner_eq] at h2
    exact (step_frame (consThen_frame (cboMove_ok env)) h2).tracks
  | select =>
    rw [select_frame h]
    exact ⟨⟨hi.xs, hi.cs, hi.ds⟩, rfl⟩
  | sched =>
    rw [sched_frame h]
    exact ⟨⟨hi.xs, hi.cs, hi.ds⟩, rfl⟩
  | reset => exact absurd rfl ho

theorem plotInv_execAll {env : Env K V} (he : EnvOK env) (hp : PermOK env) : ∀ {ops : List Op} {s s' : St K V}, Op.reset ∉ ops → WF s → s.tracks.Nodup →
    StepsFull env (cboInner env) ops s → PlotInv s → execAll env (cboInner env) ops s = .ok s' → PlotInv s' ∧ s'.tracks = s.tracks ∧ s'.M = s.M ∧ WF s'
  | [], s, s', _, hw, _, _, hi, h => by
    simp only [execAll] at h
    injection h with h
    subst h
    exact ⟨hi, rfl, rfl, hw⟩
  | o :: l, s, s', hr, hw, hn, hf, hi, h => by
    simp only [execAll, bind_ok] at h
    obtain ⟨q, hq, hl⟩ := h
    simp only [List.mem_cons, not_or] at hr
    obtain ⟨h1, h2⟩ := plotInv_exec he hp (Ne.symm hr.1) hw hn hf.1 hi hq
    have hq' := hq
    rw [cboInner_eq] at hq'
    have hM : q.M = s.M := by
      cases o with
      | step => exact (step_frame (consThen_frame (cboMove_ok env)) hq').M
      | select => rw [select_frame hq]
      | sched => rw [sched_frame hq]
      | reset => exact absurd rfl hr.1
    obtain ⟨a, b, c, d⟩ := plotInv_execAll he hp hr.2 (exec_wf (cboMove_ok env) he.postOK hp hw hq') (by rw [h2]; exact hn) (hf.2 q hq) h1 hl
    exact ⟨a, by rw [b, h2], by rw [c, hM], d⟩

theorem plotInv_init {env : Env K V} {a : Args K V} {s : St K V} (h : init env a = .ok s) : PlotInv s ∧ s.tracks = a.tracks ∧ s.M = a.x0.rows := by
  unfold init at h
  split_ifs at h <;>
    (injection h with h
     rw [← h]
     refine ⟨⟨?_, ?_, ?_⟩, rfl, rfl⟩
     · intro e he
       exact ⟨a.x0, by simpa [initBatch, initHistory, trackInit, baseSt, checkFDims, callF] using he, rfl, rfl⟩
     · intro e he
       simp [initBatch, initHistory, trackInit] at he
     · intro e he
       simp [initBatch, initHistory, trackInit] at he)

theorem histX_of {s : St K V} (hi : PlotInv s) : (histX (s.hist .x)).length = (s.hist .x).length ∧ ∀ a ∈ histX (s.hist .x), a.rows = s.M ∧ a.cols = s.N := by
  have : ∀ l : List (Entry K V), (∀ e ∈ l, ∃ a, e = .x a ∧ a.rows = s.M ∧ a.cols = s.N) →
      (histX l).length = l.length ∧ ∀ a ∈ histX l, a.rows = s.M ∧ a.cols = s.N := by
    intro l
    induction l with
    | nil => intro _; simp [histX]
    | cons e l ih =>
      intro h
      obtain ⟨a, rfl, h1, h2⟩ := h e (List.mem_cons_self ..)
      obtain ⟨i1, i2⟩ := ih (fun e he => h e (List.mem_cons_of_mem _ he))
      simp only [histX, List.filterMap_cons, List.length_cons] at i1 i2 ⊢
      refine ⟨by rw [i1], ?_⟩
      intro b hb
      rcases List.mem_cons.1 hb with rfl | hb
      · exact ⟨h1, h2⟩
      · exact i2 b hb
  exact this _ hi.xs

theorem histC_of {s : St K V} (hi : PlotInv s) : (histC (s.hist .consensus)).length = (s.hist .consensus).length ∧
    ∀ e ∈ histC (s.hist .consensus), ∃ a, e = some a ∧ a.rows = s.M := by
  have : ∀ l : List (Entry K V), (∀ e ∈ l, ∃ a, e = .consensus (some a) ∧ a.rows = s.M) →
      (histC l).length = l.length ∧ ∀ e ∈ histC l, ∃ a, e = some a ∧ a.rows = s.M := by
    intro l
    induction l with
    | nil => intro _; simp [histC]
    | cons e l ih =>
      intro h
      obtain ⟨a, rfl, h1⟩ := h e (List.mem_cons_self ..)
      obtain ⟨i1, i2⟩ := ih (fun e he => h e (List.mem_cons_of_mem _ he))
      simp only [histC, List.filterMap_cons, List.length_cons] at i1 i2 ⊢
      refine ⟨by rw [i1], ?_⟩
      intro b hb
      rcases List.mem_cons.1 hb with rfl | hb
      · exact ⟨a, rfl, h1⟩
      · exact i2 b hb
  exact this _ hi.cs

theorem histD_of {s : St K V} (hi : PlotInv s) : (histD (s.hist .drift)).length = (s.hist .drift).length ∧
    ∀ e ∈ histD (s.hist .drift), ∃ a, e.1 = some a ∧ a.rows = s.M ∧ e.2.rows = s.M ∧ e.2.InBounds s.M s.N := by
  have : ∀ l : List (Entry K V), (∀ e ∈ l, ∃ a ix, e = .drift (some a) ix ∧ a.rows = s.M ∧ ix.rows = s.M ∧ ix.InBounds s.M s.N) →
      (histD l).length = l.length ∧ ∀ e ∈ histD l, ∃ a, e.1 = some a ∧ a.rows = s.M ∧ e.2.rows = s.M ∧ e.2.InBounds s.M s.N := by
    intro l
    induction l with
    | nil => intro _; simp [histD]
    | cons e l ih =>
      intro h
      obtain ⟨a, ix, rfl, h1⟩ := h e (List.mem_cons_self ..)
      obtain ⟨i1, i2⟩ := ih (fun e he => h e (List.mem_cons_of_mem _ he))
      simp only [histD, List.filterMap_cons, List.length_cons] at i1 i2 ⊢
      refine ⟨by rw [i1], ?_⟩
      intro b hb
      rcases List.mem_cons.1 hb with rfl | hb
      · exact ⟨a, rfl, h1⟩
      · exact i2 b hb
  exact this _ hi.ds

/-- The constructor of the plot succeeds on covered data if every list has a first entry. -/
theorem initPlot_total {d : ℕ} {p : Plot V} (h : Covered p) (hx : p.x ≠ []) (hc : ∀ l, p.c = some l → l ≠ [] ∧ none ∉ l) (hd : ∀ l, p.dr = some l → l ≠ []) :
    ∃ q, initPlot d p = .ok q ∧ q.numRun = p.numRun ∧ q.x = p.x ∧ q.c = p.c ∧ q.dr = if d = 1 then none else p.dr := by
  obtain ⟨x0, xl, hxe⟩ := List.exists_cons_of_ne_nil hx
  have e1 : pyItem p.x 0 = .ok x0 := by rw [hxe]; rfl
  have hm : x0 ∈ p.x := by rw [hxe]; exact List.mem_cons_self ..
  have e2 : rowOf x0 p.numRun = .ok (x0.row p.numRun) := rowOf_ok.2 ⟨h.x x0 hm, rfl⟩
  have tail : ∃ q, initArrows d p x0 = .ok q ∧ q.numRun = p.numRun ∧ q.x = p.x ∧ q.c = p.c ∧ q.dr = if d = 1 then none else p.dr := by
    unfold initArrows
    cases hdr : p.dr with
    | none => exact ⟨p, by simp [pure, Except.pure], rfl, rfl, rfl, by simp [hdr]⟩
    | some l =>
      obtain ⟨e, l', hl⟩ := List.exists_cons_of_ne_nil (hd l hdr)
      have he : e ∈ l := by rw [hl]; exact List.mem_cons_self ..
      have e3 : pyItem l 0 = .ok e := by rw [hl]; rfl
      by_cases h1 : d = 1
      · exact ⟨{ p with dr := none }, by simp [e3, h1, bind, Except.bind, pure, Except.pure], rfl, rfl, rfl, by simp [h1]⟩
      · obtain ⟨a, ha1, ha2, ha3, ha4⟩ := (h.d l hdr).2 e he
        obtain ⟨q, hq⟩ := arrowsOf_total ha1 ha2 ha3 (ha4 x0 hm)
        exact ⟨p, by simp [e3, h1, hq, bind, Except.bind, pure, Except.pure], rfl, rfl, rfl, by simp [hdr, h1]⟩
  obtain ⟨q, hq, hq2⟩ := tail
  refine ⟨q, ?_, hq2⟩
  have hcons : initCons p = .ok () := by
    unfold initCons
    cases hcc : p.c with
    | none => rfl
    | some l =>
      obtain ⟨h1, h2⟩ := hc l hcc
      obtain ⟨e, l', hl⟩ := List.exists_cons_of_ne_nil h1
      have he : e ∈ l := by rw [hl]; exact List.mem_cons_self ..
      have e3 : pyItem l 0 = .ok e := by rw [hl]; rfl
      cases e with
      | none => exact absurd he h2
      | some a =>
        have e4 : rowOf a p.numRun = .ok (a.row p.numRun) := rowOf_ok.2 ⟨(h.c l hcc).2 a he, rfl⟩
        simp [e3, e4, bind, Except.bind, pure, Except.pure]
  unfold initPlot
  simp only [e1, e2, hcons, hq, bind, Except.bind]

/-- Stepping by hand, without termination checks: all runs stay active. -/
theorem stepsFull_noselect {env : Env K V} : ∀ {ops : List Op} {s : St K V}, Op.select ∉ ops → Op.reset ∉ ops → s.active.length = s.M →
    StepsFull env (cboInner env) ops s
  | [], _, _, _, _ => trivial
  | o :: l, s, hs, hr, hf => by
    simp only [List.mem_cons, not_or] at hs hr
    refine ⟨fun _ => hf, ?_⟩
    intro s' h
    apply stepsFull_noselect hs.2 hr.2
    cases o with
    | step =>
      rw [cboInner_eq] at h
      have f := step_frame (consThen_frame (cboMove_ok env)) h
      rw [f.M, f.active]
      exact hf
    | select => exact absurd rfl hs.1
    | sched =>
      rw [sched_frame h]
      exact hf
    | reset => exact absurd rfl hr.1

/-- `optimize` with a single run makes steps only while that run is active. -/
theorem stepsFull_single {env : Env K V} : ∀ {fuel : ℕ} {s s' : St K V}, WF s → s.M = 1 → EnvOK env → PermOK env → optimize env (cboInner env) fuel s = .done s' →
    ∃ ops, Op.reset ∉ ops ∧ StepsFull env (cboInner env) ops s ∧ execAll env (cboInner env) ops s = .ok s'
  | 0, s, s', _, _, _, _, h => by simp [optimize] at h
  | fuel + 1, s, s', hw, hM, he, hp, h => by
    simp only [optimize] at h
    cases h1 : selectActive env s with
    | error e => simp [h1] at h
    | ok a =>
      simp only [h1] at h
      split_ifs at h with ha
      · injection h with h
        subst h
        exact ⟨[.select], by simp, ⟨by simp, fun _ _ => trivial⟩, by simp [execAll, exec, h1, bind, Except.bind]⟩
      · have wa := select_wf hw h1
        have aM : a.M = 1 := by rw [select_frame h1]; exact hM
        have fa : a.active.length = a.M := by
          have := wa.act.length_le
          rw [List.length_range] at this
          omega
        cases h2 : step env (cboInner env) a with
        | error e => simp [h2] at h
        | ok b =>
          simp only [h2] at h
          have h2' := h2
          rw [cboInner_eq] at h2'
          have wb := step_wf (cboMove_ok env) he.postOK hp wa h2'
          have bM : b.M = 1 := by rw [(step_frame (consThen_frame (cboMove_ok env)) h2').M]; exact aM
          cases h3 : schedUpdate env b with
          | error e => simp [h3] at h
          | ok c =>
            simp only [h3] at h
            have cM : c.M = 1 := by rw [sched_frame h3]; exact bM
            obtain ⟨ops, o1, o2, o3⟩ := stepsFull_single (sched_wf wb h3) cM he hp h
            refine ⟨.select :: .step :: .sched :: ops, by simp [o1], ?_, ?_⟩
            · refine ⟨by simp, ?_⟩
              intro q hq
              have hq' : selectActive env s = .ok q := hq
              rw [h1] at hq'
              cases hq'
              refine ⟨fun _ => fa, ?_⟩
              intro q hq
              have hq' : step env (cboInner env) a = .ok q := hq
              rw [h2] at hq'
              cases hq'
              refine ⟨by simp, ?_⟩
              intro q hq
              have hq' : schedUpdate env b = .ok q := hq
              rw [h3] at hq'
              cases hq'
              exact o2
            · simp only [execAll, exec, bind_ok]
              exact ⟨a, h1, b, h2, c, h3, o3⟩

end

end Verif
