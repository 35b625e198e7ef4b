import Verif.Proofs.Plot
import Verif.Spec.Example

/-! Property C57: plots of histories. -/

set_option linter.unusedSectionVars false

namespace Verif

section
variable {V : Type}

/-- **C57 (frames).** If `run_plots` finishes, it has drawn one frame for every wanted iteration, in order, `⌈(len(x) - 1) / freq⌉` in total; frame `i` shows the
plotted run of entry `i` of every plotted history. -/
theorem C57_frames (p : Plot V) (freq : ℕ) (hf : 1 ≤ freq) (fs : List (ℕ × Frame V)) (h : runPlots p freq = .ok fs) :
    fs.map Prod.fst = wanted p.x.length freq ∧ fs.length = (p.x.length - 1 + freq - 1) / freq ∧
    ∀ i fr, (i, fr) ∈ fs →
      (∃ a, p.x[i]? = some a ∧ fr.particles = a.row p.numRun) ∧
      (∀ l, p.c = some l → ∃ c, l[i]? = some c ∧ fr.cons = c.map fun a => a.row p.numRun) ∧
      (∀ l, p.dr = some l → ∃ d ix, l[i]? = some (some d, ix) ∧ ∃ pos, fr.arrows = some (pos, d.row p.numRun)) := by
  obtain ⟨h1, h2⟩ := runPlotsFrom_ok hf h
  refine ⟨h1, ?_, ?_⟩
  · rw [← wanted_len p.x.length freq hf, ← List.length_map (f := Prod.fst), h1]
    rfl
  · intro i fr hi
    obtain ⟨a, -, b, -, c⟩ := plotAt_ok (h2 _ hi)
    refine ⟨?_, ?_, ?_⟩
    · obtain ⟨q, q1, -, q2⟩ := a
      exact ⟨q, q1, q2⟩
    · intro l hl
      obtain ⟨q, q1, q2, -⟩ := b l hl
      exact ⟨q, q1, q2⟩
    · intro l hl
      obtain ⟨-, d, ix, g, -, q2, -, -, -, q6⟩ := c l hl
      exact ⟨d, ix, q2, _, q6⟩

/-- C57 (range): if the recorded lists cover what is plotted, `run_plots` finishes for every frequency. -/
theorem C57_covered (p : Plot V) (h : Covered p) (freq : ℕ) (hf : 1 ≤ freq) : ∃ fs, runPlots p freq = .ok fs :=
  runPlotsFrom_total hf fun _ hi => plotAt_total h (List.mem_range.1 hi)

end

section
variable {K V : Type} [Zero K] [One K] [Neg K] [Add K] [Sub K] [Mul K] [Inv K] [Div K] [NatCast K] [Pow K ℕ] [LinearOrder K] [Add V] [Sub V] [SMul K V]

/-- **C57 (histories of CBO).** After at least one step, in which all runs were active, the history plot of every existing run can be constructed with every choice of
options, and `run_plots` draws exactly `⌈⌈k / save_int⌉ / freq⌉` frames without leaving the recorded lists. -/
theorem C57_history_partial (env : Env K V) (he : EnvOK env) (hp : PermOK env) (a : Args K V) (s₀ s : St K V) (ops : List Op) (h0 : init env a = .ok s₀)
    (hsave : 1 ≤ a.saveInt) (hn : a.tracks.Nodup) (hx : Track.x ∈ a.tracks) (hr : Op.reset ∉ ops) (h : execAll env (cboInner env) ops s₀ = .ok s)
    (hfull : StepsFull env (cboInner env) ops s₀) (hstep : 1 ≤ nSteps ops) (d numRun freq : ℕ) (hrun : numRun < s.M) (hf : 1 ≤ freq) (plotC plotD : Bool) :
    ∃ p fs, mkPlot d numRun none plotC plotD s = .ok p ∧ runPlots p freq = .ok fs ∧
      fs.length = ((nSteps ops + a.saveInt - 1) / a.saveInt + freq - 1) / freq := by
  obtain ⟨i0, it, iM⟩ := plotInv_init h0
  have w0 := init_wf hp h0
  obtain ⟨hi, htr, hM, hw⟩ := plotInv_execAll he hp hr w0 (by rw [it]; exact hn) hfull i0 h
  have h' := h
  rw [cboInner_eq] at h'
  have hh := (histInv_execAll (consThen_frame (cboMove_ok env)) hn hr (histInv_init h0 hsave) h').1
  rw [Nat.zero_add] at hh
  have tr : s.tracks = a.tracks := by rw [htr, it]
  set k := (nSteps ops + a.saveInt - 1) / a.saveInt with hk
  have hk1 : 1 ≤ k := by
    rw [hk, Nat.le_div_iff_mul_le (by omega)]
    omega
  have lx : (histX (s.hist .x)).length = k + 1 := by
    rw [(histX_of hi).1, hh.len _ hx (by simp)]
    rfl
  have lc : Track.consensus ∈ a.tracks → (histC (s.hist .consensus)).length = k := by
    intro hc
    rw [(histC_of hi).1, hh.len _ hc (by simp)]
    rfl
  have ld : Track.drift ∈ a.tracks → (histD (s.hist .drift)).length = k := by
    intro hc
    rw [(histD_of hi).1, hh.len _ hc (by simp)]
    rfl
  set p : Plot V := { numRun := numRun, x := (histX (s.hist .x)),
                      c := if plotC = true ∧ Track.consensus ∈ s.tracks then some (histC (s.hist .consensus)) else none,
                      dr := if plotD = true ∧ Track.drift ∈ s.tracks then some (histD (s.hist .drift)) else none } with hpdef
  have hC : ∀ l, p.c = some l → l = histC (s.hist .consensus) ∧ Track.consensus ∈ a.tracks := by
    intro l hl
    rw [hpdef] at hl
    simp only at hl
    split_ifs at hl with hc
    exact ⟨(Option.some.inj hl).symm, tr ▸ hc.2⟩
  have hD : ∀ l, p.dr = some l → l = histD (s.hist .drift) ∧ Track.drift ∈ a.tracks := by
    intro l hl
    rw [hpdef] at hl
    simp only at hl
    split_ifs at hl with hc
    exact ⟨(Option.some.inj hl).symm, tr ▸ hc.2⟩
  have cov : Covered p := by
    refine ⟨?_, ?_, ?_⟩
    · intro q hq
      rw [((histX_of hi).2 q hq).1]
      exact hrun
    · intro l hl
      obtain ⟨rfl, ht⟩ := hC l hl
      refine ⟨by rw [lc ht]; show (histX (s.hist .x)).length - 1 ≤ k; omega, ?_⟩
      intro q hq
      obtain ⟨b, hb, hb2⟩ := (histC_of hi).2 _ hq
      cases hb
      rw [hb2]
      exact hrun
    · intro l hl
      obtain ⟨rfl, ht⟩ := hD l hl
      refine ⟨by rw [ld ht]; show (histX (s.hist .x)).length - 1 ≤ k; omega, ?_⟩
      intro q hq
      obtain ⟨b, hb, hb2, hb3, hb4⟩ := (histD_of hi).2 _ hq
      refine ⟨b, hb, by rw [hb2]; exact hrun, by rw [hb3]; exact hrun, ?_⟩
      intro y hy
      obtain ⟨y1, y2⟩ := (histX_of hi).2 y hy
      rw [y1, y2]
      exact hb4
  have ne : ∀ {α : Type} {l : List α}, 1 ≤ l.length → l ≠ [] := by
    rintro α l h rfl
    simp at h
  obtain ⟨q, hq, q1, q2, q3, q4⟩ := initPlot_total (d := d) cov (ne (by show 1 ≤ (histX (s.hist .x)).length; omega))
    (fun l hl => by
      obtain ⟨rfl, ht⟩ := hC l hl
      refine ⟨ne (by rw [lc ht]; exact hk1), ?_⟩
      intro hnone
      obtain ⟨b, hb, -⟩ := (histC_of hi).2 _ hnone
      cases hb)
    (fun l hl => by
      obtain ⟨rfl, ht⟩ := hD l hl
      exact ne (by rw [ld ht]; exact hk1))
  have cov' : Covered q := by
    refine ⟨?_, ?_, ?_⟩
    · rw [q1, q2]; exact cov.x
    · rw [q1, q2, q3]; exact cov.c
    · rw [q1, q2, q4]
      split_ifs
      · intro l hl; cases hl
      · exact cov.d
  obtain ⟨fs, hfs⟩ := C57_covered q cov' freq hf
  refine ⟨q, fs, ?_, hfs, ?_⟩
  · unfold mkPlot
    rw [if_pos (by rw [tr]; exact hx)]
    exact hq
  · rw [(C57_frames q freq hf fs hfs).2.1, q2]
    show ((histX (s.hist .x)).length - 1 + freq - 1) / freq = _
    rw [lx, Nat.add_sub_cancel]

/-- **C57 (single runs).** After a completed `optimize` of a single run (`M = 1`) in which at least one step was recorded, `run_plots` works for every frequency and every
choice of options. -/
theorem C57_single_run (env : Env K V) (he : EnvOK env) (hp : PermOK env) (a : Args K V) (s₀ s : St K V) (fuel : ℕ) (h0 : init env a = .ok s₀)
    (hM : a.x0.rows = 1) (hsave : 1 ≤ a.saveInt) (hn : a.tracks.Nodup) (hx : Track.x ∈ a.tracks) (h : optimize env (cboInner env) fuel s₀ = .done s)
    (hit : 1 ≤ s.it) (d freq : ℕ) (hf : 1 ≤ freq) (plotC plotD : Bool) :
    ∃ p fs, mkPlot d 0 none plotC plotD s = .ok p ∧ runPlots p freq = .ok fs ∧ fs.length = ((s.it + a.saveInt - 1) / a.saveInt + freq - 1) / freq := by
  have iM := (plotInv_init h0).2.2
  obtain ⟨ops, o1, o2, o3⟩ := stepsFull_single (init_wf hp h0) (by rw [iM, hM]) he hp h
  have o3' := o3
  rw [cboInner_eq] at o3'
  have hh := (histInv_execAll (consThen_frame (cboMove_ok env)) hn o1 (histInv_init h0 hsave) o3').1
  rw [Nat.zero_add] at hh
  have hs : s.M = s₀.M := (plotInv_execAll he hp o1 (init_wf hp h0) (by rw [(plotInv_init h0).2.1]; exact hn) o2 (plotInv_init h0).1 o3).2.2.1
  rw [hh.it]
  exact C57_history_partial env he hp a s₀ s ops h0 hsave hn hx o1 o3 o2 (by rw [← hh.it]; exact hit) d 0 freq (by rw [hs, iM, hM]; exact Nat.one_pos) hf plotC plotD

/-- C57, disagreement: before the first step the consensus history is empty, and the plot with `plot_consensus=True` cannot be constructed. -/
theorem C57_fresh_false (env : Env K V) (a : Args K V) (s : St K V) (h : init env a = .ok s) (hx : Track.x ∈ a.tracks) (hc : Track.consensus ∈ a.tracks)
    (d numRun : ℕ) (plotD : Bool) : mkPlot d numRun none true plotD s = .error .index := by
  have e : s.tracks = a.tracks ∧ s.hist = trackInit s := by
    unfold init at h
    split_ifs at h <;>
      (injection h with h
       rw [← h]
       exact ⟨rfl, rfl⟩)
  unfold mkPlot
  rw [if_pos (by rw [e.1]; exact hx)]
  unfold initPlot initCons
  simp only [e.1, e.2, hc, and_self, if_true, Option.getD_none]
  simp only [trackInit, histX, histC, List.filterMap_cons, List.filterMap_nil]
  simp only [pyItem, rowOf, List.getElem?_cons_zero, List.getElem?_nil, bind, Except.bind]
  split_ifs <;> rfl

end

section
variable {K : Type} [Field K] [LinearOrder K] [IsStrictOrderedRing K]

/-- **C57 (window).** For every window with `y` bounds different from 0 (or left out, which means the `x` bounds) the grid of the contour plot spans exactly the window,
equally spaced; the objective is evaluated at the points drawn, with the remaining coordinates 0. -/
theorem C57_window_partial (n d d0 d1 : ℕ) (xMin xMax : K) (yMin yMax : Option K) (hn : 2 ≤ n) (h0 : d0 < d) (h1 : d1 < d) (hne : d0 ≠ d1)
    (hy0 : yMin ≠ some 0) (hy1 : yMax ≠ some 0) :
    ∃ g, contour2D n d (d0, d1) xMin xMax yMin yMax = .ok g ∧
      (∀ i, g.X i 0 = xMin ∧ g.X i (n - 1) = xMax) ∧ (∀ j, g.Y 0 j = yMin.getD xMin ∧ g.Y (n - 1) j = yMax.getD xMax) ∧
      (∀ i j, (n - 1 : K) * (g.X i (j + 1) - g.X i j) = xMax - xMin ∧ (n - 1 : K) * (g.Y (i + 1) j - g.Y i j) = yMax.getD xMax - yMin.getD xMin) ∧
      ∀ i j, g.Z i j d0 = g.X i j ∧ g.Z i j d1 = g.Y i j ∧ ∀ k, k ≠ d0 → k ≠ d1 → g.Z i j k = 0 := by
  have hw0 : windowY xMin yMin = yMin.getD xMin := by
    cases yMin with
    | none => rfl
    | some v => simp only [windowY, Option.getD_some]; rw [if_neg]; rintro rfl; exact hy0 rfl
  have hw1 : windowY xMax yMax = yMax.getD xMax := by
    cases yMax with
    | none => rfl
    | some v => simp only [windowY, Option.getD_some]; rw [if_neg]; rintro rfl; exact hy1 rfl
  have hn1 : (n : K) - 1 ≠ 0 := by
    have : (1 : K) < n := by exact_mod_cast hn
    exact sub_ne_zero.2 this.ne'
  have hn2 : n ≠ 1 := by omega
  have hc : ((n - 1 : ℕ) : K) = n - 1 := by rw [Nat.cast_sub (by omega)]; simp
  have first : ∀ a b : K, linspace a b n 0 = a := by intro a b; simp [linspace]
  have last : ∀ a b : K, linspace a b n (n - 1) = b := by
    intro a b
    unfold linspace
    rw [if_neg hn2, hc]
    rw [mul_div_cancel₀ _ hn1]
    ring
  have gap : ∀ (a b : K) j, (n - 1 : K) * (linspace a b n (j + 1) - linspace a b n j) = b - a := by
    intro a b j
    unfold linspace
    rw [if_neg hn2, if_neg hn2]
    push_cast
    rw [show (n - 1 : K) * (a + ((j : K) + 1) * ((b - a) / (n - 1)) - (a + j * ((b - a) / (n - 1)))) = (n - 1) * ((b - a) / (n - 1)) by ring,
      mul_div_cancel₀ _ hn1]
  refine ⟨_, by unfold contour2D; rw [if_pos ⟨h0, h1⟩], ?_, ?_, ?_, ?_⟩
  · exact fun i => ⟨first _ _, last _ _⟩
  · rw [hw0, hw1]
    exact fun i => ⟨first _ _, last _ _⟩
  · rw [hw0, hw1]
    exact fun i j => ⟨gap _ _ _, gap _ _ _⟩
  · intro i j
    refine ⟨by simp [hne], by simp, ?_⟩
    intro k k0 k1
    simp [k0, k1]

/-- C57, disagreement: a window that starts (or ends) at `y = 0` is replaced by the `x` bound. -/
theorem C57_window_false (n d d0 d1 : ℕ) (h0 : d0 < d) (h1 : d1 < d) (xMin xMax yMax : K) (hx : xMin ≠ 0) :
    ∃ g, contour2D n d (d0, d1) xMin xMax (some 0) (some yMax) = .ok g ∧ ∀ j, g.Y 0 j = xMin ∧ g.Y 0 j ≠ 0 := by
  refine ⟨_, by unfold contour2D; rw [if_pos ⟨h0, h1⟩], ?_⟩
  intro j
  have : linspace (windowY xMin (some 0)) (windowY xMax (some yMax)) n 0 = xMin := by simp [linspace, windowY]
  exact ⟨this, fun h => hx (this.symm.trans h)⟩

/-- C57, disagreement: the axes of the plot ignore `y_min` and `y_max`. The horizontal axis shows exactly the window of the contour plot (which has the same default `[-1, 1]`), the vertical one does
so only if the `y` window given by the user is the `x` window. -/
theorem C57_axes_false (n d d0 d1 : ℕ) (hn : 2 ≤ n) (h0 : d0 < d) (h1 : d1 < d) (hne : d0 ≠ d1) (xMin xMax : Option K) (a b : K) (ha : a ≠ 0) (hb : b ≠ 0) :
    ∃ g, contour2D n d (d0, d1) (xMin.getD (-1)) (xMax.getD 1) (some a) (some b) = .ok g ∧ (∀ i, (axesWindow xMin xMax).1 = (g.X i 0, g.X i (n - 1))) ∧
      ∀ j, (axesWindow xMin xMax).2 = (g.Y 0 j, g.Y (n - 1) j) ↔ a = xMin.getD (-1) ∧ b = xMax.getD 1 := by
  obtain ⟨g, hg, hX, hY, -⟩ := C57_window_partial n d d0 d1 (xMin.getD (-1)) (xMax.getD 1) (some a) (some b) hn h0 h1 hne (by simpa using ha) (by simpa using hb)
  refine ⟨g, hg, fun i => ?_, fun j => ?_⟩
  · rw [(hX i).1, (hX i).2]
    rfl
  · rw [(hY j).1, (hY j).2]
    simp only [axesWindow, Option.getD_some, Prod.mk.injEq]
    exact ⟨fun h => ⟨h.1.symm, h.2.symm⟩, fun h => ⟨h.1.symm, h.2.symm⟩⟩

/-- C57: a window whose vertical axis is wrong. -/
example : ∃ g : Grid ℚ, contour2D 3 2 (0, 1) (-1) 1 (some 2) (some 4) = .ok g ∧ (axesWindow (none : Option ℚ) none).2 ≠ (g.Y 0 0, g.Y 2 0) := by
  obtain ⟨g, hg, -, h⟩ := C57_axes_false (K := ℚ) 3 2 0 1 (by norm_num) (by norm_num) (by norm_num) (by norm_num) none none 2 4 (by norm_num) (by norm_num)
  exact ⟨g, hg, fun he => absurd ((h 0).1 he).1 (by norm_num)⟩

end

namespace Example

/-- Two runs; the first stops after the first step. Recorded: particles, consensus, drift. -/
def plotEnv : Env ℚ ℚ := { env with custom := fun _ s m => decide (m = 0 ∧ 1 ≤ s.it) }

/-- The constructor arguments. -/
def plotArgs : Args ℚ ℚ := { args [.custom 0] none with tracks := [.x, .consensus, .drift] }

end Example

open Example in
/-- C57, disagreement: once a run has stopped, consensus and drift are recorded for the active runs only, and plotting run 1 fails with `IndexError`. -/
theorem C57_stopped_false : (match init plotEnv plotArgs with
    | .error _ => false
    | .ok s₀ => match execAll plotEnv (cboInner plotEnv) [.select, .step, .sched, .select, .step, .sched] s₀ with
      | .error _ => false
      | .ok s => match mkPlot 1 1 none true false s with
        | .error _ => false
        | .ok p => match runPlots p 1 with
          | .error e => decide (s.M = 2 ∧ s.active = [1] ∧ e = .index)
          | .ok _ => false) = true := by decide +kernel

open Example in
/-- C57: the hypotheses hold for a run of five steps with all runs active (`EnvOK` and `PermOK` of the example are shown in `Props/Frozen.lean`). -/
example : StepsFull env (cboInner env) [.step, .step, .step, .step, .step] (start [] none) :=
  stepsFull_noselect (by decide) (by decide) (by decide +kernel)

open Example in
/-- C57: a single run, optimised for four steps. -/
example : (match optimize env (cboInner env) 9 (start1 [.maxIt (some 4)]) with
    | .done s => decide (1 ≤ s.it ∧ s.M = 1)
    | _ => false) = true := by decide +kernel

open Example in
/-- C57: a run of five steps with all runs active, plotted with frequency 2: three frames. -/
example : (match init env { args [] none with tracks := [.x, .consensus, .drift] } with
    | .error _ => false
    | .ok s₀ => match execAll env (cboInner env) [.step, .step, .step, .step, .step] s₀ with
      | .error _ => false
      | .ok s => match mkPlot 2 1 none true true s with
        | .error _ => false
        | .ok p => match runPlots p 2 with
          | .error _ => false
          | .ok fs => decide (fs.map Prod.fst = [0, 2, 4] ∧ nSteps [Op.step, .step, .step, .step, .step] = 5)) = true := by decide +kernel

end Verif
