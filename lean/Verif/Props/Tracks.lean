import Verif.Proofs.Tracks

/-! Property C94: histories of several dynamics in one program. -/

set_option linter.unusedSectionVars false

namespace Verif

/-- **C94.** A program constructs any number of dynamics of any classes, makes steps with them and resets them in any order. If no list `extra_tracks` is used for two dynamics (and in each call no key is written by two trackers),
then the history of every dynamic is the one its own arguments and its own steps ask for: under each key of each tracker there is one entry per iteration divisible by `save_int` since construction or the last reset, in order
(after the initial entry, for `x`; nothing, for names that are no attribute), and there are no other keys.

Without the assumption on `extra_tracks` this is false: `C94_shared_false`, `C94_key_false`, `C94_off_false`. -/
theorem C94_history_partial (ops : List TOp) (hops : ∀ c a, TOp.new c a ∈ ops → a.Own c) (m : TMem) (h : tExec ops TMem.empty = .ok m) :
    m.dyns.length = (confs ops).length ∧ ∀ (i : ℕ) (d : TDyn) (k : Conf), m.dyns[i]? = some d → (confs ops)[i]? = some k →
      (∀ t ∈ k.trackers, ∀ key ∈ t.wantedKeys, d.hist key = some (k.entry t key)) ∧ (∀ key, (∀ t ∈ k.trackers, key ∉ t.wantedKeys) → d.hist key = none) ∧
        d.trackIt = (recordedIts k.saveInt k.steps).length := by
  have hm := exec_memOK memOK_empty ops hops h
  rw [Tracker.wantedKeys_eq]
  refine ⟨hm.len, fun i d k hd hk => ?_⟩
  obtain ⟨hi, rfl⟩ := List.getElem?_eq_some_iff.1 hd
  obtain ⟨hi', rfl⟩ := List.getElem?_eq_some_iff.1 hk
  have := hm.dyn i hi
  exact ⟨this.hist, fun key hkey => this.rest key (fun hq => by
    obtain ⟨t, ht, hk'⟩ := List.mem_flatMap.1 hq
    exact hkey t ht hk'), this.cnt⟩

/-- **C94 (no exceptions).** In such a program every construction and every reset succeeds, and a step of an existing dynamic fails (`ZeroDivisionError`) only for `save_int = 0`. -/
theorem C94_total (ops : List TOp) (hops : ∀ c a, TOp.new c a ∈ ops → a.Own c) (m : TMem) (h : tExec ops TMem.empty = .ok m) :
    (∀ c a, a.Own c → ∃ m', tExec (ops ++ [.new c a]) TMem.empty = .ok m') ∧
    ∀ (i : ℕ) (k : Conf), (confs ops)[i]? = some k → (∃ m', tExec (ops ++ [.reset i]) TMem.empty = .ok m') ∧
      (k.saveInt ≠ 0 → ∃ m', tExec (ops ++ [.step i]) TMem.empty = .ok m') ∧ (k.saveInt = 0 → tExec (ops ++ [.step i]) TMem.empty = .error .zeroDiv) := by
  have hm := exec_memOK memOK_empty ops hops h
  have key : ∀ o, tExec (ops ++ [o]) TMem.empty = o.exec m := fun o => by
    rw [tExec_append, h]
    simp only [Except.bind, tExec, Bind.bind]
    cases o.exec m <;> rfl
  refine ⟨fun c a ha => ?_, fun i k hk => ?_⟩
  · obtain ⟨m', h', -⟩ := new_ok hm c a ha
    exact ⟨m', by rw [key]; exact h'⟩
  · obtain ⟨hi', rfl⟩ := List.getElem?_eq_some_iff.1 hk
    have hi : i < m.dyns.length := by rw [hm.len]; exact hi'
    refine ⟨?_, fun hs => ?_, fun hs => ?_⟩
    · obtain ⟨m', h', -⟩ := reset_mem hm i hi
      exact ⟨m', by rw [key]; exact h'⟩
    · obtain ⟨m', h', -⟩ := step_mem hm i hi hs
      exact ⟨m', by rw [key]; exact h'⟩
    · rw [key]
      exact step_mem_zero hm i hi hs

/-- Example class: `CBO`, which knows six names and has an attribute `sigma`. -/
def Example.cboCls : Cls := ⟨fun k => k ∈ ["update_norm", "energy", "x", "consensus", "drift_mean", "drift"], fun k => k ∈ ["sigma", "x", "energy"]⟩

/-- Example: two dynamics, with a list of extra trackers each, steps and a reset interleaved. -/
def Example.program : List TOp :=
  [.new Example.cboCls ⟨some ["x", "drift", "sigma", "mass"], some 2, .fresh [⟨"mine", .custom⟩]⟩, .step 0, .new Example.cboCls ⟨none, none, .fresh [⟨"mine", .custom⟩]⟩, .step 1, .step 0, .step 0, .reset 1, .step 1]

/-- C94: the assumptions hold for the example, the program succeeds, and the histories are these. -/
example : (∀ c a, TOp.new c a ∈ Example.program → a.Own c) ∧ ∃ (m : TMem) (d e : TDyn), tExec Example.program TMem.empty = .ok m ∧ m.dyns = [d, e] ∧
    d.hist "x" = some [none, some 0, some 2] ∧ d.hist "particle_idx" = some [some 0, some 2] ∧ d.hist "sigma" = some [some 0, some 2] ∧ d.hist "mass" = some [] ∧ d.hist "mine" = some [some 0, some 2] ∧
    d.hist "energy" = none ∧ e.hist "energy" = some [some 0] ∧ e.hist "mine" = none := by
  refine ⟨fun c a h => ?_, ?_⟩
  · simp only [Example.program, List.mem_cons, TOp.new.injEq, reduceCtorEq, false_or, List.not_mem_nil, or_false] at h
    rcases h with ⟨rfl, rfl⟩ | ⟨rfl, rfl⟩
    · exact ⟨fun j => by simp, by decide +kernel, by decide +kernel⟩
    · exact ⟨fun j => by simp, by decide +kernel, by decide +kernel⟩
  · refine ⟨_, _, _, rfl, rfl, ?_⟩
    decide +kernel

/-- **C94 is false when `track_args` with `extra_tracks` are used again.** `k + 1` dynamics of a class are constructed with the same `track_args`, containing an empty list `extra_tracks` and one name: then *every* one of them (also
those constructed first) records each value `k + 1` times. -/
theorem C94_shared_false (c : Cls) (key : String) (hk : key ≠ "drift") (hc : c.known key = true) (k i : ℕ) (hi : i ≤ k) :
    ∃ (m : TMem) (d : TDyn), tExec (.new c ⟨some [key], none, .fresh []⟩ :: List.replicate k (.new c ⟨some [key], none, .reuse 0⟩) ++ [.step i]) TMem.empty = .ok m ∧ m.dyns[i]? = some d ∧
      d.hist key = some ((if key = "x" then [none] else []) ++ List.replicate (k + 1) (some 0)) := by
  have hnt : namedTrackers c [key] = [⟨key, .known⟩] := by simp [namedTrackers, hc]
  have inv : ∃ m, tExec (.new c ⟨some [key], none, .fresh []⟩ :: List.replicate k (.new c ⟨some [key], none, .reuse 0⟩)) TMem.empty = .ok m ∧ m.cell 0 = List.replicate (k + 1) ⟨key, .known⟩ ∧
      m.dyns.length = k + 1 ∧ ∀ d ∈ m.dyns, d.given = 0 ∧ d.tracks = 0 ∧ d.saveInt = 1 ∧ d.it = 0 ∧ d.hist key = some (if key = "x" then [none] else []) := by
    clear hi
    induction k with
    | zero =>
      refine ⟨⟨1, Function.update (fun _ => []) 0 (namedTrackers c [key]), [⟨c, 0, 0, 1, 0, 0, startHist (namedTrackers c [key])⟩]⟩, rfl, ?_, rfl, ?_⟩
      · simp [hnt]
      · intro d hd
        rw [List.mem_singleton] at hd
        subst hd
        refine ⟨rfl, rfl, rfl, rfl, ?_⟩
        rw [hnt]
        exact start_same key hk 0 _
    | succ k ih =>
      obtain ⟨m, h1, h2, h3, h4⟩ := ih
      have h0 : ∃ d, m.dyns[0]? = some d := ⟨_, List.getElem?_eq_getElem (by omega)⟩
      obtain ⟨d, hd⟩ := h0
      have hdm : d ∈ m.dyns := List.mem_of_getElem? hd
      have hl : List.replicate (k + 1) (⟨key, .known⟩ : Tracker) ++ [⟨key, .known⟩] = List.replicate (k + 2) ⟨key, .known⟩ := (List.replicate_succ' (n := k + 1) (a := (⟨key, .known⟩ : Tracker))).symm
      refine ⟨⟨m.next, Function.update m.cell 0 (List.replicate (k + 2) ⟨key, .known⟩), m.dyns ++ [⟨c, 0, 0, 1, 0, 0, startHist (List.replicate (k + 2) ⟨key, .known⟩)⟩]⟩, ?_, ?_, ?_, ?_⟩
      · rw [List.replicate_succ', ← List.cons_append, tExec_append, h1]
        simp only [Except.bind, tExec, TOp.exec, tNew, hd, (h4 d hdm).1, h2, Option.getD_some, hnt, Option.getD_none, Bind.bind, Pure.pure, Except.pure, hl]
      · simp
      · simp [h3]
      · intro e he
        rcases List.mem_append.1 he with he | he
        · exact h4 e he
        · rw [List.mem_singleton] at he
          subst he
          exact ⟨rfl, rfl, rfl, rfl, start_same key hk (k + 1) _⟩
  obtain ⟨m, h1, h2, h3, h4⟩ := inv
  have hi' : i < m.dyns.length := by omega
  obtain ⟨-, g2, g3, g4, g5⟩ := h4 m.dyns[i] (List.getElem_mem hi')
  obtain ⟨h', e1, e2⟩ := trackAll_same m.dyns[i].cls 0 key hk (k + 1) _ _ g5
  refine ⟨⟨m.next, Function.update m.cell 0 (List.replicate (k + 1) ⟨key, .known⟩), m.dyns.set i { m.dyns[i] with it := 1, trackIt := m.dyns[i].trackIt + 1, hist := h' }⟩, _, ?_,
    List.getElem?_set_self hi', e2⟩
  rw [tExec_append, h1]
  simp only [Except.bind, tExec, TOp.exec, tStep, List.getElem?_eq_getElem hi', g2, g3, g4, h2, e1]
  rfl

/-- Two dynamics made from one dictionary `{'names': ['x'], 'extra_tracks': []}`: the first one now records everything twice. -/
example : ∃ (m : TMem) (d : TDyn), tExec [.new Example.cboCls ⟨some ["x"], none, .fresh []⟩, .new Example.cboCls ⟨some ["x"], none, .reuse 0⟩, .step 0] TMem.empty = .ok m ∧ m.dyns[0]? = some d ∧
    d.hist "x" = some [none, some 0, some 0] := C94_shared_false Example.cboCls "x" (by decide) (by decide) 1 0 (by omega)

/-- **C94 is false when a list `extra_tracks` is used for two dynamics with different names**: constructing the second one makes every step of the first one raise `KeyError`. -/
theorem C94_key_false (c : Cls) (k1 k2 : String) (h1 : c.known k1 = true) (h2 : c.known k2 = true) (hne : k1 ≠ k2) (hd1 : k1 ≠ "drift") (hd2 : k2 ≠ "drift") :
    tExec [.new c ⟨some [k1], none, .fresh []⟩, .new c ⟨some [k2], none, .reuse 0⟩, .step 0] TMem.empty = .error .key := by
  have e1 : Tracker.keys ⟨k1, .known⟩ = [k1] := by unfold Tracker.keys; rw [if_neg (by simp [hd1])]
  have e2 : Tracker.keys ⟨k2, .known⟩ = [k2] := by unfold Tracker.keys; rw [if_neg (by simp [hd2])]
  simp [tExec, TOp.exec, tNew, tStep, TMem.empty, namedTrackers, h1, h2, Bind.bind, Except.bind, Pure.pure, Except.pure, trackAll, Tracker.update, e1, e2, startHist, Tracker.start, THist.append,
    Function.update_self, Function.update_of_ne hne.symm]

example : tExec [.new Example.cboCls ⟨some ["x"], none, .fresh []⟩, .new Example.cboCls ⟨some ["energy"], none, .reuse 0⟩, .step 0] TMem.empty = .error .key :=
  C94_key_false Example.cboCls "x" "energy" (by decide) (by decide) (by decide) (by decide) (by decide)

/-- **C94 is false for attributes recorded by name through a shared list**: a step of a dynamic that lacks the attribute switches the trackers off for another dynamic, which has it. -/
theorem C94_off_false (c c' : Cls) (key : String) (h1 : c.known key = false) (h2 : c'.known key = false) (h3 : c.attr key = false) (_h4 : c'.attr key = true) :
    ∃ (m : TMem) (d : TDyn), tExec [.new c ⟨some [key], none, .fresh []⟩, .new c' ⟨some [key], none, .reuse 0⟩, .step 0, .step 1] TMem.empty = .ok m ∧ m.dyns[1]? = some d ∧ d.hist key = some [] := by
  have e : Tracker.keys ⟨key, .deflt true⟩ = [key] := Tracker.deflt_keys rfl
  simp [tExec, TOp.exec, tNew, tStep, TMem.empty, namedTrackers, h1, h2, h3, Bind.bind, Except.bind, Pure.pure, Except.pure, trackAll, Tracker.update, e, startHist, Tracker.start]

/-- A class with the attribute `y` and one without. -/
example : ∃ (m : TMem) (d : TDyn), tExec [.new Example.cboCls ⟨some ["y"], none, .fresh []⟩, .new ⟨Example.cboCls.known, fun k => k ∈ ["y", "x"]⟩ ⟨some ["y"], none, .reuse 0⟩, .step 0, .step 1] TMem.empty = .ok m ∧
    m.dyns[1]? = some d ∧ d.hist "y" = some [] := C94_off_false _ _ "y" (by decide) (by decide) (by decide) (by decide)

end Verif
