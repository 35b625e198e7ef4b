import Verif.Proofs.Heap
import Verif.Proofs.Total
import Verif.Spec.Example

/-! Property C40: the first history entry and the caller's data. -/

set_option linter.unusedSectionVars false

namespace Verif

section
variable {K V : Type} [Zero K] [One K] [Neg K] [Add K] [Sub K] [Mul K] [Inv K] [Div K] [NatCast K] [Pow K ℕ] [LinearOrder K] [Add V] [Sub V] [SMul K V]

/-- **C40 (caller's data).** Whatever is executed after construction, `reset()` included, the array the caller passed as `x` keeps its content, for dynamics of both styles. Moreover the
references always lead to the numbers of the value model: `self.x`, `self.x_old`, and, while positions are recorded, all history entries after the first one. -/
theorem C40_caller (env : Env K V) (inner : St K V → Except Err (St K V)) (hi : InnerFrame inner) (m : Mem V) (hpost : PostMap env m.map) (a : Args K V)
    (s₀ : St K V) (h0 : init env a = .ok s₀) (hn : a.tracks.Nodup) (ops : List Op) (q : St K V × Refs V)
    (h : refExecAll env inner m ops (s₀, Refs.start a.x0) = .ok q) :
    q.2.cell q.2.caller = a.x0 ∧ execAll env inner ops s₀ = .ok q.1 ∧ q.2.cell q.2.x = q.1.x ∧ (∀ o, q.2.xOld = some o → q.1.xOld = some (q.2.cell o)) ∧
    (Track.x ∈ q.1.tracks → ((q.2.hist.map fun b => Entry.x (q.2.cell b)).drop 1 : List (Entry K V)) = (q.1.hist .x).drop 1 ∧
      q.2.hist.length = (q.1.hist .x).length) := by
  have tr := (init_x_tracks h0).2.1
  obtain ⟨I, h1⟩ := refInv_execAll hi hpost (u := a.x0) (by rw [tr]; exact hn) (refInv_start h0) h
  refine ⟨I.cval, h1, I.x, fun o ho => (I.old o ho).2.2, fun ht => ?_⟩
  obtain ⟨b, l, e, g1, -, -, g4⟩ := I.hist ht
  constructor
  · rw [g1, g4]
    simp
  · rw [g1, g4]
    simp

/-- C40, `reset()`: afterwards positions are not recorded any more, whatever is executed: `history['x']` does not exist, although the user asked for it. -/
theorem C40_reset_false (env : Env K V) (inner : St K V → Except Err (St K V)) (hi : InnerFrame inner) (m : Mem V) (ops : List Op) (p q : St K V × Refs V)
    (h : refExecAll env inner m (.reset :: ops) p = .ok q) : q.2.hist = [] ∧ Track.x ∉ q.1.tracks := by
  have key : ∀ (ops : List Op) (p q : St K V × Refs V), p.2.hist = [] → Track.x ∉ p.1.tracks → refExecAll env inner m ops p = .ok q →
      q.2.hist = [] ∧ Track.x ∉ q.1.tracks := by
    intro ops
    induction ops with
    | nil =>
      intro p q h1 h2 h
      simp only [refExecAll] at h
      injection h with h
      subst h
      exact ⟨h1, h2⟩
    | cons o l ih =>
      intro p q h1 h2 h
      simp only [refExecAll, bind_ok] at h
      obtain ⟨b, hb, h⟩ := h
      refine ih b q ?_ ?_ h
      · cases o with
        | step =>
          obtain ⟨v, -, -, hv⟩ := refStep_split.1 hb
          rw [hv, if_neg (fun hc => h2 hc.2), ← h1]
          obtain ⟨st, copy, nan, clip⟩ := m
          cases st <;> cases copy <;> rfl
        | reset =>
          simp only [refExec] at hb
          injection hb with hb
          rw [← hb]
        | select =>
          simp only [refExec, bind_ok, pure_ok] at hb
          obtain ⟨s, -, rfl⟩ := hb
          exact h1
        | sched =>
          simp only [refExec, bind_ok, pure_ok] at hb
          obtain ⟨s, -, rfl⟩ := hb
          exact h1
      · cases o with
        | step =>
          obtain ⟨v, e1, e2, -⟩ := refStep_split.1 hb
          rw [(step_frame hi (step_split.2 ⟨v, e1, e2⟩)).tracks]
          exact h2
        | reset =>
          simp only [refExec] at hb
          injection hb with hb
          rw [← hb]
          simp [reset, initHistory]
        | select =>
          simp only [refExec, bind_ok, pure_ok] at hb
          obtain ⟨s, hs, rfl⟩ := hb
          simp only [exec] at hs
          rw [select_frame hs]
          exact h2
        | sched =>
          simp only [refExec, bind_ok, pure_ok] at hb
          obtain ⟨s, hs, rfl⟩ := hb
          simp only [exec] at hs
          rw [sched_frame hs]
          exact h2
  simp only [refExecAll, refExec, bind_ok] at h
  obtain ⟨b, hb, h⟩ := h
  injection hb with hb
  subst hb
  exact key ops _ q rfl (by simp [reset, initHistory]) h

/-- **C40 (first entry, dynamics that bind a new array).** For MirrorCBO, HyperSurfaceCBO, RegCombinationCBO and every other dynamic that assigns a new array to `self.x`,
`history['x'][0]` is the initial ensemble for ever. -/
theorem C40_rebind (env : Env K V) (inner : St K V → Except Err (St K V)) (m : Mem V) (hm : m.style = .rebind) (x0 : Mat V)
    (s₀ : St K V) (ops : List Op) (hr : Op.reset ∉ ops) (q : St K V × Refs V) (h : refExecAll env inner m ops (s₀, Refs.start x0) = .ok q) :
    ∃ b, q.2.hist.head? = some b ∧ q.2.cell b = x0 := by
  by_cases hs : Op.step ∈ ops
  · obtain ⟨pre, post, rfl, hpre⟩ := List.eq_append_cons_of_mem hs
    obtain ⟨p, h1, h2⟩ := refExecAll_append.1 h
    have e1 := refExecAll_nostep (by simp_all) hpre h1
    simp only [refExecAll, bind_ok] at h2
    obtain ⟨w, hw, h2⟩ := h2
    obtain ⟨v, -, -, hv⟩ := refStep_split.1 hw
    have hx : p.2.x < p.2.next := by rw [e1]; exact Nat.lt_succ_self 1
    obtain ⟨-, f2, -, f4, f5, -, -, -, f9⟩ := afterStep_facts m v.x p.2 hx
    rw [hm] at f9
    simp only at f9
    have px : p.2.x = 1 := by rw [e1]; rfl
    have pn : p.2.next = 2 := by rw [e1]; rfl
    have ph : p.2.hist = [1] := by rw [e1]; rfl
    have pc : p.2.cell 1 = x0 := by rw [e1]; rfl
    rw [px, pc] at f9
    have key : w.2.x < w.2.next ∧ 1 < w.2.next ∧ 1 ≠ w.2.x ∧ w.2.hist.head? = some 1 ∧ w.2.cell 1 = x0 := by
      split_ifs at hv
      · rw [hv]
        simp only [Refs.record, Refs.alloc]
        refine ⟨by omega, by omega, by omega, by rw [f2, ph]; rfl, ?_⟩
        rw [if_neg (by omega), f9]
      · rw [hv]
        exact ⟨f5, by omega, by omega, by rw [f2, ph]; rfl, f9⟩
    obtain ⟨k1, k2⟩ := refExecAll_keep (by simp_all) key.1 key.2.1 key.2.2.1 key.2.2.2.1 h2
    exact ⟨1, k2, by rw [k1, key.2.2.2.2]⟩
  · rw [refExecAll_nostep hr hs h]
    exact ⟨1, rfl, rfl⟩

/-- **C40, disagreement (first entry, dynamics that write in place).** For CBO and the other dynamics that update `self.x` in place, the first step overwrites `history['x'][0]` with
the numbers `v` it computed (after the in-place replacement of NaN), and that is what stays there. -/
theorem C40_inplace_false (env : Env K V) (inner : St K V → Except Err (St K V)) (m : Mem V) (hm : m.style = .inPlace) (x0 : Mat V)
    (s₀ : St K V) (pre post : List Op) (hpre : Op.step ∉ pre) (hr : Op.reset ∉ pre ++ Op.step :: post) (q : St K V × Refs V)
    (h : refExecAll env inner m (pre ++ Op.step :: post) (s₀, Refs.start x0) = .ok q) :
    ∃ s v b, refExecAll env inner m pre (s₀, Refs.start x0) = .ok (s, Refs.start x0) ∧ inner (preStep env s) = .ok v ∧ q.2.hist.head? = some b ∧
      q.2.cell b = m.leftover v.x := by
  obtain ⟨p, h1, h2⟩ := refExecAll_append.1 h
  have e1 := refExecAll_nostep (by simp_all) hpre h1
  simp only [refExecAll, bind_ok] at h2
  obtain ⟨w, hw, h2⟩ := h2
  obtain ⟨v, hvv, -, hv⟩ := refStep_split.1 hw
  have hx : p.2.x < p.2.next := by rw [e1]; exact Nat.lt_succ_self 1
  obtain ⟨-, f2, -, f4, f5, -, -, -, f9⟩ := afterStep_facts m v.x p.2 hx
  rw [hm] at f9
  simp only at f9
  have px : p.2.x = 1 := by rw [e1]; rfl
  have pn : p.2.next = 2 := by rw [e1]; rfl
  have ph : p.2.hist = [1] := by rw [e1]; rfl
  rw [px] at f9
  have key : w.2.x < w.2.next ∧ 1 < w.2.next ∧ 1 ≠ w.2.x ∧ w.2.hist.head? = some 1 ∧ w.2.cell 1 = m.leftover v.x := by
    split_ifs at hv
    · rw [hv]
      simp only [Refs.record, Refs.alloc]
      refine ⟨by omega, by omega, by omega, by rw [f2, ph]; rfl, ?_⟩
      rw [if_neg (by omega), f9]
    · rw [hv]
      exact ⟨f5, by omega, by omega, by rw [f2, ph]; rfl, f9⟩
  obtain ⟨k1, k2⟩ := refExecAll_keep (by simp_all) key.1 key.2.1 key.2.2.1 key.2.2.2.1 h2
  refine ⟨p.1, v, 1, ?_, hvv, k2, by rw [k1, key.2.2.2.2]⟩
  rw [h1]
  congr 1
  exact Prod.ext rfl e1

/-- C40, disagreement: `history['x'][0]` and `history['x'][1]` of CBO are equal whenever clipping changes nothing in the first step (`save_int = 1`), whatever the initial ensemble was. -/
theorem C40_equal_false (env : Env K V) (inner : St K V → Except Err (St K V)) (m : Mem V) (hm : m.style = .inPlace)
    (hclip : m.clip = id) (a : Args K V) (s₀ : St K V) (h0 : init env a = .ok s₀)
    (hsave : a.saveInt = 1) (ht : Track.x ∈ a.tracks) (q : St K V × Refs V)
    (h : refExecAll env inner m [.step] (s₀, Refs.start a.x0) = .ok q) :
    ∃ b c, q.2.hist = [b, c] ∧ q.2.cell b = q.2.cell c := by
  have tr := (init_x_tracks h0).2.1
  have sv : s₀.saveInt = 1 := by
    rw [← hsave]
    unfold init at h0
    split_ifs at h0 <;> (injection h0 with h0; rw [← h0]; rfl)
  simp only [refExecAll, bind_ok] at h
  obtain ⟨w, hw, h⟩ := h
  injection h with h
  subst h
  obtain ⟨v, hvv, hs, hv⟩ := refStep_split.1 hw
  obtain ⟨-, f2, -, f4, f5, f6, -, -, f9⟩ := afterStep_facts m v.x (Refs.start a.x0) (Nat.lt_succ_self 1)
  rw [hm] at f9
  simp only at f9
  rw [if_pos ⟨by rw [sv]; exact Nat.mod_one _, by rw [tr]; exact ht⟩] at hv
  have px : (Refs.start a.x0).x = 1 := rfl
  have pn : (Refs.start a.x0).next = 2 := rfl
  have ph : (Refs.start a.x0).hist = [1] := rfl
  rw [px] at f9
  rw [hv]
  refine ⟨1, _, by simp only [Refs.record]; rw [f2, ph]; rfl, ?_⟩
  simp only [Refs.record, Refs.alloc, if_true]
  rw [if_neg (by omega), f9, f6]
  unfold Mem.leftover Mem.map
  rw [hclip]
  cases m.copy <;> rfl

/-- C40, disagreement: the list of extra trackers is the caller's list, so a second dynamic built from the same `track_args` gets every named tracker twice. -/
theorem C40_extra_tracks_false (extra names : List Track) (t : Track) (ht : t ∈ names) :
    ¬ (initTracks (initTracks extra names).2 names).1.Nodup ∧ ((initTracks extra names).2 = extra → names = []) := by
  refine ⟨?_, ?_⟩
  · simp only [initTracks]
    intro h
    rw [List.nodup_append] at h
    exact h.2.2 t (List.mem_append_right _ ht) t ht rfl
  · simp [initTracks]

end

namespace Example

/-- CBO with the default post processing: writes in place, nothing to replace, clipping at 100. -/
def cboMem : Mem ℚ := { style := .inPlace, copy := false, nan := id, clip := fun v => max (-100) (min 100 v) }

/-- Contents of the first history entry and of the caller's array after the given operations. -/
def firstEntry (m : Mem ℚ) (ops : List Op) : Option (List ℚ × List ℚ × List ℚ) :=
  match refExecAll env (cboInner env) m ops (start [] none, Refs.start (args [] none).x0) with
  | .ok q => some ((q.2.hist.head?.map fun b => (q.2.cell b).row 0).getD [], (q.2.cell q.2.caller).row 0, ((start [] none).x.row 0))
  | .error _ => none

/-- The post processing of the example has the required form. -/
theorem cboMem_post : PostMap env cboMem.map := fun _ => rfl

end Example

/-- C40, disagreement on a concrete run: CBO, two steps; the first history entry differs from the initial ensemble, which the caller still has. -/
theorem C40_first_false : (match Example.firstEntry Example.cboMem [.select, .step, .sched, .select, .step, .sched] with
    | some (first, caller, start) => decide (first ≠ start ∧ caller = start)
    | none => false) = true := by decide +kernel

/-- C40: the same run with a dynamic that binds a new array keeps the entry. -/
example : (match Example.firstEntry { Example.cboMem with style := .rebind } [.select, .step, .sched, .select, .step, .sched] with
    | some (first, caller, start) => decide (first = start ∧ caller = start)
    | none => false) = true := by decide +kernel

/-- C40: two steps, `reset()`, two more steps: the caller's array is still the initial ensemble, and there is no position history. -/
example : (match refExecAll Example.env (cboInner Example.env) Example.cboMem [.select, .step, .step, .reset, .step, .step]
      (Example.start [] none, Refs.start (Example.args [] none).x0) with
    | .ok q => decide ((q.2.cell q.2.caller).row 0 = (Example.start [] none).x.row 0 ∧ q.2.hist = [] ∧ Track.x ∈ (Example.start [] none).tracks)
    | .error _ => false) = true := by decide +kernel

/-- C40: the hypotheses of the theorems hold for the example. -/
example : (Example.args [] none).tracks.Nodup ∧ Track.x ∈ (Example.args [] none).tracks ∧ InnerFrame (cboInner Example.env) ∧ PostMap Example.env Example.cboMem.map :=
  ⟨by decide, by decide, consThen_frame (cboMove_ok _), Example.cboMem_post⟩

end Verif
