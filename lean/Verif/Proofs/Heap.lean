import Verif.Model.Heap
import Verif.Spec.Post
import Verif.Proofs.Hist

/-! Lemmas on the model with references. -/

set_option linter.unusedSectionVars false

namespace Verif

section
variable {K V : Type} [Zero K] [One K] [Neg K] [Add K] [Sub K] [Mul K] [Inv K] [Div K] [NatCast K] [Pow K ℕ] [LinearOrder K] [Add V] [Sub V] [SMul K V]

/-- The map of the default post processing on one particle. -/
def Mem.map (m : Mem V) : V → V := if m.copy then m.clip else m.clip ∘ m.nan

/-- What is left in the array in which an in-place inner step wrote `v`. -/
def Mem.leftover (m : Mem V) (v : Mat V) : Mat V := if m.copy then v else v.map m.nan

/-- References after a step, before recording. -/
def Refs.afterStep (m : Mem V) (v : Mat V) (r : Refs V) : Refs V := ((r.saveOld.inner m.style v).post m.copy m.nan m.clip)

theorem map_map {α β γ : Type} (a : Mat α) (f : α → β) (g : β → γ) : (a.map f).map g = a.map (g ∘ f) := rfl

theorem afterStep_facts (m : Mem V) (v : Mat V) (r : Refs V) (hx : r.x < r.next) :
    (r.afterStep m v).caller = r.caller ∧ (r.afterStep m v).hist = r.hist ∧ (r.afterStep m v).xOld = some r.next ∧
    r.next < (r.afterStep m v).x ∧ (r.afterStep m v).x < (r.afterStep m v).next ∧
    (r.afterStep m v).cell (r.afterStep m v).x = v.map m.map ∧ (r.afterStep m v).cell r.next = r.cell r.x ∧
    (∀ a, a < r.next → a ≠ r.x → (r.afterStep m v).cell a = r.cell a) ∧
    (r.afterStep m v).cell r.x = (match m.style with
      | .inPlace => m.leftover v
      | .rebind => r.cell r.x) := by
  obtain ⟨st, copy, nan, clip⟩ := m
  have x1 : r.x ≠ r.next := by omega
  have x2 : r.x ≠ r.next + 1 := by omega
  have x3 : r.x ≠ r.next + 1 + 1 := by omega
  have x4 : r.next ≠ r.x := by omega
  cases st <;> cases copy <;>
    simp only [Refs.afterStep, Refs.inner, Refs.post, Refs.saveOld, Refs.write, Refs.bind, Refs.alloc, Mem.map, Mem.leftover, if_true, if_false,
      Bool.false_eq_true] <;>
    refine ⟨trivial, trivial, trivial, by omega, by omega, ?_, ?_, ?_, ?_⟩
  all_goals try intro a h1 h2
  all_goals try have y1 : a ≠ r.next := by omega
  all_goals try have y2 : a ≠ r.next + 1 := by omega
  all_goals try have y3 : a ≠ r.next + 1 + 1 := by omega
  all_goals first
    | trivial
    | rfl
    | (simp [y1, y2, y3, h2]; done)
    | (simp [x1, x2, x3, x4, map_map]; done)
    | (rw [if_neg (show r.next ≠ r.next + 1 + 1 by omega)]; simp [x4]; done)
    | (simp; done)

/-- Invariant: references and values agree. `u` is the content of the caller's array. -/
structure RefInv (u : Mat V) (p : St K V × Refs V) : Prop where
  x : p.2.cell p.2.x = p.1.x
  xlt : p.2.x < p.2.next
  clt : p.2.caller < p.2.next
  cne : p.2.caller ≠ p.2.x
  cval : p.2.cell p.2.caller = u
  old : ∀ a, p.2.xOld = some a → a < p.2.next ∧ a ≠ p.2.x ∧ p.1.xOld = some (p.2.cell a)
  hist : Track.x ∈ p.1.tracks → ∃ h l e, p.2.hist = h :: l ∧ h < p.2.next ∧ (∀ a ∈ l, a < p.2.next ∧ a ≠ p.2.x) ∧
    p.1.hist .x = e :: l.map fun a => .x (p.2.cell a)

theorem refStep_split {env : Env K V} {inner : St K V → Except Err (St K V)} {m : Mem V} {p q : St K V × Refs V} :
    refStep env inner m p = .ok q ↔ ∃ v, inner (preStep env p.1) = .ok v ∧ postStep env v = .ok q.1 ∧
      q.2 = if p.1.it % p.1.saveInt = 0 ∧ Track.x ∈ p.1.tracks then (p.2.afterStep m v.x).record else p.2.afterStep m v.x := by
  simp only [refStep, bind_ok, pure_ok]
  constructor
  · rintro ⟨v, hv, s, hs, rfl⟩
    exact ⟨v, hv, hs, rfl⟩
  · rintro ⟨v, hv, hs, he⟩
    exact ⟨v, hv, q.1, hs, by rw [← Refs.afterStep, ← he]⟩

theorem refInv_step {env : Env K V} {inner : St K V → Except Err (St K V)} (hi : InnerFrame inner) {m : Mem V} (hpost : PostMap env m.map) {u : Mat V}
    {p q : St K V × Refs V} (hn : p.1.tracks.Nodup) (I : RefInv u p) (h : refStep env inner m p = .ok q) :
    RefInv u q ∧ step env inner p.1 = .ok q.1 := by
  obtain ⟨v, hv, hs, hr⟩ := refStep_split.1 h
  have hst : step env inner p.1 = .ok q.1 := step_split.2 ⟨v, hv, hs⟩
  obtain ⟨f1, f2, f3, f4, f5, f6, f7, f8, f9⟩ := afterStep_facts m v.x p.2 I.xlt
  have pf := postStep_facts hs
  have hx : v.x.map m.map = q.1.x := by
    have := pf.post
    rw [hpost v] at this
    injection this
  have hold : q.1.xOld = some p.1.x := by
    rw [pf.frame]
    simp only
    rw [hi _ _ hv]
    simp only
    rw [preStep_frame]
  have hh := (step_hist hi hst hn .x).1
  have htr : q.1.tracks = p.1.tracks := (step_frame hi hst).tracks
  refine ⟨?_, hst⟩
  by_cases hc : p.1.it % p.1.saveInt = 0 ∧ Track.x ∈ p.1.tracks
  · rw [if_pos hc] at hr
    rw [if_pos hc] at hh
    obtain ⟨h0, l, e, g1, g2, g3, g4⟩ := I.hist hc.2
    have hl : ∀ a ∈ l, (p.2.afterStep m v.x).cell a = p.2.cell a := fun a ha => f8 a (g3 a ha).1 (g3 a ha).2
    set r := p.2.afterStep m v.x with hrdef
    have cellx : ∀ a, a < r.next → q.2.cell a = r.cell a := by
      intro a ha
      rw [hr]
      simp only [Refs.record, Refs.alloc]
      rw [if_neg ha.ne]
    have qx : q.2.x = r.x := by rw [hr]; rfl
    have qn : q.2.next = r.next + 1 := by rw [hr]; rfl
    have qc : q.2.caller = r.caller := by rw [hr]; rfl
    have qo : q.2.xOld = r.xOld := by rw [hr]; rfl
    have qh : q.2.hist = r.hist ++ [r.next] := by rw [hr]; rfl
    have qnew : q.2.cell r.next = q.1.x := by
      rw [hr]
      simp only [Refs.record, Refs.alloc, if_true]
      rw [f6, hx]
    have hcl := I.clt
    refine ⟨?_, ?_, ?_, ?_, ?_, ?_, ?_⟩
    · rw [qx, cellx _ f5, f6, hx]
    · rw [qx, qn]; omega
    · rw [qc, qn, f1]; omega
    · rw [qc, qx, f1]; omega
    · rw [qc, f1, cellx _ (by omega), f8 _ hcl I.cne, I.cval]
    · intro a ha
      rw [qo, f3] at ha
      cases ha
      refine ⟨by omega, by omega, ?_⟩
      rw [cellx _ (by omega), f7, I.x, hold]
    · intro _
      refine ⟨h0, l ++ [r.next], e, by rw [qh, f2, g1]; rfl, by omega, ?_, ?_⟩
      · intro a ha
        rcases List.mem_append.1 ha with ha | ha
        · have := g3 a ha
          constructor <;> omega
        · rw [List.mem_singleton] at ha
          subst ha
          constructor <;> omega
      · rw [hh, g4]
        simp only [List.map_append, List.map_cons, List.map_nil, trackEntry, List.cons_append, qnew]
        congr 2
        apply List.map_congr_left
        intro a ha
        have := g3 a ha
        rw [cellx a (by omega), hl a ha]
  · rw [if_neg hc] at hr
    rw [if_neg hc] at hh
    have hcl := I.clt
    rw [← hr] at f1 f2 f3 f4 f5 f6 f7 f8 f9
    refine ⟨by rw [f6, hx], f5, by omega, by omega, by rw [f1, f8 _ hcl I.cne, I.cval], ?_, ?_⟩
    · intro a ha
      rw [f3] at ha
      cases ha
      exact ⟨by omega, by omega, by rw [f7, I.x, hold]⟩
    · intro ht
      rw [htr] at ht
      obtain ⟨h0, l, e, g1, g2, g3, g4⟩ := I.hist ht
      have hl : ∀ a ∈ l, q.2.cell a = p.2.cell a := fun a ha => f8 a (g3 a ha).1 (g3 a ha).2
      refine ⟨h0, l, e, by rw [f2, g1], by omega, ?_, ?_⟩
      · intro a ha
        have := g3 a ha
        constructor <;> omega
      · rw [hh, g4]
        congr 1
        apply List.map_congr_left
        intro a ha
        rw [hl a ha]

theorem refInv_other {env : Env K V} {inner : St K V → Except Err (St K V)} {m : Mem V} {u : Mat V} {o : Op} (ho : o ≠ .step) (hr : o ≠ .reset)
    {p q : St K V × Refs V} (I : RefInv u p) (h : refExec env inner m o p = .ok q) : RefInv u q ∧ q.2 = p.2 ∧ exec env inner o p.1 = .ok q.1 := by
  have key : ∃ s, exec env inner o p.1 = .ok s ∧ q = (s, p.2) := by
    cases o with
    | step => exact absurd rfl ho
    | reset => exact absurd rfl hr
    | select =>
      simp only [refExec, bind_ok, pure_ok] at h
      obtain ⟨s, hs, e⟩ := h
      exact ⟨s, hs, e.symm⟩
    | sched =>
      simp only [refExec, bind_ok, pure_ok] at h
      obtain ⟨s, hs, e⟩ := h
      exact ⟨s, hs, e.symm⟩
  obtain ⟨s, hs, rfl⟩ := key
  have e : s.x = p.1.x ∧ s.xOld = p.1.xOld ∧ s.hist = p.1.hist ∧ s.tracks = p.1.tracks := by
    cases o with
    | step => exact absurd rfl ho
    | reset => exact absurd rfl hr
    | select => rw [select_frame hs]; exact ⟨rfl, rfl, rfl, rfl⟩
    | sched => rw [sched_frame hs]; exact ⟨rfl, rfl, rfl, rfl⟩
  refine ⟨⟨?_, I.xlt, I.clt, I.cne, I.cval, ?_, ?_⟩, rfl, hs⟩
  · rw [e.1]; exact I.x
  · rw [e.2.1]; exact I.old
  · simp only [e.2.2.1, e.2.2.2]; exact I.hist

theorem refInv_exec {env : Env K V} {inner : St K V → Except Err (St K V)} (hi : InnerFrame inner) {m : Mem V} (hpost : PostMap env m.map) {u : Mat V}
    {o : Op} {p q : St K V × Refs V} (hn : p.1.tracks.Nodup) (I : RefInv u p)
    (h : refExec env inner m o p = .ok q) : RefInv u q ∧ exec env inner o p.1 = .ok q.1 ∧ q.1.tracks.Nodup := by
  by_cases hs : o = .step
  · subst hs
    obtain ⟨a, b⟩ := refInv_step hi hpost hn I h
    exact ⟨a, b, by rw [(step_frame hi b).tracks]; exact hn⟩
  · by_cases ho : o = .reset
    · subst ho
      simp only [refExec] at h
      injection h with h
      subst h
      refine ⟨⟨I.x, I.xlt, I.clt, I.cne, I.cval, I.old, ?_⟩, rfl, by simp [reset, initHistory]⟩
      intro ht
      simp [reset, initHistory] at ht
    · obtain ⟨a, -, b⟩ := refInv_other hs ho I h
      exact ⟨a, b, by rw [(exec_noreset ⟨hs, ho⟩ b).2.1]; exact hn⟩

theorem refInv_execAll {env : Env K V} {inner : St K V → Except Err (St K V)} (hi : InnerFrame inner) {m : Mem V} (hpost : PostMap env m.map) {u : Mat V} :
    ∀ {ops : List Op} {p q : St K V × Refs V}, p.1.tracks.Nodup → RefInv u p → refExecAll env inner m ops p = .ok q →
      RefInv u q ∧ execAll env inner ops p.1 = .ok q.1
  | [], p, q, _, I, h => by
    simp only [refExecAll] at h
    injection h with h
    subst h
    exact ⟨I, rfl⟩
  | o :: l, p, q, hn, I, h => by
    simp only [refExecAll, bind_ok] at h
    obtain ⟨a, ha, h⟩ := h
    obtain ⟨b1, b2, b3⟩ := refInv_exec hi hpost hn I ha
    obtain ⟨c1, c2⟩ := refInv_execAll hi hpost b3 b1 h
    exact ⟨c1, by simp only [execAll, bind_ok]; exact ⟨a.1, b2, c2⟩⟩

theorem refExecAll_append {env : Env K V} {inner : St K V → Except Err (St K V)} {m : Mem V} : ∀ {l₁ l₂ : List Op} {p q : St K V × Refs V},
    refExecAll env inner m (l₁ ++ l₂) p = .ok q ↔ ∃ r, refExecAll env inner m l₁ p = .ok r ∧ refExecAll env inner m l₂ r = .ok q
  | [], l₂, p, q => by simp [refExecAll]
  | o :: l, l₂, p, q => by
    simp only [List.cons_append, refExecAll, bind_ok]
    constructor
    · rintro ⟨a, ha, h⟩
      obtain ⟨r, h1, h2⟩ := refExecAll_append.1 h
      exact ⟨r, ⟨a, ha, h1⟩, h2⟩
    · rintro ⟨r, ⟨a, ha, h1⟩, h2⟩
      exact ⟨a, ha, refExecAll_append.2 ⟨r, h1, h2⟩⟩

/-- Value-level facts of construction. -/
theorem init_x_tracks {env : Env K V} {a : Args K V} {s : St K V} (h : init env a = .ok s) :
    s.x = a.x0 ∧ s.tracks = a.tracks ∧ s.hist .x = [.x a.x0] := by
  unfold init at h
  split_ifs at h <;>
    (injection h with h
     rw [← h]
     exact ⟨rfl, rfl, rfl⟩)

theorem refInv_start {env : Env K V} {a : Args K V} {s : St K V} (h : init env a = .ok s) : RefInv a.x0 (s, Refs.start a.x0) := by
  obtain ⟨h1, h2, h3⟩ := init_x_tracks h
  refine ⟨by rw [h1]; rfl, Nat.lt_succ_self 1, Nat.zero_lt_two, Nat.zero_ne_one, rfl, (by intro b hb; cases hb),
    fun _ => ⟨1, [], .x a.x0, rfl, Nat.lt_succ_self 1, by simp, h3⟩⟩

/-- A cell that is not the current `self.x` stays as it is, and does not become `self.x` again. -/
theorem refExec_keep {env : Env K V} {inner : St K V → Except Err (St K V)} {m : Mem V} {o : Op} (ho : o ≠ .reset) {p q : St K V × Refs V}
    (hx : p.2.x < p.2.next) {a : ℕ} (ha : a < p.2.next) (hne : a ≠ p.2.x) (h : refExec env inner m o p = .ok q) :
    q.2.cell a = p.2.cell a ∧ a < q.2.next ∧ a ≠ q.2.x ∧ q.2.x < q.2.next ∧ q.2.hist.head? = p.2.hist.head? ∨ p.2.hist = [] := by
  by_cases hs : o = .step
  · subst hs
    obtain ⟨v, hv, hp, hr⟩ := refStep_split.1 h
    obtain ⟨f1, f2, f3, f4, f5, f6, f7, f8, f9⟩ := afterStep_facts m v.x p.2 hx
    cases hh : p.2.hist with
    | nil => right; rfl
    | cons b l =>
      left
      split_ifs at hr
      · rw [hr]
        simp only [Refs.record, Refs.alloc]
        refine ⟨?_, by omega, by omega, by omega, by rw [f2, hh]; rfl⟩
        rw [if_neg (by omega), f8 a ha hne]
      · rw [hr]
        exact ⟨f8 a ha hne, by omega, by omega, f5, by rw [f2, hh]⟩
  · have : q.2 = p.2 := by
      cases o with
      | step => exact absurd rfl hs
      | reset => exact absurd rfl ho
      | select =>
        simp only [refExec, bind_ok, pure_ok] at h
        obtain ⟨s, -, rfl⟩ := h
        rfl
      | sched =>
        simp only [refExec, bind_ok, pure_ok] at h
        obtain ⟨s, -, rfl⟩ := h
        rfl
    rw [this]
    left
    exact ⟨rfl, ha, hne, hx, rfl⟩

theorem refExecAll_keep {env : Env K V} {inner : St K V → Except Err (St K V)} {m : Mem V} : ∀ {ops : List Op} {p q : St K V × Refs V}, Op.reset ∉ ops →
    p.2.x < p.2.next → ∀ {a : ℕ}, a < p.2.next → a ≠ p.2.x → p.2.hist.head? = some a → refExecAll env inner m ops p = .ok q →
      q.2.cell a = p.2.cell a ∧ q.2.hist.head? = some a
  | [], p, q, _, _, a, _, _, hh, h => by
    simp only [refExecAll] at h
    injection h with h
    subst h
    exact ⟨rfl, hh⟩
  | o :: l, p, q, hr, hx, a, ha, hne, hh, h => by
    simp only [refExecAll, bind_ok] at h
    obtain ⟨b, hb, h⟩ := h
    simp only [List.mem_cons, not_or] at hr
    rcases refExec_keep (Ne.symm hr.1) hx ha hne hb with ⟨k1, k2, k3, k4, k5⟩ | hnil
    · obtain ⟨c1, c2⟩ := refExecAll_keep hr.2 k4 k2 k3 (by rw [k5, hh]) h
      exact ⟨by rw [c1, k1], c2⟩
    · rw [hnil] at hh
      cases hh

/-- Without a step nothing happens to the references. -/
theorem refExecAll_nostep {env : Env K V} {inner : St K V → Except Err (St K V)} {m : Mem V} : ∀ {ops : List Op} {p q : St K V × Refs V}, Op.reset ∉ ops →
    Op.step ∉ ops → refExecAll env inner m ops p = .ok q → q.2 = p.2
  | [], p, q, _, _, h => by
    simp only [refExecAll] at h
    injection h with h
    subst h
    rfl
  | o :: l, p, q, hr, hs, h => by
    simp only [refExecAll, bind_ok] at h
    obtain ⟨b, hb, h⟩ := h
    simp only [List.mem_cons, not_or] at hr hs
    rw [refExecAll_nostep hr.2 hs.2 h]
    cases o with
    | step => exact absurd rfl hs.1
    | reset => exact absurd rfl hr.1
    | select =>
      simp only [refExec, bind_ok, pure_ok] at hb
      obtain ⟨s, -, rfl⟩ := hb
      rfl
    | sched =>
      simp only [refExec, bind_ok, pure_ok] at hb
      obtain ⟨s, -, rfl⟩ := hb
      rfl

end

end Verif
