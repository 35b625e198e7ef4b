import Verif.Model.TorchParams
import Verif.Spec.TorchParams
import Verif.Proofs.Np

/-! Helper lemmas for `Props/TorchParams.lean`. -/

namespace Verif

variable {α : Type}

/-- Well-formed stacked parameters of `N` models. -/
structure GoodParams (ps : NetParams α) (N : ℕ) : Prop where
  ne : ps ≠ []
  rows : ∀ e ∈ ps, e.2.rows.length = N
  size : ∀ e ∈ ps, ∀ r ∈ e.2.rows, r.length = e.2.shape.prod

theorem lookup_mem {β : Type} {l : List (String × β)} {k : String} {v : β} (h : l.lookup k = some v) : (k, v) ∈ l := by
  induction l with
  | nil => cases h
  | cons e l ih =>
    obtain ⟨a, b⟩ := e
    rw [List.lookup_cons] at h
    split at h
    · rename_i hk
      injection h with h
      rw [beq_iff_eq] at hk
      subst hk h
      exact List.mem_cons_self
    · exact List.mem_cons_of_mem _ (ih h)

theorem getParam_mem {ps : NetParams α} {p : String} {s : Stacked α} (h : getParam ps p = .ok s) : (p, s) ∈ ps := by
  unfold getParam at h
  split at h
  · rename_i e; injection h with h; subst h; exact lookup_mem e
  · cases h

/-- Expected offsets of the parameters `gs` from position `a` on. -/
def layout (a : ℕ) : List (String × Stacked α) → List (String × PProp)
  | [] => []
  | (p, s) :: l => (p, ⟨s.shape, a, a + s.shape.prod⟩) :: layout (a + s.shape.prod) l

theorem layout_fst (a : ℕ) (l : List (String × Stacked α)) : (layout a l).map (·.1) = l.map (·.1) := by
  induction l generalizing a with
  | nil => rfl
  | cons e l ih => obtain ⟨p, s⟩ := e; simp only [layout, List.map_cons, ih]

theorem odSet_new {β : Type} (d : List (String × β)) (k : String) (v : β) (h : k ∉ d.map (·.1)) : odSet d k v = d ++ [(k, v)] := by
  unfold odSet
  rw [if_neg]
  intro hc
  rw [List.any_eq_true] at hc
  obtain ⟨e, he, hk⟩ := hc
  exact h (List.mem_map.2 ⟨e, he, by simpa using hk⟩)

/-- End of the offsets collected so far, `torch_utils.py:161-163`. -/
def endOf (d : List (String × PProp)) : ℕ := match d.getLast? with
  | some e => e.2.stop
  | none => 0

theorem fold_props {ps : NetParams α} : ∀ (names : List String) (d pp : List (String × PProp)),
    names.foldlM (pstep ps) d = .ok pp → names.Nodup → (∀ p ∈ names, p ∉ d.map (·.1)) →
    ∃ gs : List (Stacked α), gather ps names = .ok gs ∧ pp = d ++ layout (endOf d) (names.zip gs) := by
  intro names
  induction names with
  | nil =>
    intro d pp h _ _
    simp only [List.foldlM_nil, pure, Except.pure, Except.ok.injEq] at h
    exact ⟨[], rfl, by simp [layout, h]⟩
  | cons p names ih =>
    intro d pp h hn hd
    simp only [List.foldlM_cons, bind_ok] at h
    obtain ⟨d', h1, h2⟩ := h
    simp only [pstep, bind_ok, pure_ok] at h1
    obtain ⟨s, hs, rfl⟩ := h1
    rw [odSet_new _ _ _ (hd p List.mem_cons_self)] at h2
    rw [List.nodup_cons] at hn
    obtain ⟨gs, g1, g2⟩ := ih _ pp h2 hn.2 (by
      intro q hq
      simp only [List.map_append, List.map_cons, List.map_nil, List.mem_append, List.mem_singleton, not_or]
      exact ⟨hd q (List.mem_cons_of_mem _ hq), fun e => hn.1 (e ▸ hq)⟩)
    refine ⟨s :: gs, ?_, ?_⟩
    · unfold gather at g1 ⊢
      rw [List.mapM_cons, hs]
      simp only [bind, Except.bind]
      rw [g1]
      rfl
    · have hend : ∀ (d : List (String × PProp)) (e : String × PProp), endOf (d ++ [e]) = e.2.stop := by
        intro d e
        simp [endOf]
      rw [g2, List.zip_cons_cons, hend]
      simp only [layout, List.append_assoc, List.cons_append, List.nil_append]
      rfl

theorem gather_length {ps : NetParams α} {names : List String} {gs : List (Stacked α)} (h : gather ps names = .ok gs) :
    gs.length = names.length ∧ ∀ (i : ℕ) (p : String) (s : Stacked α), names[i]? = some p → gs[i]? = some s → getParam ps p = .ok s := by
  induction names generalizing gs with
  | nil =>
    simp only [gather, List.mapM_nil, pure, Except.pure, Except.ok.injEq] at h
    subst h
    exact ⟨rfl, by simp⟩
  | cons q names ih =>
    simp only [gather, List.mapM_cons, bind_ok, pure_ok] at h
    obtain ⟨s, h1, l, h2, rfl⟩ := h
    obtain ⟨i1, i2⟩ := ih h2
    refine ⟨by simp [i1], ?_⟩
    intro i p t hp ht
    cases i with
    | zero => simp at hp ht; subst hp ht; exact h1
    | succ i => exact i2 i p t (by simpa using hp) (by simpa using ht)

theorem gather_total {ps : NetParams α} {names : List String} (h : ∀ p ∈ names, p ∈ ps.map (·.1)) : ∃ gs, gather ps names = .ok gs := by
  induction names with
  | nil => exact ⟨[], rfl⟩
  | cons p names ih =>
    obtain ⟨gs, hg⟩ := ih fun q hq => h q (List.mem_cons_of_mem _ hq)
    have : ∃ s, getParam ps p = .ok s := by
      obtain ⟨e, he, hp⟩ := List.mem_map.1 (h p List.mem_cons_self)
      have : (ps.lookup p).isSome := by
        rw [List.lookup_isSome_iff]
        exact ⟨e, he, by simp [hp]⟩
      obtain ⟨s, hs⟩ := Option.isSome_iff_exists.1 this
      exact ⟨s, by unfold getParam; rw [hs]⟩
    obtain ⟨s, hs⟩ := this
    refine ⟨s :: gs, ?_⟩
    unfold gather at hg ⊢
    rw [List.mapM_cons, hs]
    simp only [bind, Except.bind]
    rw [hg]
    rfl

theorem props_total {ps : NetParams α} : ∀ (names : List String) (d : List (String × PProp)), (∀ p ∈ names, p ∈ ps.map (·.1)) →
    ∃ pp, names.foldlM (pstep ps) d = .ok pp := by
  intro names
  induction names with
  | nil => intro d _; exact ⟨d, rfl⟩
  | cons p names ih =>
    intro d h
    obtain ⟨gs, hg⟩ := gather_total (ps := ps) (names := [p]) fun q hq => h q (by simp at hq; simp [hq])
    simp only [gather, List.mapM_cons, List.mapM_nil, bind_ok, pure_ok] at hg
    obtain ⟨s, hs, -⟩ := hg
    obtain ⟨pp, hpp⟩ := ih (odSet d p ⟨s.shape, endOf d, endOf d + s.shape.prod⟩) fun q hq => h q (List.mem_cons_of_mem _ hq)
    refine ⟨pp, ?_⟩
    rw [List.foldlM_cons]
    have : pstep ps d p = .ok (odSet d p ⟨s.shape, endOf d, endOf d + s.shape.prod⟩) := by
      unfold pstep
      rw [hs]
      rfl
    rw [this]
    exact hpp

theorem layout_tiles (a : ℕ) (l : List (String × Stacked α)) :
    Tiles a (a + (l.map fun e => e.2.shape.prod).sum) ((layout a l).map fun e => (e.2.start, e.2.stop)) := by
  induction l generalizing a with
  | nil => simp [layout, Tiles]
  | cons e l ih =>
    obtain ⟨p, s⟩ := e
    refine ⟨rfl, by simp, ?_⟩
    have := ih (a + s.shape.prod)
    simpa [Nat.add_assoc] using this

theorem unflatten_layout (l : List (String × Stacked α)) (ds : List (List α)) (hl : ds.length = l.length)
    (hd : ∀ (i : ℕ) (e : String × Stacked α) (d : List α), l[i]? = some e → ds[i]? = some d → d.length = e.2.shape.prod) :
    ∀ w₀ : List α, unflatten (w₀ ++ ds.flatten) (layout w₀.length l) = .ok ((l.zip ds).map fun e => (e.1.1, ⟨e.1.2.shape, e.2⟩)) := by
  induction l generalizing ds with
  | nil => intro w₀; rfl
  | cons e l ih =>
    obtain ⟨p, s⟩ := e
    intro w₀
    cases ds with
    | nil => simp at hl
    | cons d ds =>
      have h0 := hd 0 _ _ rfl rfl
      have := ih ds (by simpa using hl) (fun i e d h1 h2 => hd (i + 1) e d (by simpa using h1) (by simpa using h2)) (w₀ ++ d)
      unfold unflatten at this ⊢
      simp only [layout, List.mapM_cons]
      have e1 : sliceView (w₀ ++ (d :: ds).flatten) ⟨s.shape, w₀.length, w₀.length + s.shape.prod⟩ = .ok ⟨s.shape, d⟩ := by
        unfold sliceView
        have : (((w₀ ++ (d :: ds).flatten).drop w₀.length).take (w₀.length + s.shape.prod - w₀.length)) = d := by
          rw [Nat.add_sub_cancel_left, List.drop_left, List.flatten_cons, ← h0, List.take_left]
        simp only [this]
        rw [if_pos h0]
      rw [e1]
      simp only [bind, Except.bind, pure, Except.pure]
      rw [List.length_append, h0, List.append_assoc, ← List.flatten_cons] at this
      simp only [bind, Except.bind, pure, Except.pure] at this
      rw [this]
      rfl

theorem flattenParams_ok {ps : NetParams α} {N : ℕ} (hg : GoodParams ps N) {names : List String} {gs : List (Stacked α)}
    (h : gather ps names = .ok gs) (hne : names ≠ []) :
    flattenParams ps names = .ok ((List.range N).map fun n => (gs.map fun s => s.rows.getD n []).flatten) := by
  have hgl := (gather_length h).1
  unfold flattenParams
  rcases hl : ps.getLast? with _ | l
  · exact absurd (List.getLast?_eq_none_iff.1 hl) hg.ne
  · have hr := hg.rows l (List.mem_of_getLast? hl)
    simp only [bind, Except.bind]
    rw [h]
    simp only
    rw [if_neg (by intro e; subst e; exact hne (List.length_eq_zero_iff.1 hgl.symm)), hr]
    rfl

theorem gather_rows {ps : NetParams α} {N : ℕ} (hg : GoodParams ps N) {names : List String} {gs : List (Stacked α)}
    (h : gather ps names = .ok gs) {s : Stacked α} (hs : s ∈ gs) {n : ℕ} (hn : n < N) :
    (s.rows.getD n []).length = s.shape.prod ∧ s.rows[n]? = some (s.rows.getD n []) := by
  obtain ⟨i, hi, rfl⟩ := List.mem_iff_getElem.1 hs
  obtain ⟨g1, g2⟩ := gather_length h
  have hm := getParam_mem (g2 i (names[i]'(by omega)) gs[i] (List.getElem?_eq_getElem _) (List.getElem?_eq_getElem _))
  have hr := hg.rows _ hm
  simp only at hr
  have hlt : n < gs[i].rows.length := by omega
  have e : gs[i].rows.getD n [] = gs[i].rows[n] := by
    rw [List.getD_eq_getElem?_getD, List.getElem?_eq_getElem hlt]
    rfl
  rw [e]
  exact ⟨hg.size _ hm _ (List.getElem_mem hlt), List.getElem?_eq_getElem hlt⟩

/-- Two models with parameters `a` (one entry), `b` (shape (1, 2)) and `c` (one entry). -/
def Example.params : NetParams ℤ := [("a", ⟨[1], [[1], [5]]⟩), ("b", ⟨[1, 2], [[2, 3], [6, 7]]⟩), ("c", ⟨[], [[4], [8]]⟩)]

end Verif
