import Verif.Proofs.TorchParams

/-! Property C55: flattened network parameters round-trip. -/

set_option linter.unusedSectionVars false

namespace Verif

variable {α : Type}

/-- **C55, tiling.** For distinct parameter names the entries of `get_param_properties` are the names in order, each with the shape of
its parameter, and their intervals tile `[0, total)` where `total` is the length of every flattened vector. -/
theorem C55_tiles (ps : NetParams α) (N : ℕ) (hg : GoodParams ps N) (names : List String) (hne : names ≠ []) (hn : names.Nodup)
    (pp : List (String × PProp)) (h : paramProps ps (some names) = .ok pp) :
    ∃ total ws, flattenParams ps names = .ok ws ∧ ws.length = N ∧ (∀ w ∈ ws, w.length = total) ∧ pp.map (·.1) = names ∧
      Tiles 0 total (pp.map fun e => (e.2.start, e.2.stop)) ∧
      ∀ e ∈ pp, ∃ s, getParam ps e.1 = .ok s ∧ e.2.shape = s.shape ∧ e.2.stop = e.2.start + s.shape.prod := by
  obtain ⟨gs, g1, g2⟩ := fold_props names [] pp h hn (by simp)
  obtain ⟨l1, l2⟩ := gather_length g1
  simp only [List.nil_append, endOf, List.getLast?_nil] at g2
  refine ⟨((names.zip gs).map fun e => e.2.shape.prod).sum, _, flattenParams_ok hg g1 hne, by simp, ?_, ?_, ?_, ?_⟩
  · intro w hw
    obtain ⟨n, hnN, rfl⟩ := List.mem_map.1 hw
    rw [List.mem_range] at hnN
    rw [List.length_flatten, List.map_map]
    have e1 : (names.zip gs).map (fun e => e.2.shape.prod) = gs.map fun s => s.shape.prod := by
      have : ((names.zip gs).map Prod.snd).map (fun s => s.shape.prod) = gs.map fun s => s.shape.prod := by
        rw [List.map_snd_zip (by omega)]
      rw [← this, List.map_map]
      rfl
    rw [e1]
    congr 1
    apply List.map_congr_left
    intro s hs
    exact (gather_rows hg g1 hs hnN).1
  · rw [g2, layout_fst, List.map_fst_zip (by omega)]
  · rw [g2]
    have := layout_tiles 0 (names.zip gs)
    rwa [Nat.zero_add] at this
  · have aux : ∀ (l : List (String × Stacked α)) (a : ℕ), (∀ e ∈ l, getParam ps e.1 = .ok e.2) → ∀ e ∈ layout a l,
        ∃ s, getParam ps e.1 = .ok s ∧ e.2.shape = s.shape ∧ e.2.stop = e.2.start + s.shape.prod := by
      intro l
      induction l with
      | nil => intro a _ e he; simp [layout] at he
      | cons q l ih =>
        obtain ⟨p, s⟩ := q
        intro a hl e he
        simp only [layout, List.mem_cons] at he
        rcases he with rfl | he
        · exact ⟨s, hl _ List.mem_cons_self, rfl, rfl⟩
        · exact ih _ (fun e he => hl e (List.mem_cons_of_mem _ he)) e he
    rw [g2]
    apply aux
    intro e he
    obtain ⟨i, hi, rfl⟩ := List.mem_iff_getElem.1 he
    rw [List.length_zip] at hi
    simp only [List.getElem_zip]
    exact l2 i _ _ (List.getElem?_eq_getElem (by omega)) (List.getElem?_eq_getElem (by omega))

/-- **C55, round trip.** Slicing the flattened vector of model `n` with the offsets gives back exactly the parameters of model `n`. -/
theorem C55_roundtrip (ps : NetParams α) (N : ℕ) (hg : GoodParams ps N) (names : List String) (hne : names ≠ []) (hn : names.Nodup)
    (hk : ∀ p ∈ names, p ∈ ps.map (·.1)) :
    ∃ pp ws, paramProps ps (some names) = .ok pp ∧ flattenParams ps names = .ok ws ∧
      ∀ n < N, ∃ w r, ws[n]? = some w ∧ unflatten w pp = .ok r ∧ r.map (·.1) = names ∧
        ∀ e ∈ r, ∃ s, getParam ps e.1 = .ok s ∧ e.2.shape = s.shape ∧ s.rows[n]? = some e.2.data := by
  obtain ⟨pp, hpp⟩ := props_total (ps := ps) names [] hk
  obtain ⟨gs, g1, g2⟩ := fold_props names [] pp hpp hn (by simp)
  obtain ⟨l1, l2⟩ := gather_length g1
  simp only [List.nil_append, endOf, List.getLast?_nil] at g2
  refine ⟨pp, _, hpp, flattenParams_ok hg g1 hne, ?_⟩
  intro n hnN
  have hu := unflatten_layout (names.zip gs) (gs.map fun s => s.rows.getD n []) (by simp [l1])
    (by
      intro i e d h1 h2
      rw [List.getElem?_map] at h2
      rw [List.getElem?_zip_eq_some] at h1
      rw [h1.2] at h2
      simp only [Option.map_some, Option.some.injEq] at h2
      rw [← h2]
      exact (gather_rows hg g1 (List.mem_of_getElem? h1.2) hnN).1) []
  simp only [List.nil_append, List.length_nil] at hu
  refine ⟨_, _, by rw [List.getElem?_map, List.getElem?_range hnN]; rfl, by rw [g2]; exact hu, ?_, ?_⟩
  · rw [List.map_map]
    have : ((fun x : String × Nd α => x.1) ∘ fun e : (String × Stacked α) × List α => (e.1.1, (⟨e.1.2.shape, e.2⟩ : Nd α))) =
        Prod.fst ∘ Prod.fst := rfl
    rw [this, ← List.map_map, List.map_fst_zip (by simp [l1]), List.map_fst_zip (by omega)]
  · intro e he
    obtain ⟨q, hq, rfl⟩ := List.mem_map.1 he
    obtain ⟨i, hi, rfl⟩ := List.mem_iff_getElem.1 hq
    simp only [List.length_zip, List.length_map] at hi
    simp only [List.getElem_zip, List.getElem_map]
    refine ⟨gs[i], l2 i _ _ (List.getElem?_eq_getElem (by omega)) (List.getElem?_eq_getElem (by omega)), rfl, ?_⟩
    exact (gather_rows hg g1 (List.getElem_mem (by omega)) hnN).2

/-- **C55, every vector is a set of parameters.** Slicing any vector of the total length succeeds, and writing the slices one after another
gives the vector back. -/
theorem C55_onto (ps : NetParams α) (names : List String) (hn : names.Nodup)
    (hk : ∀ p ∈ names, p ∈ ps.map (·.1)) :
    ∃ pp total, paramProps ps (some names) = .ok pp ∧ Tiles 0 total (pp.map fun e => (e.2.start, e.2.stop)) ∧
      ∀ w : List α, w.length = total → ∃ r, unflatten w pp = .ok r ∧ r.map (·.1) = names ∧ (∀ e ∈ r, e.2.WF) ∧
        (r.map (·.2.data)).flatten = w := by
  obtain ⟨pp, hpp⟩ := props_total (ps := ps) names [] hk
  obtain ⟨gs, g1, g2⟩ := fold_props names [] pp hpp hn (by simp)
  obtain ⟨l1, l2⟩ := gather_length g1
  simp only [List.nil_append, endOf, List.getLast?_nil] at g2
  refine ⟨pp, ((names.zip gs).map fun e => e.2.shape.prod).sum, hpp, ?_, ?_⟩
  · rw [g2]
    have := layout_tiles 0 (names.zip gs)
    rwa [Nat.zero_add] at this
  · intro w hw
    have cut : ∀ (l : List (String × Stacked α)) (w : List α), w.length = (l.map fun e => e.2.shape.prod).sum →
        ∃ ds : List (List α), ds.length = l.length ∧ ds.flatten = w ∧
          ∀ (i : ℕ) (e : String × Stacked α) (d : List α), l[i]? = some e → ds[i]? = some d → d.length = e.2.shape.prod := by
      intro l
      induction l with
      | nil => intro w hw; exact ⟨[], rfl, by simp at hw; simp [hw], by simp⟩
      | cons q l ih =>
        intro w hw
        rw [List.map_cons, List.sum_cons] at hw
        obtain ⟨ds, d1, d2, d3⟩ := ih (w.drop q.2.shape.prod) (by rw [List.length_drop]; omega)
        refine ⟨w.take q.2.shape.prod :: ds, by simp [d1], by rw [List.flatten_cons, d2, List.take_append_drop], ?_⟩
        intro i e d h1 h2
        cases i with
        | zero => simp at h1 h2; subst h1 h2; rw [List.length_take]; omega
        | succ i => exact d3 i e d (by simpa using h1) (by simpa using h2)
    obtain ⟨ds, d1, d2, d3⟩ := cut _ w hw
    have hu := unflatten_layout _ ds d1 d3 []
    simp only [List.nil_append, List.length_nil, d2] at hu
    refine ⟨_, by rw [g2]; exact hu, ?_, ?_, ?_⟩
    · rw [List.map_map]
      have : ((fun x : String × Nd α => x.1) ∘ fun e : (String × Stacked α) × List α => (e.1.1, (⟨e.1.2.shape, e.2⟩ : Nd α))) =
          Prod.fst ∘ Prod.fst := rfl
      rw [this, ← List.map_map, List.map_fst_zip (by omega), List.map_fst_zip (by omega)]
    · intro e he
      obtain ⟨q, hq, rfl⟩ := List.mem_map.1 he
      obtain ⟨i, hi, rfl⟩ := List.mem_iff_getElem.1 hq
      simp only [List.length_zip] at hi
      have hi1 : i < (names.zip gs).length := by rw [List.length_zip]; omega
      show (_ : List α).length = _
      simp only [List.getElem_zip]
      have := d3 i _ _ (List.getElem?_eq_getElem hi1) (List.getElem?_eq_getElem (by omega))
      simpa using this
    · rw [List.map_map]
      have : ((fun x : String × Nd α => x.2.data) ∘ fun e : (String × Stacked α) × List α => (e.1.1, (⟨e.1.2.shape, e.2⟩ : Nd α))) =
          Prod.snd := rfl
      rw [this, List.map_snd_zip (by omega), d2]

/-- Without names all parameters are used in their own order, and an unknown name raises `KeyError`. -/
theorem C55_names (ps : NetParams α) : paramProps ps none = paramProps ps (some (ps.map (·.1))) ∧
    ∀ p, p ∉ ps.map (·.1) → paramProps ps (some [p]) = .error .key := by
  refine ⟨rfl, fun p hp => ?_⟩
  have : ps.lookup p = none := by
    rw [List.lookup_eq_none_iff]
    intro e he
    have : p ≠ e.1 := fun h => hp (h ▸ List.mem_map.2 ⟨e, he, rfl⟩)
    simp [this]
  simp only [paramProps, Option.getD_some, List.foldlM_cons, pstep, getParam, this]
  rfl

/-- C55: hypotheses met. -/
example : GoodParams Example.params 2 ∧ ["c", "a", "b"].Nodup ∧ ∀ p ∈ ["c", "a", "b"], p ∈ Example.params.map (·.1) :=
  ⟨⟨by decide, by decide, by decide⟩, by decide, by decide⟩

/-- **C55 needs distinct names.** With a repeated name the offsets overlap and slicing returns the value of another parameter: parameter
`c` of the first model is 4, the slice for `c` holds 1. -/
theorem C55_duplicates_false : ∃ (pp : List (String × PProp)) (ws : List (List ℤ)) (w : List ℤ) (r : List (String × Nd ℤ)),
    paramProps Example.params (some ["a", "b", "a", "c"]) = .ok pp ∧
    flattenParams Example.params ["a", "b", "a", "c"] = .ok ws ∧ ws[0]? = some w ∧ unflatten w pp = .ok r ∧
    ("c", ⟨[], [1]⟩) ∈ r :=
  ⟨[("a", ⟨[1], 3, 4⟩), ("b", ⟨[1, 2], 1, 3⟩), ("c", ⟨[], 3, 4⟩)], [[1, 2, 3, 1, 4], [5, 6, 7, 5, 8]], _,
    [("a", ⟨[1], [1]⟩), ("b", ⟨[1, 2], [2, 3]⟩), ("c", ⟨[], [1]⟩)], rfl, rfl, rfl, rfl, by simp⟩

end Verif
