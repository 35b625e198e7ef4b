import Verif.Proofs.TorchParams
import Verif.Spec.TorchEval
import Verif.Proofs.Np

/-! Helper lemmas for networks given by flattened parameters. -/

set_option linter.unusedSectionVars false

namespace Verif

variable {α I O T R X L : Type}

theorem mapM_ok {β γ : Type} {f : β → Except Err γ} {g : β → γ} : ∀ {l : List β}, (∀ a ∈ l, f a = .ok (g a)) → l.mapM f = .ok (l.map g)
  | [], _ => rfl
  | a :: l, h => by
    rw [List.mapM_cons, h a List.mem_cons_self, mapM_ok fun b hb => h b (List.mem_cons_of_mem _ hb)]
    rfl

theorem lookup_none_iff {β : Type} {l : List (String × β)} {k : String} : l.lookup k = none ↔ k ∉ l.map (·.1) := by
  rw [List.lookup_eq_none_iff]
  constructor
  · intro h hk
    obtain ⟨e, he, rfl⟩ := List.mem_map.1 hk
    simpa using h e he
  · intro h e he
    have : k ≠ e.1 := fun hh => h (hh ▸ List.mem_map.2 ⟨e, he, rfl⟩)
    simp [this]

theorem argmax_lt [LinearOrder L] {l : List L} (h : l ≠ []) : (l.findIdx fun a => l.all fun b => decide (b ≤ a)) < l.length := by
  rw [List.findIdx_lt_length]
  have aux : ∀ l : List L, l ≠ [] → ∃ a ∈ l, ∀ b ∈ l, b ≤ a := by
    intro l
    induction l with
    | nil => intro h; exact absurd rfl h
    | cons x l ih =>
      intro _
      by_cases hl : l = []
      · subst hl; exact ⟨x, by simp, by simp⟩
      · obtain ⟨a, ha, hb⟩ := ih hl
        rcases le_total x a with hx | hx
        · exact ⟨a, by simp [ha], fun b hb' => by rcases List.mem_cons.1 hb' with rfl | h; exacts [hx, hb b h]⟩
        · exact ⟨x, by simp, fun b hb' => by rcases List.mem_cons.1 hb' with rfl | h; exacts [le_refl _, (hb b h).trans hx]⟩
  obtain ⟨a, ha, hb⟩ := aux l h
  exact ⟨a, ha, by simpa using hb⟩

theorem argmax_iff [LinearOrder L] {l : List L} (h : l ≠ []) (k : ℕ) :
    (l.findIdx fun a => l.all fun b => decide (b ≤ a)) = k ↔ Classified l k := by
  have hlt := argmax_lt h
  have hat := List.findIdx_getElem (w := hlt)
  simp only [List.all_eq_true, decide_eq_true_eq] at hat
  have hbef : ∀ j, (hj : j < l.findIdx fun a => l.all fun b => decide (b ≤ a)) → ∃ b ∈ l, l[j]'(hj.trans hlt) < b := by
    intro j hj
    have := List.not_of_lt_findIdx hj
    simpa using this
  generalize hq : (l.findIdx fun a => l.all fun b => decide (b ≤ a)) = q at *
  constructor
  · rintro rfl
    refine ⟨l[q], List.getElem?_eq_getElem hlt, fun j u hu => ⟨hat u (List.mem_of_getElem? hu), fun hj => ?_⟩⟩
    obtain ⟨b, hb, hl⟩ := hbef j hj
    rw [List.getElem?_eq_getElem (by omega)] at hu
    injection hu with hu
    rw [← hu]
    exact hl.trans_le (hat b hb)
  · rintro ⟨v, hv, hk⟩
    have hkl : k < l.length := by
      by_contra hn
      rw [List.getElem?_eq_none (by omega)] at hv
      exact nomatch hv
    rw [List.getElem?_eq_getElem hkl] at hv
    injection hv with hv
    have h1 := hk q l[q] (List.getElem?_eq_getElem hlt)
    have h2 : v ≤ l[q] := hv ▸ hat _ (List.getElem_mem hkl)
    rcases lt_trichotomy q k with hlt' | heq | hgt
    · exact absurd (h1.2 hlt') (not_lt.2 h2)
    · exact heq
    · obtain ⟨b, hb, hl⟩ := hbef k hgt
      obtain ⟨j, hj, rfl⟩ := List.getElem_of_mem hb
      exact absurd (hv ▸ (hk j _ (List.getElem?_eq_getElem hj)).1) (not_le.2 hl)

theorem sumEq_same {a y : List ℕ} (h : a.length = y.length) : sumEq a y = .ok (((a.zip y).filter fun q => decide (q.1 = q.2)).length) := by
  unfold sumEq
  rw [h, Mat.bdim_self]
  simp only
  congr 1
  have : (List.range y.length).countP (fun i => a.getD (Mat.bpos y.length i) 0 == y.getD (Mat.bpos y.length i) 0) =
      (List.range y.length).countP (fun i => decide (a.getD i 0 = y.getD i 0)) := by
    apply List.countP_congr
    intro i hi
    rw [Mat.bpos_lt (List.mem_range.1 hi)]
    simp
  rw [this]
  induction a generalizing y with
  | nil =>
    cases y with
    | nil => rfl
    | cons _ _ => simp at h
  | cons u a ih =>
    cases y with
    | nil => simp at h
    | cons v y =>
      have ih' := ih (y := y) (by simpa using h) (by
        apply List.countP_congr
        intro i hi
        rw [Mat.bpos_lt (List.mem_range.1 hi)]
        simp)
      rw [List.length_cons, List.range_succ_eq_map, List.countP_cons, List.countP_map]
      simp only [List.getD_cons_zero, List.zip_cons_cons, List.filter_cons, decide_eq_true_eq]
      have e : ((fun i => decide ((u :: a).getD i 0 = (v :: y).getD i 0)) ∘ Nat.succ) = fun i => decide (a.getD i 0 = y.getD i 0) := by
        funext i; simp
      rw [e, ih']
      split_ifs <;> simp

theorem accStep_ok [LinearOrder L] {net : Net α (List X) (List (List L))} {w : List α} {pp : List (String × PProp)} {r : List (String × Nd α)}
    (hr : unflatten w pp = .ok r) {g : X → List L} (hg : ∀ xs, functionalCall net r xs = xs.map g) (hne : ∀ x, g x ≠ [])
    {b : List X × List ℕ} (hb : b.2.length = b.1.length) (st : ℕ × ℕ) :
    accStep net w pp st b = .ok (st.1 + correct g (b.1.zip b.2), st.2 + b.1.length) := by
  unfold accStep evalModel
  rw [hr]
  simp only [bind, Except.bind, pure, Except.pure]
  rw [hg, mapM_ok (g := fun l => l.findIdx fun a => l.all fun b => decide (b ≤ a)) (by
    intro l hl
    obtain ⟨x, -, rfl⟩ := List.mem_map.1 hl
    unfold argmaxRow
    rw [if_neg (hne x)])]
  simp only
  rw [sumEq_same (by simp [hb])]
  simp only
  congr 3
  unfold correct
  rw [List.map_map, List.zip_map_left, List.filter_map, List.length_map]
  · congr 1
    apply List.filter_congr
    intro q _
    have := argmax_iff (hne q.1) q.2
    simp only [Function.comp, Prod.map, id]
    rw [decide_eq_decide]
    exact this

theorem accFold [LinearOrder L] {net : Net α (List X) (List (List L))} {w : List α} {pp : List (String × PProp)} {r : List (String × Nd α)}
    (hr : unflatten w pp = .ok r) {g : X → List L} (hg : ∀ xs, functionalCall net r xs = xs.map g) (hne : ∀ x, g x ≠ [])
    {loader : List (List X × List ℕ)} (hb : ∀ b ∈ loader, b.2.length = b.1.length) (st : ℕ × ℕ) :
    loader.foldlM (accStep net w pp) st = .ok (st.1 + correct g (allData loader), st.2 + (allData loader).length) := by
  induction loader generalizing st with
  | nil => rfl
  | cons b l ih =>
    rw [List.foldlM_cons, accStep_ok hr hg hne (hb b List.mem_cons_self)]
    show List.foldlM _ _ _ = _
    rw [ih (fun b hb' => hb b (List.mem_cons_of_mem _ hb'))]
    have h1 : allData (b :: l) = b.1.zip b.2 ++ allData l := rfl
    have h2 : (b.1.zip b.2).length = b.1.length := by simp [hb b List.mem_cons_self]
    rw [h1, List.length_append, h2]
    unfold correct
    rw [List.filter_append, List.length_append, Nat.add_assoc, Nat.add_assoc]

end Verif
