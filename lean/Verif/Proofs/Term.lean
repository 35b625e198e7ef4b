import Verif.Proofs.Run
import Verif.Spec.Term
import Mathlib.Data.List.Forall2

/-! Helper lemmas on termination criteria. -/

set_option linter.unusedSectionVars false

namespace Verif

variable {K V : Type} [Zero K] [One K] [Neg K] [Add K] [Sub K] [Mul K] [Inv K] [Div K] [NatCast K] [Pow K ℕ] [LinearOrder K] [Add V] [Sub V] [SMul K V]

theorem evalTerm_stateless {env : Env K V} {tm : Term K} (hs : Stateless tm) (s : St K V) :
    ∃ b, evalTerm env tm s = .ok (b, tm, s) ∧ ∀ m, b m = true ↔ Fires env s m tm := by
  cases tm with
  | energyTol tol => exact ⟨_, rfl, fun m => Iff.rfl⟩
  | diffTol tol => exact ⟨_, rfl, fun m => Iff.rfl⟩
  | maxEval n => exact ⟨_, rfl, fun m => by simp [Fires]⟩
  | maxIt b =>
    cases b with
    | none => exact ⟨_, rfl, fun m => by simp [Fires]⟩
    | some n => exact ⟨_, rfl, fun m => by simp [Fires]⟩
  | maxTime T => exact ⟨_, rfl, fun m => by simp [Fires]⟩
  | energyStag p th l => exact absurd hs (by simp [Stateless])
  | custom i => exact ⟨_, rfl, fun m => Iff.rfl⟩

/-- Pointwise relation between the flags computed by the loop and the specification. -/
theorem evalTerms_stateless {env : Env K V} : ∀ {l : List (Term K)}, (∀ tm ∈ l, Stateless tm) →
    ∀ s : St K V, ∃ bs, evalTerms env l s = .ok (bs, l, s) ∧
      List.Forall₂ (fun b tm => ∀ m, b m = true ↔ Fires env s m tm) bs l
  | [], _, s => ⟨[], rfl, .nil⟩
  | tm :: l, h, s => by
    obtain ⟨b, hb, hb'⟩ := evalTerm_stateless (env := env) (h tm (by simp)) s
    obtain ⟨bs, hbs, hbs'⟩ := evalTerms_stateless (l := l) (fun t ht => h t (by simp [ht])) s
    refine ⟨b :: bs, ?_, .cons hb' hbs'⟩
    simp only [evalTerms, hb, hbs, bind, Except.bind, pure, Except.pure]

theorem forall₂_any {env : Env K V} {s : St K V} {m : ℕ} {bs : List (ℕ → Bool)} {l : List (Term K)}
    (h : List.Forall₂ (fun b tm => ∀ m, b m = true ↔ Fires env s m tm) bs l) :
    bs.any (fun b => b m) = true ↔ ∃ tm ∈ l, Fires env s m tm := by
  induction h with
  | nil => simp
  | cons h _ ih => simp only [List.any_cons, Bool.or_eq_true, List.mem_cons, exists_eq_or_imp, h m, ih]

theorem all_not_any (bs : List (ℕ → Bool)) (m : ℕ) :
    (bs.all fun b => !b m) = !(bs.any fun b => b m) := by
  induction bs with
  | nil => rfl
  | cons b l ih => simp [ih, Bool.not_or]

/-- `selectActive` with stateless criteria. -/
theorem select_stateless {env : Env K V} {s : St K V} (hs : ∀ tm ∈ s.terms, Stateless tm) :
    ∃ s', selectActive env s = .ok s' ∧
      s' = { s with active := s'.active, reason := s'.reason } ∧
      (∀ m, m ∈ s'.active ↔ m < s.M ∧ ∀ tm ∈ s.terms, ¬ Fires env s m tm) ∧
      (∀ m, (m < s.M ∧ ∃ tm ∈ s.terms, Fires env s m tm) →
        ∃ l, s'.reason m = some l ∧ ∀ i, i ∈ l ↔ ∃ tm, s.terms[i]? = some tm ∧ Fires env s m tm) ∧
      (∀ m, ¬ (m < s.M ∧ ∃ tm ∈ s.terms, Fires env s m tm) → s'.reason m = s.reason m) := by
  obtain ⟨bs, hb, hb'⟩ := evalTerms_stateless (env := env) hs s
  refine ⟨{ s with
      active := (List.range s.M).filter fun m => bs.all fun b => !b m
      reason := fun m =>
        if m < s.M ∧ bs.any (fun b => b m) = true then some (firing bs m) else s.reason m },
    by simp only [selectActive, hb, bind, Except.bind, pure, Except.pure], rfl, ?_, ?_, ?_⟩
  · intro m
    simp only [List.mem_filter, List.mem_range, all_not_any, Bool.not_eq_true', ← Bool.not_eq_true,
      forall₂_any hb']
    simp
  · intro m ⟨hm, hf⟩
    have : bs.any (fun b => b m) = true := (forall₂_any hb').2 hf
    refine ⟨firing bs m, by simp only; rw [if_pos ⟨hm, this⟩], ?_⟩
    intro i
    have hl : bs.length = s.terms.length := hb'.length_eq
    simp only [firing, List.mem_filter, List.mem_range]
    constructor
    · rintro ⟨hi, hv⟩
      have hi' : i < s.terms.length := by omega
      refine ⟨s.terms[i], by simp [hi'], ?_⟩
      have := (List.forall₂_iff_get.1 hb').2 i hi hi' m
      simp only [List.get_eq_getElem] at this
      rw [← this]
      simpa [List.getD, hi] using hv
    · rintro ⟨tm, ht, hv⟩
      have hi' : i < s.terms.length := by
        by_contra hc
        rw [List.getElem?_eq_none (by omega)] at ht
        cases ht
      have hi : i < bs.length := by omega
      refine ⟨hi, ?_⟩
      have := (List.forall₂_iff_get.1 hb').2 i hi hi' m
      simp only [List.get_eq_getElem] at this
      rw [List.getElem?_eq_getElem hi'] at ht
      injection ht with ht
      rw [ht] at this
      simpa [List.getD, hi] using this.2 hv
  · intro m hn
    simp only
    rw [if_neg]
    rintro ⟨h1, h2⟩
    exact hn ⟨h1, (forall₂_any hb').1 h2⟩

/-- `selectActive` keeps every stateless criterion in the list, and evaluates it on the current counters. -/
theorem evalTerms_mem {env : Env K V} {tm : Term K} (hst : Stateless tm) :
    ∀ {l : List (Term K)} {s : St K V} {r : List (ℕ → Bool) × List (Term K) × St K V},
      evalTerms env l s = .ok r → tm ∈ l →
      tm ∈ r.2.1 ∧ ∃ q : St K V, q = { s with nEval := q.nEval, log := q.log } ∧
        ∃ b ∈ r.1, ∀ m, b m = true ↔ Fires env q m tm
  | [], s, r, h, hm => by simp at hm
  | t :: l, s, r, h, hm => by
    simp only [evalTerms, bind_ok, pure_ok] at h
    obtain ⟨a, ha, c, hc, rfl⟩ := h
    have hfr := evalTerm_frame ha
    rcases List.mem_cons.1 hm with rfl | hm'
    · obtain ⟨b, hb, hb'⟩ := evalTerm_stateless (env := env) hst s
      rw [hb] at ha
      injection ha with ha
      subst ha
      exact ⟨by simp, s, rfl, b, by simp, hb'⟩
    · obtain ⟨h1, q, h2, b, h3, h4⟩ := evalTerms_mem hst hc hm'
      refine ⟨by simp [h1], q, ?_, b, by simp [h3], h4⟩
      rw [h2, hfr]

/-- After `selectActive`, no run for which a stateless criterion fires is active. -/
theorem select_stateless_mem {env : Env K V} {s s' : St K V} {tm : Term K} (hst : Stateless tm)
    (hm : tm ∈ s.terms) (h : selectActive env s = .ok s') :
    tm ∈ s'.terms ∧ ∃ q : St K V, q = { s with nEval := q.nEval, log := q.log } ∧
      ∀ m ∈ s'.active, ¬ Fires env q m tm := by
  obtain ⟨bs, l, q0, he, ht, ha, _⟩ := select_active h
  obtain ⟨h1, q, h2, b, h3, h4⟩ := evalTerms_mem hst he hm
  refine ⟨ht ▸ h1, q, h2, ?_⟩
  intro m hma hf
  rw [ha, List.mem_filter] at hma
  have := List.all_eq_true.1 hma.2 b h3
  rw [(h4 m).2 hf] at this
  simp at this

end Verif
