import Verif.Proofs.Frozen
import Verif.Props.Correction

/-! Helper lemmas for C17 with a Heaviside correction. -/

set_option linter.unusedSectionVars false

namespace Verif

variable {K V : Type} [Field K] [LinearOrder K] [IsStrictOrderedRing K] [AddCommGroup V] [Module K V]

/-- With a Heaviside correction nothing happens to a stopped run while others are active, because every step raises. -/
theorem heavi_frozen {env : Env K V} {r : ℕ} {g : Flt K → V → V} {m : List (K × Flt K × V) → V} (hcorr : env.corr = .heavi g) (hcons : env.cons = .mean m)
    (hp : PermOK env) (s q : St K V) (hw : WF s) (hq : selectActive env s = .ok q) (hr : r < s.M) (hna : r ∉ q.active) (hne : q.active ≠ []) :
    ∀ (k : ℕ) (s' : St K V), execAll env (consThen env (cboMove env)) (further k) q = .ok s' → SameRun r q s' := by
  have hwq := select_wf hw hq
  have hM : q.M = s.M := by rw [select_frame hq]
  intro k s' h
  cases k with
  | zero =>
    simp only [further, List.replicate_zero, List.flatten_nil, execAll, Except.ok.injEq] at h
    subst h
    exact ⟨fun _ _ => rfl, fun _ _ => rfl, rfl, rfl, rfl, rfl⟩
  | succ k =>
    exfalso
    have h1 : ∃ t, step env (cboInner env) q = .ok t := by
      simp only [further, List.replicate_succ, List.flatten_cons, List.cons_append, execAll, bind_ok] at h
      obtain ⟨t, ht, -⟩ := h
      exact ⟨t, ht⟩
    obtain ⟨t, ht⟩ := h1
    have hlt : q.active.length < q.M := by
      refine lt_of_le_of_ne (by simpa using hwq.act.length_le) fun hl => hna ?_
      rw [hwq.act_full hl]
      exact List.mem_range.2 (hM ▸ hr)
    have hpos : 0 < q.active.length := List.length_pos_iff.2 hne
    obtain ⟨e, he⟩ := C54_stopped_raises env g hcorr m hcons hp q hwq (by omega) hlt
    rw [ht] at he
    cases he

end Verif
