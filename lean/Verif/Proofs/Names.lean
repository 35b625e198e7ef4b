import Verif.Spec.Names

/-! Lemmas on dictionaries keyed by names. -/

set_option linter.unusedSectionVars false

namespace Verif

theorem item_other {α : Type} (d : PyDict α) (k : String) (h : ∀ e ∈ d, e.1 ≠ k) : d.item k = .error .key := by
  unfold PyDict.item
  have : d.reverse.find? (fun e => e.1 = k) = none := by
    rw [List.find?_eq_none]
    intro e he
    simpa using h e (by simpa using he)
  rw [this]

theorem has_iff {α : Type} (d : PyDict α) (k : String) : d.has k = true ↔ ∃ e ∈ d, e.1 = k := by
  simp [PyDict.has]

theorem termDict_eq : termDict = termWords.flatMap fun w => ["-", " ", "_"].map fun sep => (w.1.1 ++ sep ++ w.1.2, w.2) := by
  simp [termDict, termWords, PyDict.updateKeys]

end Verif
