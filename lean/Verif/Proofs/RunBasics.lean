import Verif.Proofs.Frozen
import Verif.Spec.Runs

/-! Facts about row-wise noise and lists of distinct runs. -/

set_option linter.unusedSectionVars false

namespace Verif

variable {K V : Type} [Zero K] [One K] [Neg K] [Add K] [Sub K] [Mul K] [Inv K] [Div K] [NatCast K] [Pow K ℕ] [LinearOrder K] [Add V] [Sub V] [SMul K V]

theorem NoiseRows.ok {env : Env K V} {ν : ℕ → K → ℕ → ℕ → V → V} (h : NoiseRows env ν) : NoiseOK env := by
  intro s d hd
  obtain ⟨n, h1, h2, h3, -⟩ := h s d hd
  exact ⟨n, h1, h2, h3⟩

theorem getD_inj {l : List ℕ} (h : l.Nodup) {i j : ℕ} (hi : i < l.length) (hj : j < l.length)
    (e : l.getD i 0 = l.getD j 0) : i = j := by
  simp only [List.getD, List.getElem?_eq_getElem hi, List.getElem?_eq_getElem hj, Option.getD_some] at e
  exact (h.getElem_inj_iff).1 e

end Verif
