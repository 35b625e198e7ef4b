import Verif.Model.Regularizers

/-! Sequences of evaluations of a regularised objective (C97). -/

namespace Verif

variable {d : ℕ}

/-- Earlier evaluations: the state `lamda` after calls on the arrays `xs` that did not raise. -/
noncomputable def regCalls (f R : (Fin d → ℝ) → ℝ) (p : ℝ) (lam : Lam) : List (Mat (Fin d → ℝ)) → Except Err Lam
  | [] => .ok lam
  | x :: xs => do
    let (_, lam) ← regCall f R p lam x
    regCalls f R p lam xs

end Verif
