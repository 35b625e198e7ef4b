import Verif.Model.RegShare

/-! Specification for C121. -/

namespace Verif

variable {d : ℕ}

/-- The mean that the scheduler tests, run by run: the plain mean of the regulariser, or the one weighted by `exp(-alpha (f + lamda R^p))`. -/
noncomputable def testedMean (rule : MeanRule) (f R : (Fin d → ℝ) → ℝ) (p : ℝ) (alpha : List ℝ) (lam : ℕ → ℝ) (x : Mat (Fin d → ℝ)) (i : ℕ) : ℝ := match rule with
  | .simple => (∑ n ∈ Finset.range x.cols, R (x.get i n)) / x.cols
  | .weighted =>
    let w : ℕ → ℝ := fun n => Real.exp (-alpha.getD i 0 * (f (x.get i n) + lam i * R (x.get i n) ^ p))
    (∑ n ∈ Finset.range x.cols, w n * R (x.get i n)) / ∑ n ∈ Finset.range x.cols, w n

/-- A use by a dynamic of `M` runs. -/
def RegOp.Of (M : ℕ) : RegOp d → Prop
  | .call x => x.rows = M
  | .update alpha x => x.rows = M ∧ alpha.length = M

/-- Evaluations of the original objective in one use: a call evaluates every particle, an update with the weighted rule as well. -/
def RegOp.evals (rule : MeanRule) : RegOp d → ℕ
  | .call x => x.rows * x.cols
  | .update _ x => match rule with
    | .simple => 0
    | .weighted => x.rows * x.cols

end Verif
