import Verif.Model.Dyn

/-! Specification for evaluation counting: what the objective itself would have counted. -/

namespace Verif

variable {K V : Type} [Zero K] [One K] [Neg K] [Add K] [Sub K] [Mul K] [Inv K] [Div K] [NatCast K] [Pow K ℕ] [LinearOrder K]

/-- Number of points of run `m` on which the objective was really called so far. -/
def evalCount (s : St K V) (m : ℕ) : ℕ := s.log.countP fun q => decide (q.2.1 = m)

/-- Number of points on which the objective was called so far, all runs together (`num_eval` of the wrapped
objective). -/
def totalEval (s : St K V) : ℕ := s.log.length

end Verif
