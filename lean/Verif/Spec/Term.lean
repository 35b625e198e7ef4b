import Verif.Model.Dyn

/-! Specification of the termination criteria, in terms of observable attributes only; written
independently of `evalTerm`. -/

namespace Verif

variable {K V : Type} [Zero K] [One K] [Neg K] [Add K] [Sub K] [Mul K] [Inv K] [Div K] [NatCast K] [Pow K ℕ] [LinearOrder K]

/-- What each stateless criterion means for run `m`:
* `energy_tol`: some energy value `v` is reached, `f_min[m] = v < tol`;
* `diff_tol`: `update_diff[m] < tol`;
* `max_eval`: one more batch would exceed the budget;
* `max_it`, `max_time`: the counter / the clock has reached the bound (never, for `max_it = None`);
* a user criterion: the user's flag for this run. -/
def Fires (env : Env K V) (s : St K V) (m : ℕ) : Term K → Prop
  | .energyTol tol => Flt.lt (s.fMin m) tol = true
  | .diffTol tol => Flt.lt (s.updDiff m) tol = true
  | .maxEval n => ¬ s.nEval m + s.batchSize ≤ n
  | .maxIt b => ∃ n, b = some n ∧ s.it ≥ n
  | .maxTime T => ¬ s.t < T
  | .energyStag _ _ _ => False
  | .custom i => env.custom i s m = true

/-- All criteria except the energy stagnation criterion (which carries state of its own). -/
def Stateless : Term K → Prop
  | .energyStag _ _ _ => False
  | _ => True

end Verif
