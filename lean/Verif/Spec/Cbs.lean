import Verif.Spec.Term

/-! Criteria that cannot distinguish the runs. -/

namespace Verif

/-- The criterion reads only the iteration counter or the clock: it holds for all runs or for none. -/
def RunBlind {K : Type} : Term K → Prop
  | .maxIt _ => True
  | .maxTime _ => True
  | _ => False

end Verif
