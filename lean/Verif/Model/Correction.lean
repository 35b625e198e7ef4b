import Verif.Model.Dyn
import Mathlib.Analysis.Complex.Trigonometric

/-!
# Drift corrections: `cbx/correction.py`

The corrections are the functions `g` of `Corr.heavi g` (`Verif/Model/Dyn.lean`), which `correction` applies to the gap
`energy - f(consensus)` and the drift of one particle.
-/

namespace Verif

/-- `heavi_side_correction.correct`, `correction.py:79-81`: the drift times `np.where(z > 0, 1, 0)`. -/
def heaviG {K V : Type} [Zero K] [One K] [Neg K] [Add K] [Sub K] [Mul K] [Inv K] [Div K] [NatCast K] [Pow K ℕ] [LinearOrder K] [SMul K V] (z : Flt K) (v : V) : V :=
  (if Flt.gt z (.fin 0) then (1 : K) else 0) • v

/-- The factor `0.5 + 0.5 * np.tanh(z / eps)` of `heavi_side_reg_correction.correct`, `correction.py:92-94`, with the limits of `tanh` at `±inf`.
Simplification: for a NaN gap the code produces NaN drifts, which real vectors cannot hold; the factor is 0. `heaviRegFlt` has the NaN. -/
noncomputable def regFactor (eps : ℝ) : Flt ℝ → ℝ
  | .fin z => 1 / 2 + 1 / 2 * Real.tanh (z / eps)
  | .pinf => 1 / 2 + 1 / 2
  | .ninf => 1 / 2 - 1 / 2
  | .nan => 0

/-- `heavi_side_reg_correction.correct`, `correction.py:92-94`. -/
noncomputable def heaviRegG {V : Type} [SMul ℝ V] (eps : ℝ) (z : Flt ℝ) (v : V) : V := regFactor eps z • v

/-- The factor of `heavi_side_reg_correction.correct` as an IEEE number, `correction.py:93-94`: NaN for a NaN gap. -/
noncomputable def regFactorFlt (eps : ℝ) : Flt ℝ → Flt ℝ
  | .nan => .nan
  | z => .fin (regFactor eps z)

/-- `heavi_side_reg_correction.correct`, `correction.py:92-94`, on drifts with IEEE coordinates. (`heaviG` needs no second version: `np.where` turns NaN gaps into the factor 0.) -/
noncomputable def heaviRegFlt {ι : Type} (eps : ℝ) (z : Flt ℝ) (v : ι → Flt ℝ) : ι → Flt ℝ := fun i => Flt.mul (regFactorFlt eps z) (v i)

/-- The argument `correction` of `set_correction`, `pdyn.py:817-836`: a name, a callable, or anything else. -/
inductive CorrArg (V : Type) where
  | name (s : String)
  | callable (c : St ℝ V → Mat V → Except Err (Mat V))
  | other

/-- `get_correction`, `correction.py:5-14`; `set_correction` passes `eps=self.correction_eps`. -/
noncomputable def getCorrection {V : Type} [SMul ℝ V] (name : String) (eps : ℝ) : Except Err (Corr ℝ V) :=
  if name = "no_correction" then .ok .none
  else if name = "heavi_side" then .ok (.heavi heaviG)
  else if name = "heavi_side_reg" then .ok (.heavi (heaviRegG eps))
  else .error .value

/-- `set_correction`, `pdyn.py:817-836`. -/
noncomputable def setCorrection {V : Type} [SMul ℝ V] (a : CorrArg V) (eps : ℝ) : Except Err (Corr ℝ V) :=
  match a with
  | .name s => getCorrection s eps
  | .callable c => .ok (.custom c)
  | .other => .error .value

end Verif
