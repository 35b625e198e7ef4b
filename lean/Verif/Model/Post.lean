import Verif.Model.Dyn

/-!
# Default post processing: `cbx/dynamics/pdyn.py:24-43`, `cbx/utils/torch_utils.py:59-82`

Coordinates are `Flt K`, so NaN and infinities are present. `big` is the largest finite float, which `np.nan_to_num`
substitutes for `+inf`.
-/

namespace Verif

section
variable {K : Type} [Zero K] [One K] [Neg K] [Add K] [Sub K] [Mul K] [Inv K] [Div K] [NatCast K] [Pow K ℕ] [LinearOrder K]

/-- IEEE arithmetic on single coordinates, used coordinatewise on particles. Models the NumPy operators `+`, `-` and
scalar `*` of `cbo.py:3-4,43-50`. -/
instance : Add (Flt K) := ⟨Flt.add⟩
/-- See `Add (Flt K)`; `cbo.py:44`. -/
instance : Sub (Flt K) := ⟨Flt.sub⟩
/-- See `Add (Flt K)`; `cbo.py:4`. -/
instance : SMul K (Flt K) := ⟨fun c v => Flt.mul (.fin c) v⟩

/-- `post_process_default.__call__`, `pdyn.py:41-43`, on one coordinate. With `copy_nan_to_num=False` (default) the call of
`np.nan_to_num` replaces entries of `dyn.x` in place; with `True` (`regcombinationcbo.py:44`) its result is discarded. -/
def postCoord (copy : Bool) (big maxThresh : K) (v : Flt K) : Flt K :=
  Flt.clip (.fin (-maxThresh)) (.fin maxThresh) (if copy then v else Flt.nanToNum big maxThresh v)

/-- `post_process_default.__call__`, `pdyn.py:41-43`, on the whole array; a particle has coordinates `ι`. -/
def postDefault {ι : Type} (copy : Bool) (big maxThresh : K) (s : St K (ι → Flt K)) : Except Err (Mat (ι → Flt K)) :=
  .ok (s.x.map fun v i => postCoord copy big maxThresh (v i))

/-- The same on finite coordinates: `np.clip(x, -max_thresh, max_thresh)`, `pdyn.py:43` (`nan_to_num` changes nothing). -/
def clipVec {ι : Type} (maxThresh : K) (v : ι → K) : ι → K := fun i => min (max (v i) (-maxThresh)) maxThresh

/-- `postDefault` on finite particles, `pdyn.py:41-43`. -/
def postFinite {ι : Type} (maxThresh : K) (s : St K (ι → K)) : Except Err (Mat (ι → K)) :=
  .ok (s.x.map (clipVec maxThresh))

end
end Verif
