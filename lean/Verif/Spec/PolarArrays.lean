import Verif.Model.PolarArrays
import Verif.Spec.Arrays

/-!
# A polarised dynamic on particles of any shape
-/

namespace Verif

/-- A `PolarCBO` dynamic on particles of shape `ds` whose surroundings are the ones of the array model: no correction, the polarised consensus with kernel `k`,
the noise `kind` with the random numbers `smp` (call, multi-index), clipping at `T`, random permutations in range. -/
structure PolarArrEnv (ds : List ℕ) (F : Arr ℝ → Except Err (Arr (Flt ℝ))) (k : Kernel) (kappa : ℝ) (mode : KernelMode) (kind : ArrModel.Kind)
    (smp : ℕ → List ℕ → ℝ) (T : ℝ) (env : Env ℝ (Fin ds.prod → ℝ)) : Prop where
  corr : env.corr = .none
  cons : env.cons = polarCons k kappa mode
  noise : env.noise = rowNoise (kindRule kind) fun c i j q => smp c (i :: j :: unravel ds q)
  post : env.post = fun s => .ok (s.x.map fun v q => min (max (v q) (-T)) T)
  perm : PermOK env
  f : ActsBy ds F env.f

end Verif
