import Verif.Model.Post
import Verif.Model.Sched
import Verif.Model.Rng

/-!
# PyTorch dynamics: `cbx/utils/torch_utils.py`

`to_torch_dynamic` derives from a dynamic a class with six methods replaced. Modelled: the default post-processing, the default sampler and initial ensemble, the
scheduler `effective_sample_size` for tensors. Arithmetic is the same as for NumPy, so differences between `float32` and `float64` are not visible, except that the largest finite number
(`big`) is a parameter.
-/

namespace Verif

section
variable {K : Type} [Zero K] [One K] [Neg K] [Add K] [Sub K] [Mul K] [Inv K] [Div K] [NatCast K] [Pow K ℕ] [LinearOrder K]

/-- `torch.clamp(v, min=lo, max=hi)`, used at `torch_utils.py:76`: NaN is kept, otherwise the value is raised to `lo` and then lowered to `hi`. -/
def torchClamp (lo hi : K) : Flt K → Flt K
  | .nan => .nan
  | .ninf => .fin (min lo hi)
  | .pinf => .fin hi
  | .fin a => .fin (min (max lo a) hi)

/-- `post_process_default_torch.__call__`, `torch_utils.py:74-76`, on one coordinate; both results are assigned. -/
def torchPostCoord (big maxThresh : K) (v : Flt K) : Flt K := torchClamp (-maxThresh) maxThresh (Flt.nanToNum big maxThresh v)

/-- `post_process_default_torch.__call__`, `torch_utils.py:74-76`, on the whole tensor. -/
def torchPost {ι : Type} (big maxThresh : K) (s : St K (ι → Flt K)) : Except Err (Mat (ι → Flt K)) :=
  .ok (s.x.map fun v i => torchPostCoord big maxThresh (v i))

/-- The post-processing a dynamic gets when the user gives none. NumPy: `pdyn.py:170-171`, replaced in `RegCombinationCBO` (`reg`, `regcombinationcbo.py:42-45`). The class made by `to_torch_dynamic`
has its own method (`torch_utils.py:84-85,114`), which precedes those of all base classes. -/
def defaultPost {ι : Type} (torch reg : Bool) (big maxThresh : K) : St K (ι → Flt K) → Except Err (Mat (ι → Flt K)) :=
  if torch then torchPost big maxThresh else postDefault reg big maxThresh

end

/-- `effective_sample_size.update` for tensors, `torch_utils.py:177-185`: like `scheduler.py:148-156`, but with the argument `minimum` and without `ensure_max`. -/
noncomputable def torchEffective (M N : ℕ) (E : ℕ → ℕ → ℝ) (eta minimum maximum : ℝ) (solveMaxIt : ℕ) (p : Params ℝ) : Params ℝ :=
  { p with
    alpha := (bisection (fun a m => effGap N (E m) eta (a m)) M (fun _ => minimum) (fun _ => maximum) solveMaxIt (1 / 100)).x }

section
variable {K V γ : Type} [Zero K] [One K] [Neg K] [Add K] [Sub K] [Mul K] [Inv K] [Div K] [NatCast K] [Pow K ℕ] [LinearOrder K] [Add V] [Sub V] [SMul K V]

/-- The samplers of tensors: `standard_normal_torch` (`torch_utils.py:78-82`) and `exponential_torch` (`torch_utils.py:48-56`). -/
inductive TorchSampler where
  | normal | expo
  deriving DecidableEq

/-- Both samplers and the initial ensemble (`torch_utils.py:50-55,80,92-93`) use PyTorch's global generator; `Rng.expo` is the field of `Rng` for samplers that do. -/
def torchRng (R : Rng γ V) (k : TorchSampler) : Rng γ V :=
  match k with
  | .normal => { R with expo := R.normal }
  | .expo => R

/-- The arguments as `set_array_backend_funs_torch` sees them, `torch_utils.py:87-90`: the sampler does not come from a generator of the dynamic. -/
def torchSeedArgs (a : SeedArgs) : SeedArgs := { a with sampler := .expo }

/-- Construction of a PyTorch dynamic (`torch_utils.py:103-105`), followed by a program that uses it. The state in the result is followed by the state of the global generator. -/
def torchProgram (R : Rng γ V) (k : TorchSampler) (a : SeedArgs) (env : Env K V) (noiseFn : St K V → Mat V → Except Err (Mat V)) (inner : Env K V → St K V → Except Err (St K V))
    (args : Args K V) (glob entropy : γ) (l : List (Ev γ)) : Except Err (St K V × γ) := do
  let D ← construct (torchRng R k) (torchSeedArgs a) env noiseFn args glob entropy
  let E ← rRun (torchRng R k) (torchSeedArgs a) env noiseFn inner l D
  pure (E.1.s, E.2)

end
end Verif
