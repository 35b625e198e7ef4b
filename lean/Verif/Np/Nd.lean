import Verif.Np.Mat
import Mathlib.Algebra.BigOperators.Group.List.Basic

/-!
# Arrays of any number of axes, C order

`Nd α` is a NumPy array or contiguous torch tensor: a shape and the entries in row-major order (`ndarray.reshape`, `ravel`,
`torch.Tensor.view` keep the entries and change the shape).
-/

namespace Verif

/-- Array with the given shape and entries in row-major order; arguments of an objective, `utils/objective_handling.py:22-37`. -/
structure Nd (α : Type) where
  shape : List ℕ
  data : List α

namespace Nd

variable {α : Type}

/-- The number of entries fits the shape; no line of its own, see `Nd`, `utils/objective_handling.py:22-37`. -/
def WF (x : Nd α) : Prop := x.data.length = x.shape.prod

/-- Row-major position of a multi-index, `utils/objective_handling.py:77,101`. -/
def ravel : List ℕ → List ℕ → ℕ
  | _ :: sh, i :: is => i * sh.prod + ravel sh is
  | _, _ => 0

/-- Entry at a multi-index that is in range, `utils/objective_handling.py:77,101`. -/
def at? (x : Nd α) (ix : List ℕ) : Option α := x.data[ravel x.shape ix]?

/-- `x.reshape(-1, c)`: raises for `c = 0` and if the size is not divisible, `utils/objective_handling.py:77,101`. -/
def reshape2 (x : Nd α) (c : ℕ) : Except Err (Nd α) :=
  if c = 0 then .error .value
  else if x.data.length % c ≠ 0 then .error .value
  else .ok ⟨[x.data.length / c, c], x.data⟩

/-- `np.atleast_2d`, `utils/objective_handling.py:36,76,100`. -/
def atLeast2d (x : Nd α) : Nd α :=
  match x.shape with
  | [] => ⟨[1, 1], x.data⟩
  | [d] => ⟨[1, d], x.data⟩
  | _ => x

/-- Row `i` of a list of rows of length `d`, `np.apply_along_axis(f, 1, ...)`, `utils/objective_handling.py:77`. -/
def chunk (d : ℕ) (l : List α) (i : ℕ) : List α := (l.drop (i * d)).take d

end Nd
end Verif
