import Verif.Np.Nd
import Mathlib.Algebra.BigOperators.Group.Finset.Basic

/-!
# Arrays of any number of axes with broadcasting

`Arr α` is a NumPy array: a shape and an entry for every multi-index; only multi-indices in range are meaningful.
The operations are those the CBO step uses. `Nd.ravel` is the row-major position of a multi-index.
-/

namespace Verif

/-- Array of the given shape; ensembles of any number of axes, `pdyn.py:179-208`. -/
structure Arr (α : Type) where
  shape : List ℕ
  get : List ℕ → α

/-- The multi-index is in range for the shape; no line of its own, see `Arr`, `pdyn.py:179-208`. -/
def InR : List ℕ → List ℕ → Prop
  | [], [] => True
  | d :: ds, i :: is => i < d ∧ InR ds is
  | _, _ => False

/-- The multi-index at a row-major position (`np.unravel_index`). Order of the entries for `reshape`, `noise.py:117`. -/
def unravel : List ℕ → ℕ → List ℕ
  | [], _ => []
  | _ :: ds, q => q / ds.prod :: unravel ds (q % ds.prod)

namespace Arr

variable {α β γ : Type}

/-- NumPy broadcasting: the shorter shape gets leading axes of length 1, `pdyn.py:584-587`, `cbo.py:44-49`. -/
def padTo (n : ℕ) (s : List ℕ) : List ℕ := List.replicate (n - s.length) 1 ++ s

/-- Axis by axis broadcasting of shapes with the same number of axes, `pdyn.py:584-587`, `cbo.py:44-49`. -/
def bdims : List ℕ → List ℕ → Option (List ℕ)
  | [], [] => some []
  | a :: s, b :: t => match Mat.bdim a b, bdims s t with
    | some d, some r => some (d :: r)
    | _, _ => none
  | _, _ => none

/-- Broadcast shape of two shapes, `pdyn.py:584-587`, `cbo.py:44-49`. -/
def bshape (s t : List ℕ) : Option (List ℕ) := bdims (padTo (max s.length t.length) s) (padTo (max s.length t.length) t)

/-- Multi-index read in an array of shape `s` for the multi-index `I` of the broadcast array (superfluous leading axes, which have length 1
in assignments, are read at 0), `pdyn.py:584-587`, `cbo.py:44-49`. -/
def bindex (s I : List ℕ) : List ℕ :=
  List.zipWith Mat.bpos s (List.replicate (s.length - I.length) 0 ++ I.drop (I.length - s.length))

/-- Entrywise map, `pdyn.py:585`, `noise.py:59`. -/
def map (f : α → β) (a : Arr α) : Arr β := ⟨a.shape, fun I => f (a.get I)⟩

/-- Binary ufunc with broadcasting; `ValueError` if the shapes are incompatible, `pdyn.py:584-587`, `cbo.py:44-49`. -/
def bin (f : α → β → γ) (a : Arr α) (b : Arr β) : Except Err (Arr γ) :=
  match bshape a.shape b.shape with
  | some r => .ok ⟨r, fun I => f (a.get (bindex a.shape I)) (b.get (bindex b.shape I))⟩
  | none => .error .value

/-- `a[..., None, ..., None]` with `k` new axes, `pdyn.py:584-585`. -/
def expand (k : ℕ) (a : Arr α) : Arr α := ⟨a.shape ++ List.replicate k 1, fun I => a.get (I.take a.shape.length)⟩

/-- A reduction over the last axis with `keepdims=True`, `logsumexp` in `pdyn.py:585`. -/
def reduceLast (g : List α → β) (a : Arr α) : Except Err (Arr β) :=
  match a.shape.reverse with
  | [] => .error .value
  | n :: _ => .ok ⟨a.shape.dropLast ++ [1], fun I => g ((List.range n).map fun j => a.get (I.dropLast ++ [j]))⟩

/-- `a.sum(axis=1, keepdims=True)`; raises without a second axis, `pdyn.py:587`. -/
def sum1 [AddCommMonoid α] (a : Arr α) : Except Err (Arr α) :=
  match a.shape with
  | m :: n :: s => .ok ⟨m :: 1 :: s, fun I => ((List.range n).map fun j => a.get (I.set 1 j)).sum⟩
  | _ => .error .value

/-- `a.reshape(s)`, `noise.py:117`. -/
def reshape (s : List ℕ) (a : Arr α) : Except Err (Arr α) :=
  if s.prod = a.shape.prod then .ok ⟨s, fun I => a.get (unravel a.shape (Nd.ravel s I))⟩ else .error .value

/-- `a.reshape(*s, -1)`: raises if the known lengths multiply to 0 or do not divide the size, `noise.py:117`. -/
def reshapeInfer (s : List ℕ) (a : Arr α) : Except Err (Arr α) :=
  if s.prod = 0 then .error .value
  else if a.shape.prod % s.prod ≠ 0 then .error .value
  else reshape (s ++ [a.shape.prod / s.prod]) a

/-- `np.linalg.norm(a, axis=-1)`: square root of the sum of squares; the square root is a parameter, `noise.py:117`, `objectives.py:573`. -/
def normLast [Semiring α] (sq : α → α) (a : Arr α) : Except Err (Arr α) :=
  match a.shape.reverse with
  | [] => .error .value
  | n :: _ => .ok ⟨a.shape.dropLast, fun I => sq ((List.range n).map fun j => a.get (I ++ [j]) ^ 2).sum⟩

/-- `np.linalg.norm(a, axis=(-2,-1))`: the Frobenius norm over the last two axes; raises with fewer axes, `pdyn.py:286`. -/
def normLast2 [Semiring α] (sq : α → α) (a : Arr α) : Except Err (Arr α) :=
  match a.shape.reverse with
  | n :: m :: _ => .ok ⟨a.shape.dropLast.dropLast, fun I =>
      sq ((List.range m).map fun i => ((List.range n).map fun j => a.get (I ++ [i, j]) ^ 2).sum).sum⟩
  | _ => .error .value

/-- `a[..., k]`, `objectives.py:76` and other two-dimensional objectives. -/
def pick (k : ℕ) (a : Arr α) : Except Err (Arr α) :=
  match a.shape.reverse with
  | [] => .error .index
  | n :: _ => if k < n then .ok ⟨a.shape.dropLast, fun I => a.get (I ++ [k])⟩ else .error .index

/-- A reduction over the last axis, `objectives.py:374-379,596-600`. -/
def alongLast (g : List α → β) (a : Arr α) : Except Err (Arr β) :=
  match a.shape.reverse with
  | [] => .error .value
  | n :: _ => .ok ⟨a.shape.dropLast, fun I => g ((List.range n).map fun j => a.get (I ++ [j]))⟩

/-- The multi-index of an array of shape `s` for a multi-index of the squeezed array, `objectives.py:574,589,600`. -/
def unsqueeze : List ℕ → List ℕ → List ℕ
  | [], _ => []
  | d :: s, I => if d = 1 then 0 :: unsqueeze s I else match I with
    | i :: I => i :: unsqueeze s I
    | [] => 0 :: unsqueeze s []

/-- `a.squeeze()`: all axes of length 1 are removed, `objectives.py:574,589,600`. -/
def squeeze (a : Arr α) : Arr α := ⟨a.shape.filter (· ≠ 1), fun I => a.get (unsqueeze a.shape I)⟩

/-- `a[idx]` for an index into the two leading axes, `pdyn.py:963-967`. -/
def gather (a : Arr α) (ix : Idx) : Except Err (Arr α) :=
  match a.shape with
  | m :: n :: s =>
    if ix.InBounds m n then .ok ⟨ix.rows :: ix.cols :: s, fun I => match I with
      | i :: j :: K => a.get (ix.run i :: ix.par i j :: K)
      | _ => a.get I⟩
    else .error .index
  | _ => .error .index

/-- Every axis of the value has the length of the axis it is assigned to, or 1, `pdyn.py:968`. -/
def fits : List ℕ → List ℕ → Bool
  | [], [] => true
  | a :: s, b :: t => (a == b || a == 1) && fits s t
  | _, _ => false

/-- An array of shape `s` can be assigned to a selection of shape `t`: superfluous leading axes of length 1 are dropped, missing ones
are added, `pdyn.py:449,968`. -/
def assignable (s t : List ℕ) : Bool :=
  (s.take (s.length - t.length)).all (· == 1) && fits (padTo t.length (s.drop (s.length - t.length))) t

/-- `a[idx] = v`: the last write wins for repeated indices, `pdyn.py:968`. -/
def scatter (a : Arr α) (ix : Idx) (v : Arr α) : Except Err (Arr α) :=
  match a.shape with
  | m :: n :: s =>
    if ix.InBounds m n then
      if assignable v.shape (ix.rows :: ix.cols :: s) then
        .ok ⟨a.shape, fun I => match I with
          | i :: j :: K => match ix.lastPos i j with
            | some p => v.get (bindex v.shape (p.1 :: p.2 :: K))
            | none => a.get I
          | _ => a.get I⟩
      else .error .value
    else .error .index
  | _ => .error .index

/-- `a[idx] += v`: read, add in place (the sum must have the shape of the selection), write back, `cbo.py:46`. -/
def scatterAdd [Add α] (a : Arr α) (ix : Idx) (v : Arr α) : Except Err (Arr α) := do
  let g ← gather a ix
  let u ← bin (· + ·) g v
  if u.shape = g.shape then scatter a ix u else .error .value

end Arr
end Verif
