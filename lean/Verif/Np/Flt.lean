import Mathlib.Algebra.Order.Field.Basic
import Mathlib.Algebra.Order.Ring.Abs
import Mathlib.Data.List.Basic
import Mathlib.Tactic.Linarith

/-!
# IEEE-like extended numbers

`Flt K` is NaN, ±infinity or an element of `K`, a linearly ordered type with arithmetic operations.  It models the NumPy scalars the
code compares, minimises and clips (`float('inf')` initial values in `cbx/dynamics/pdyn.py:156-159`,
`np.inf` buffers in `cbx/utils/termination.py:120`, NaN handling in `pdyn.py:42-43`).
No law of arithmetic is assumed here: `K` may be an ordered field (exact arithmetic) or `Fl` (arithmetic with rounding,
`Spec/Fl.lean`).  Simplification: no overflow and no signed zero.
-/

namespace Verif

/-- A NumPy float: NaN, -inf, a finite value, or +inf; energies and update norms, `pdyn.py:286,522,963`. -/
inductive Flt (K : Type) where
  | nan
  | ninf
  | fin (a : K)
  | pinf
  deriving DecidableEq, Repr

namespace Flt

variable {K : Type} [Zero K] [One K] [Neg K] [Add K] [Sub K] [Mul K] [Inv K] [Div K] [NatCast K] [Pow K ℕ] [LinearOrder K]

/-- IEEE `a < b`: false as soon as a NaN is involved, `utils/termination.py:17,35`. -/
def lt : Flt K → Flt K → Bool
  | nan, _ => false
  | _, nan => false
  | pinf, _ => false
  | _, ninf => false
  | ninf, _ => true
  | _, pinf => true
  | fin a, fin b => decide (a < b)

/-- IEEE `a > b`, `utils/termination.py:55`. -/
def gt (a b : Flt K) : Bool := lt b a

/-- `np.isnan`. Used for NaN in `pdyn.py:42`. -/
def isNaN : Flt K → Bool
  | nan => true
  | _ => false

/-- A finite number; used for finiteness in `pdyn.py:42`. -/
def isFin : Flt K → Bool
  | fin _ => true
  | _ => false

/-- `np.minimum`: NaN if one operand is NaN, else the smaller one, `cbo_memory.py:111`, `pso.py:144`. -/
def minimum (a b : Flt K) : Flt K :=
  if isNaN a then nan else if isNaN b then nan else if lt b a then b else a

/-- `np.maximum`, `np.clip` in `pdyn.py:43`. -/
def maximum (a b : Flt K) : Flt K :=
  if isNaN a then nan else if isNaN b then nan else if lt a b then b else a

/-- IEEE negation, `pdyn.py:583`. -/
def neg : Flt K → Flt K
  | nan => nan
  | ninf => pinf
  | fin a => fin (-a)
  | pinf => ninf

/-- IEEE addition (inf + -inf = NaN), `pdyn.py:583-587`. -/
def add : Flt K → Flt K → Flt K
  | nan, _ => nan
  | _, nan => nan
  | pinf, ninf => nan
  | ninf, pinf => nan
  | pinf, _ => pinf
  | _, pinf => pinf
  | ninf, _ => ninf
  | _, ninf => ninf
  | fin a, fin b => fin (a + b)

/-- IEEE subtraction, `pdyn.py:585`. -/
def sub (a b : Flt K) : Flt K := add a (neg b)

/-- Sign of a number as NumPy uses it for products with infinity, `pdyn.py:583`. -/
def infTimes (a : K) : Flt K := if 0 < a then pinf else if a < 0 then ninf else nan

/-- IEEE multiplication (0 * inf = NaN), `pdyn.py:583`. -/
def mul : Flt K → Flt K → Flt K
  | nan, _ => nan
  | _, nan => nan
  | pinf, pinf => pinf
  | ninf, ninf => pinf
  | pinf, ninf => ninf
  | ninf, pinf => ninf
  | pinf, fin a => infTimes a
  | fin a, pinf => infTimes a
  | ninf, fin a => neg (infTimes a)
  | fin a, ninf => neg (infTimes a)
  | fin a, fin b => fin (a * b)

/-- Division by a positive count; the mean in `np.std`, `utils/termination.py:128`. -/
def divNat (a : Flt K) (n : ℕ) : Flt K :=
  match a with
  | fin x => if n = 0 then (if 0 < x then pinf else if x < 0 then ninf else nan) else fin (x / n)
  | b => b

/-- IEEE square root, given the square root of `K` on non-negative numbers, `np.std`, `utils/termination.py:128`. -/
def sqrt (sq : K → K) : Flt K → Flt K
  | nan => nan
  | ninf => nan
  | pinf => pinf
  | fin a => if a < 0 then nan else fin (sq a)

/-- Left-to-right sum, as `np.sum` (up to rounding), `np.std`, `utils/termination.py:128`. -/
def sum (l : List (Flt K)) : Flt K := l.foldl add (fin 0)

/-- `np.std` of a list: `sqrt(mean((v - mean(v))**2))`, `utils/termination.py:128`. -/
def std (sq : K → K) (l : List (Flt K)) : Flt K :=
  let mean := divNat (sum l) l.length
  sqrt sq (divNat (sum (l.map fun v => mul (sub v mean) (sub v mean))) l.length)

/-- `np.clip(v, lo, hi) = minimum(maximum(v, lo), hi)`, `pdyn.py:43`. -/
def clip (lo hi : Flt K) (v : Flt K) : Flt K := minimum (maximum v lo) hi

/-- `np.nan_to_num(v, nan=t)` : NaN becomes `t`, +inf the largest and -inf the smallest finite
float (`big`, `-big`), `pdyn.py:42`. -/
def nanToNum (big t : K) : Flt K → Flt K
  | nan => fin t
  | pinf => fin big
  | ninf => fin (-big)
  | fin a => fin a

/-- Row minimum, `np.min` over the `n` entries of a row (`n ≥ 1`): NaN-propagating fold, `pdyn.py:522`. -/
def rowMin (n : ℕ) (g : ℕ → Flt K) : Flt K :=
  (List.range (n - 1)).foldl (fun acc j => minimum acc (g (j + 1))) (g 0)

/-- Row `np.argmin`: first NaN if there is one, else first minimal entry, `pdyn.py:523`. -/
def rowArgmin (n : ℕ) (g : ℕ → Flt K) : ℕ :=
  (List.range (n - 1)).foldl
    (fun best j =>
      if isNaN (g best) then best
      else if isNaN (g (j + 1)) then j + 1
      else if lt (g (j + 1)) (g best) then j + 1 else best) 0

end Flt
end Verif
