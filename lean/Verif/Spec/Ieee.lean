import Verif.Spec.Rounded
import Verif.Model.Ieee

/-! Specification of IEEE 754 arithmetic: rounding with gradual underflow, and overflow to infinity. -/

namespace Verif

/-- Binary floating point numbers with `p` bits whose last bit is worth at least `2^emin` (double precision: `p = 53`, `emin = -1074`). -/
def IsIeee (p : ℕ) (emin : ℤ) (x : ℝ) : Prop := ∃ m e : ℤ, |m| < 2 ^ p ∧ emin ≤ e ∧ x = m * (2 : ℝ) ^ e

/-- An IEEE format: number of bits, smallest exponent, largest finite number, and a rule for rounding to nearest. -/
structure IeeeFmt where
  p : ℕ
  pos : 1 ≤ p
  emin : ℤ
  emin_le : emin ≤ 0
  top : ℝ
  top_repr : IsIeee p emin top
  top_ge : 1 ≤ top
  rd : ℝ → ℝ
  near : ∀ x, IsIeee p emin (rd x) ∧ ∀ y, IsIeee p emin y → |rd x - x| ≤ |y - x|

namespace IeeeFmt
variable (φ : IeeeFmt)

/-- Relative error of an operation without underflow. -/
noncomputable def u : ℝ := 2 ^ (-(φ.p : ℤ))

/-- Rounding of an exact result: infinities and NaN are kept, results beyond the largest number become infinite. -/
noncomputable def round : Flt ℝ → Flt ℝ
  | .fin x => if φ.top < φ.rd x then .pinf else if φ.rd x < -φ.top then .ninf else .fin (φ.rd x)
  | v => v

/-- A finite number of the format. -/
def Num (x : ℝ) : Prop := IsIeee φ.p φ.emin x ∧ |x| ≤ φ.top

end IeeeFmt

/-- The rules of IEEE 754 for the operations: sums, differences and products are the rounded exact results. `exp` and `log` are library functions; assumed is what every library guarantees (special
values, signs, relative error `v` and absolute error `η` by underflow). -/
structure IeeeArith (φ : IeeeFmt) (v η : ℝ) (A : FltArith) : Prop where
  add : ∀ a b, A.add a b = φ.round (Flt.add a b)
  sub : ∀ a b, A.sub a b = φ.round (Flt.sub a b)
  mul : ∀ a b, A.mul a b = φ.round (Flt.mul a b)
  exp_nan : A.exp .nan = .nan
  exp_ninf : A.exp .ninf = .fin 0
  exp_pinf : A.exp .pinf = .pinf
  exp_zero : A.exp (.fin 0) = .fin 1
  exp_fin : ∀ a, A.exp (.fin a) = .pinf ∨ ∃ r, A.exp (.fin a) = .fin r ∧ φ.Num r ∧ 0 ≤ r
  exp_le : ∀ a, a ≤ 0 → ∃ r, A.exp (.fin a) = .fin r ∧ r ≤ 1 ∧ |r - Real.exp a| ≤ v * Real.exp a + η
  log_nan : A.log .nan = .nan
  log_pinf : A.log .pinf = .pinf
  log_zero : A.log (.fin 0) = .ninf
  log_fin : ∀ a, 1 ≤ a → a ≤ φ.top → ∃ r, A.log (.fin a) = .fin r ∧ φ.Num r ∧ 0 ≤ r ∧ |r - Real.log a| ≤ v * Real.log a + η

/-- Coefficients of the particles can be formed: no weight `-alpha * energy` overflows upwards, and at least one does not overflow at all. -/
def WeightsOK (φ : IeeeFmt) {n : ℕ} (alpha : ℝ) (e : Fin n → Flt ℝ) : Prop :=
  (∀ i, e i = .pinf ∨ ∃ a, e i = .fin a ∧ φ.rd (-alpha * a) ≤ φ.top) ∧ ∃ i a, e i = .fin a ∧ |φ.rd (-alpha * a)| ≤ φ.top

/-- All coordinates are finite and of absolute value at most `T`. -/
def FltBox {A : FltArith} {ι : Type} (T : ℝ) (x : ι → IeeeVal A) : Prop := ∀ k, ∃ a : ℝ, x k = (.fin a : Flt ℝ) ∧ |a| ≤ T

/-- An arithmetic in which all operations are rounded exact results. -/
noncomputable def ieeeStd (φ : IeeeFmt) : FltArith where
  add a b := φ.round (Flt.add a b)
  sub a b := φ.round (Flt.sub a b)
  mul a b := φ.round (Flt.mul a b)
  exp a := φ.round (Flt.exp a)
  log a := φ.round (Flt.log a)

end Verif
