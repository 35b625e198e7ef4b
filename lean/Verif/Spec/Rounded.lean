import Verif.Model.Rounded
import Mathlib.Algebra.BigOperators.Fin
import Mathlib.Algebra.Order.Round

/-! Specification of floating point arithmetic and of the exact consensus point. -/

namespace Verif

/-- Binary floating point numbers with `p` bits and unbounded exponent (`p = 53`: double, `p = 24`: single precision). -/
def IsFloat (p : ℕ) (x : ℝ) : Prop := ∃ m e : ℤ, |m| < 2 ^ p ∧ x = m * (2 : ℝ) ^ e

/-- Rounding to a nearest floating point number, with any rule for ties. -/
def RoundNearest (p : ℕ) (rd : ℝ → ℝ) : Prop := ∀ x, IsFloat p (rd x) ∧ ∀ y, IsFloat p y → |rd x - x| ≤ |y - x|

/-- The arithmetic in which every elementary operation is rounded. -/
noncomputable def Arith.ofRound (rd : ℝ → ℝ) : Arith where
  add a b := rd (a + b)
  sub a b := rd (a - b)
  mul a b := rd (a * b)
  exp a := rd (Real.exp a)
  log a := rd (Real.log a)

/-- Standard model of floating point arithmetic: relative error `u`, and absolute error `η` by underflow for products and elementary functions. -/
structure StdModel (A : Arith) (u η : ℝ) : Prop where
  u_nonneg : 0 ≤ u
  η_nonneg : 0 ≤ η
  add : ∀ a b, |A.add a b - (a + b)| ≤ u * |a + b|
  sub : ∀ a b, |A.sub a b - (a - b)| ≤ u * |a - b|
  mul : ∀ a b, |A.mul a b - a * b| ≤ u * |a * b| + η
  exp : ∀ a, |A.exp a - Real.exp a| ≤ u * Real.exp a + η
  exp_nonneg : ∀ a, 0 ≤ A.exp a
  log : ∀ a, 0 < a → |A.log a - Real.log a| ≤ u * |Real.log a| + η

/-- The tree sums up all numbers. -/
def SumTree.Covers {n : ℕ} (t : SumTree (Fin n)) : Prop := t.leaves.Perm (List.finRange n)

/-- The consensus weights in exact arithmetic. -/
noncomputable def gibbsWeight {n : ℕ} (alpha : ℝ) (e : Fin n → ℝ) (i : Fin n) : ℝ := Real.exp (-alpha * e i) / ∑ j, Real.exp (-alpha * e j)

/-- The effective sample size in exact arithmetic (formula of the documentation, `scheduler.py:119`). -/
noncomputable def exactEss {n : ℕ} (alpha : ℝ) (e : Fin n → ℝ) : ℝ := (∑ i, Real.exp (-alpha * e i)) ^ 2 / ∑ i, Real.exp (-alpha * e i) ^ 2

end Verif
