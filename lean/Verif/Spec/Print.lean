import Verif.Model.Print

/-! Specification for C84: the states an observer of `optimize` sees. -/

namespace Verif

variable {K V : Type} [Zero K] [One K] [Neg K] [Add K] [Sub K] [Mul K] [Inv K] [Div K] [NatCast K] [Pow K ℕ] [LinearOrder K] [Add V] [Sub V] [SMul K V]

/-- `Rounds env stp s l s'`: `optimize` started in `s` returns with `s'`; the list `l` holds the states after each `step` and `sched.update`. -/
inductive Rounds (env : Env K V) (stp : St K V → Except Err (St K V)) : St K V → List (St K V) → St K V → Prop
  | stop {s s' : St K V} (h : selectActive env s = .ok s') (h' : s'.active = []) : Rounds env stp s [] s'
  | more {s a b c s' : St K V} {l : List (St K V)} (h1 : selectActive env s = .ok a) (h2 : a.active ≠ []) (h3 : stp a = .ok b)
      (h4 : schedUpdate env b = .ok c) (h5 : Rounds env stp c l s') : Rounds env stp s (c :: l) s'

/-- The report of a state: time, current best and evaluation counts of all runs; with verbosity 2 or more also `alpha` of all runs. -/
def report (c : St K V) : ℤ → List (Line K)
  | 1 => [.state c.t ((List.range c.M).map c.fMin) ((List.range c.M).map c.nEval)]
  | _ => [.state c.t ((List.range c.M).map c.fMin) ((List.range c.M).map c.nEval), .alpha ((List.range c.M).map c.alpha)]

/-- The output line that reports a state. -/
def Line.isState : Line K → Bool
  | .state _ _ _ => true
  | _ => false

/-- The number of the iterations `a+1, …, b` after which a report is due: those one more than a multiple of `p`. -/
def reportsDue (p : ℤ) (a b : ℕ) : ℕ := ((Finset.Ioc a b).filter fun i : ℕ => p ∣ (i : ℤ) - 1).card

end Verif
