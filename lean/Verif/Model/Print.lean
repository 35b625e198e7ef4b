import Verif.Model.Memory
import Verif.Model.Sched

/-!
# Console output and the arguments of `optimize`: `cbx/dynamics/pdyn.py`, `cbx/dynamics/cbs.py`

`Model/Dyn.lean` and `Model/Memory.lean` omit the printing and take the scheduler as part of the environment. Here both arguments of `optimize` are modelled, and `verbosity`.
Simplification: lines hold the printed values, not their formatting, and the two lines of `print_cur_state` (resp. the four of `print_post_opt`) are one item.
-/

namespace Verif

variable {K V : Type} [Zero K] [One K] [Neg K] [Add K] [Sub K] [Mul K] [Inv K] [Div K] [NatCast K] [Pow K ℕ] [LinearOrder K] [Add V] [Sub V] [SMul K V]

/-- What is printed, `pdyn.py:344-346` (`start`), `pdyn.py:942-943` (`state`: time, `f_min` and `num_f_eval` of all runs), `pdyn.py:946` (`alpha`), `pdyn.py:391-394` (`best`). -/
inductive Line (K : Type) where
  | start
  | state (t : K) (fMin : List (Flt K)) (nEval : List ℕ)
  | alpha (a : List K)
  | best (e : List (Flt K))

/-- `print_cur_state`, `pdyn.py:940-946`. -/
def printCur (verb : ℤ) (s : St K V) : List (Line K) :=
  (if 0 < verb then [.state s.t ((List.range s.M).map s.fMin) ((List.range s.M).map s.nEval)] else []) ++
    if 1 < verb then [.alpha ((List.range s.M).map s.alpha)] else []

/-- `print_post_opt`, `pdyn.py:378-394`. -/
def printPost (verb : ℤ) (s : St K V) : List (Line K) := if 0 < verb then [.best ((List.range s.M).map s.bestE)] else []

/-- The loop of `optimize` with its output, `pdyn.py:357-363`: after every `step` and `sched.update`, `(it - 1) % print_int` is computed, whatever the verbosity, and raises for
`print_int = 0`. -/
def loopPrint (env : Env K V) (stp : St K V → Except Err (St K V)) (verb pint : ℤ) : ℕ → St K V → List (Line K) × Outcome (St K V)
  | 0, _ => ([], .outOfFuel)
  | fuel + 1, s =>
    match selectActive env s with
    | .error e => ([], .raised e)
    | .ok s =>
      if s.active.length = 0 then (printPost verb s, .done s)
      else
        match stp s with
        | .error e => ([], .raised e)
        | .ok s =>
          match schedUpdate env s with
          | .error e => ([], .raised e)
          | .ok s =>
            if pint = 0 then ([], .raised .zeroDiv)
            else
              let out := if ((s.it : ℤ) - 1) % pint = 0 then printCur verb s else []
              let r := loopPrint env stp verb pint fuel s
              (out ++ r.1, r.2)

/-- The argument `sched` of `optimize`, `pdyn.py:326,348-356`: `None`, `'default'`, `'effective'`, an object with a method `update`, another string. -/
inductive SchedArg where
  | none
  | default
  | effective
  | object
  | text
  deriving DecidableEq

/-- The scheduler used, `pdyn.py:348-356`. `dflt` is `default_sched()`, `eff` is `effective_sample_size()`, `obj` the object passed. `None` gives the empty scheduler; any other
value is used as it is, so a string fails at `sched.update` (`pdyn.py:359`). -/
def schedOf (dflt eff obj : St K V → Except Err (Params K)) : SchedArg → St K V → Except Err (Params K)
  | .none => fun s => .ok s.params
  | .default => dflt
  | .effective => eff
  | .object => obj
  | .text => fun _ => .error .attribute

/-- `optimize`, `pdyn.py:324-364`: `print_int` defaults to `save_int` (`pdyn.py:341`); the header (`pdyn.py:343-346`), the scheduler, the loop. -/
def optimizePrint (env : Env K V) (stp : St K V → Except Err (St K V)) (dflt eff obj : St K V → Except Err (Params K)) (verb : ℤ) (printInt : Option ℤ)
    (sched : SchedArg) (fuel : ℕ) (s : St K V) : List (Line K) × Outcome (St K V) :=
  let r := loopPrint { env with sched := schedOf dflt eff obj sched } stp verb (printInt.getD s.saveInt) fuel s
  ((if 0 < verb then [.start] else []) ++ r.1, r.2)

/-- `CBS.run`, `cbs.py:30-46`: the header, the check of the argument (only `None`, `'default'` and scheduler objects are accepted), the loop without further output. -/
def cbsRunPrint (env : Env K V) (stp : St K V → Except Err (St K V)) (dflt obj : St K V → Except Err (Params K)) (verb : ℤ) (sched : SchedArg) (fuel : ℕ) (s : St K V) :
    List (Line K) × Outcome (St K V) :=
  (if 0 < verb then [.start] else [],
    match sched with
    | .none => optimizeBy { env with sched := fun s => .ok s.params } stp fuel s
    | .default => optimizeBy { env with sched := dflt } stp fuel s
    | .object => optimizeBy { env with sched := obj } stp fuel s
    | .effective => .raised .runtime
    | .text => .raised .runtime)

end Verif
