import Verif.Model.FlConsensus
import Verif.Model.Sched

/-!
# The effective sample size scheduler in floating point arithmetic: `cbx/scheduler.py:120-218`

`bisection_solve` and `multiply` are defined for any arithmetic in `Sched.lean`; here the gap and the update with every elementary operation rounded. Finite numbers only (unbounded exponent).
-/

namespace Verif

variable {φ : FloatFmt} {n : ℕ}

/-- The number `2` (`scheduler.py:205`). -/
noncomputable instance : OfNat (Fl φ) 2 := ⟨((2 : ℕ) : Fl φ)⟩

/-- `eff_sample_size_gap.__call__` for one run, `scheduler.py:176-180`, with `t` the order of the additions in `logsumexp`. -/
noncomputable def flGap (t : SumTree (Fin n)) (e : Fin n → Fl φ) (eta alpha : Fl φ) : Fl φ :=
  Fl.round φ ((Arith.ofRound φ.rd).ess t alpha.val fun i => (e i).val) - eta * ((n : ℕ) : Fl φ)

/-- `effective_sample_size.update`, `scheduler.py:147-155`; `E m i` is the energy of particle `i` of run `m`. -/
noncomputable def flEffective (M : ℕ) (t : SumTree (Fin n)) (E : ℕ → Fin n → Fl φ) (eta minimum maximum thresh : Fl φ) (solveMaxIt : ℕ) (p : Params (Fl φ)) : Params (Fl φ) :=
  ensureMax .alpha maximum { p with
    alpha := (bisection (fun a m => flGap t (E m) eta (a m)) M (fun _ => minimum) (fun _ => maximum) solveMaxIt thresh).x }

end Verif
