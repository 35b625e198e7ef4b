import Verif.Proofs.Print
import Verif.Spec.Example

/-! Property C84: `print_int` and `verbosity` only control the output; what the argument `sched` means. -/

set_option linter.unusedSectionVars false

namespace Verif

section
variable {K V : Type} [Zero K] [One K] [Neg K] [Add K] [Sub K] [Mul K] [Inv K] [Div K] [NatCast K] [Pow K ℕ] [LinearOrder K] [Add V] [Sub V] [SMul K V]

/-- **C84 (partial: the result).** For every dynamic, verbosity, scheduler argument and `print_int` different from zero (given, or taken from `save_int`), `optimize` ends as the loop
without output does with the scheduler that the argument names: it returns in the same state, or raises the same exception. Missing: `print_int = 0` (`C84_zero_false`). -/
theorem C84_result_partial (env : Env K V) (stp : St K V → Except Err (St K V)) (dflt eff obj : St K V → Except Err (Params K)) (verb : ℤ) (pint : Option ℤ)
    (sch : SchedArg) (fuel : ℕ) (s : St K V) (hp : pint.getD s.saveInt ≠ 0) :
    (optimizePrint env stp dflt eff obj verb pint sch fuel s).2 = optimizeBy { env with sched := match sch with
      | .none => fun s => .ok s.params
      | .default => dflt
      | .effective => eff
      | .object => obj
      | .text => fun _ => .error .attribute } stp fuel s := by
  cases sch <;> exact loopPrint_result _ stp verb hp fuel s

/-- **C84 (the output).** With `verbosity ≤ 0` nothing is printed. With `verbosity ≥ 1`, if `optimize` returns, the output is: the header; the report of the state after each step (and
`sched.update`) whose iteration number is one more than a multiple of `print_int`, in order; the best energies of the returned state. -/
theorem C84_output (env : Env K V) (stp : St K V → Except Err (St K V)) (hf : ∀ s s', stp s = .ok s' → StepFrame env s s')
    (dflt eff obj : St K V → Except Err (Params K)) (verb : ℤ) (pint : Option ℤ) (sch : SchedArg) (fuel : ℕ) (s : St K V) :
    (verb ≤ 0 → (optimizePrint env stp dflt eff obj verb pint sch fuel s).1 = []) ∧
    ∀ s', 0 < verb → (optimizePrint env stp dflt eff obj verb pint sch fuel s).2 = .done s' →
      ∃ l, Rounds { env with sched := schedOf dflt eff obj sch } stp s l s' ∧ (∀ i (hi : i < l.length), (l[i]).it = s.it + i + 1) ∧
        (optimizePrint env stp dflt eff obj verb pint sch fuel s).1 =
          [.start] ++ (l.filter fun c => decide (((c.it : ℤ) - 1) % pint.getD s.saveInt = 0)).flatMap (fun c => report c verb) ++ [.best ((List.range s'.M).map s'.bestE)] ∧
        ((optimizePrint env stp dflt eff obj verb pint sch fuel s).1.filter Line.isState).length = reportsDue (pint.getD s.saveInt) s.it s'.it := by
  refine ⟨fun hv => ?_, fun s' hv h => ?_⟩
  · unfold optimizePrint
    simp only [if_neg (not_lt.2 hv), List.nil_append]
    exact loopPrint_silent _ stp hv _ fuel s
  · have hf' : ∀ s s', stp s = .ok s' → StepFrame { env with sched := schedOf dflt eff obj sch } s s' := fun s s' h => by
      have fr := hf s s' h
      exact ⟨fr.M, fr.N, fr.xOld, fr.active, fr.terms, fr.reason, fr.it, fr.t, fr.alpha, fr.lamda, fr.sigma, fr.dt, fr.batchSize, fr.batched, fr.batchPartial,
        fr.batchConcat, fr.saveInt, fr.tracks, fr.cIdx, fr.pIdx, fr.indices, fr.perms⟩
    obtain ⟨l, h1, h2⟩ := loopPrint_rounds _ stp verb _ fuel s s' h
    have e : (optimizePrint env stp dflt eff obj verb pint sch fuel s).1 =
        [.start] ++ (l.filter fun c => decide (((c.it : ℤ) - 1) % pint.getD s.saveInt = 0)).flatMap (printCur verb) ++ [.best ((List.range s'.M).map s'.bestE)] := by
      unfold optimizePrint
      simp only [if_pos hv]
      rw [h2, List.append_assoc, printPost, if_pos hv]
    have er : printCur (K := K) (V := V) verb = fun c => report c verb := by
      funext c
      unfold printCur
      rw [if_pos hv]
      by_cases h1 : verb = 1
      · subst h1; rfl
      · rw [if_pos (by omega)]
        unfold report
        split
        · exact absurd rfl h1
        · rfl
    refine ⟨l, h1, (rounds_it hf' h1).2, by rw [← er]; exact e, ?_⟩
    rw [e, List.filter_append, List.filter_append, List.length_append, List.length_append, isState_flatMap hv, rounds_reports hf' _ h1]
    simp [Line.isState]

/-- **C84 is false for `print_int = 0`:** whenever a step is made, `optimize` raises `ZeroDivisionError` after the step, even if nothing is to be printed (`verbosity = 0`). -/
theorem C84_zero_false (env : Env K V) (stp : St K V → Except Err (St K V)) (dflt eff obj : St K V → Except Err (Params K)) (verb : ℤ) (sch : SchedArg) (fuel : ℕ)
    (s a b c : St K V) (h1 : selectActive env s = .ok a) (h2 : a.active ≠ []) (h3 : stp a = .ok b)
    (h4 : schedUpdate { env with sched := schedOf dflt eff obj sch } b = .ok c) :
    (optimizePrint env stp dflt eff obj verb (some 0) sch (fuel + 1) s).2 = .raised .zeroDiv := by
  have h1' : selectActive { env with sched := schedOf dflt eff obj sch } s = .ok a := by rw [selectActive_sched]; exact h1
  have h2' : a.active.length ≠ 0 := fun h => h2 (List.length_eq_zero_iff.1 h)
  unfold optimizePrint loopPrint
  simp only [h1', h3, h4, if_neg h2', Option.getD_some, if_true]

/-- **C84 (`sched=None`).** With `sched=None` the parameters `alpha`, `lamda`, `sigma` and `dt` have at the end the values they had at the start. -/
theorem C84_none (env : Env K V) (stp : St K V → Except Err (St K V)) (hf : ∀ s s', stp s = .ok s' → StepFrame env s s')
    (dflt eff obj : St K V → Except Err (Params K)) (verb : ℤ) (pint : Option ℤ) (fuel : ℕ) (s s' : St K V)
    (h : (optimizePrint env stp dflt eff obj verb pint .none fuel s).2 = .done s') : s'.params = s.params := by
  have hf' : ∀ s s', stp s = .ok s' → StepFrame { env with sched := schedOf dflt eff obj .none } s s' := fun s s' h => by
    have fr := hf s s' h
    exact ⟨fr.M, fr.N, fr.xOld, fr.active, fr.terms, fr.reason, fr.it, fr.t, fr.alpha, fr.lamda, fr.sigma, fr.dt, fr.batchSize, fr.batched, fr.batchPartial,
      fr.batchConcat, fr.saveInt, fr.tracks, fr.cIdx, fr.pIdx, fr.indices, fr.perms⟩
  obtain ⟨l, h1, -⟩ := loopPrint_rounds _ stp verb _ fuel s s' h
  exact rounds_params hf' (fun _ => rfl) h1

/-- **C84 (strings that name no scheduler, false):** they are not rejected. If all runs have stopped already, `optimize` returns as always; otherwise it makes one step, and if that succeeds,
raises `AttributeError`. `CBS.run` rejects them at once, and with them `'effective'`. -/
theorem C84_text_false (env : Env K V) (stp : St K V → Except Err (St K V)) (dflt eff obj : St K V → Except Err (Params K)) (verb : ℤ) (pint : Option ℤ) (fuel : ℕ)
    (s a : St K V) (h1 : selectActive env s = .ok a) :
    (a.active = [] → (optimizePrint env stp dflt eff obj verb pint .text (fuel + 1) s).2 = .done a) ∧
    (a.active ≠ [] → ∀ b, stp a = .ok b → (optimizePrint env stp dflt eff obj verb pint .text (fuel + 1) s).2 = .raised .attribute) ∧
    (cbsRunPrint env stp dflt obj verb .text (fuel + 1) s).2 = .raised .runtime ∧ (cbsRunPrint env stp dflt obj verb .effective (fuel + 1) s).2 = .raised .runtime := by
  have h1' : selectActive { env with sched := schedOf dflt eff obj .text } s = .ok a := by rw [selectActive_sched]; exact h1
  refine ⟨fun h => ?_, fun h b hb => ?_, rfl, rfl⟩
  · unfold optimizePrint loopPrint
    simp only [h1', h, List.length_nil, if_true]
  · have h2' : a.active.length ≠ 0 := fun e => h (List.length_eq_zero_iff.1 e)
    have h3 : schedUpdate { env with sched := schedOf dflt eff obj .text } b = .error .attribute := rfl
    unfold optimizePrint loopPrint
    simp only [h1', hb, h3, if_neg h2']

/-- **C84 (`CBS`).** For the other arguments `CBS.run` ends as `optimize` of the other dynamics does. -/
theorem C84_cbs (env : Env K V) (stp : St K V → Except Err (St K V)) (dflt eff obj : St K V → Except Err (Params K)) (verb verb' : ℤ) (pint : Option ℤ)
    (sch : SchedArg) (h1 : sch ≠ .effective) (h2 : sch ≠ .text) (fuel : ℕ) (s : St K V) (hp : pint.getD s.saveInt ≠ 0) :
    (cbsRunPrint env stp dflt obj verb sch fuel s).2 = (optimizePrint env stp dflt eff obj verb' pint sch fuel s).2 := by
  rw [C84_result_partial env stp dflt eff obj verb' pint sch fuel s hp]
  cases sch with
  | none => rfl
  | default => rfl
  | object => rfl
  | effective => exact absurd rfl h1
  | text => exact absurd rfl h2

end

/-- Five steps of `CBO` with two runs of three particles, reported every second step. -/
example : (match init Example.env (Example.args [.maxIt (some 5)] none) with
    | .ok s =>
      let r (v : ℤ) (p : Option ℤ) (sch : SchedArg) := optimizePrint Example.env (step Example.env (cboInner Example.env)) Example.env.sched Example.env.sched Example.env.sched v p sch 9 s
      (match (r 2 (some 2) .default).2 with | .done s => decide (s.it = 5 ∧ reportsDue 2 0 5 = 3) | _ => false) &&
      decide ((r 2 (some 2) .default).1.length = 8 ∧ ((r 2 (some (-2)) .default).1.filter Line.isState).length = 3 ∧ (r 0 (some 2) .default).1.length = 0) &&
      (match (r 0 (some 0) .default).2 with | .raised .zeroDiv => true | _ => false) &&
      (match (r 1 none .none).2 with | .done q => decide (q.alpha 0 = s.alpha 0 ∧ q.it = 5) | _ => false) &&
      (match (r 1 none .default).2 with | .done q => decide (q.alpha 0 ≠ s.alpha 0) | _ => false) &&
      (match (r 1 none .text).2 with | .raised .attribute => true | _ => false)
    | .error _ => false) = true := by decide +kernel

end Verif
