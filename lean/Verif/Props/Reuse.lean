import Verif.Proofs.Reuse
import Verif.Props.Resampling
import Verif.Props.Stag

/-! Property C96: criteria objects (`energy_stagnation_term`, `loss_update_resampling`, `consensus_stagnation`) that were used on another dynamic before. -/

set_option linter.unusedSectionVars false

namespace Verif

section stag
variable {K V : Type} [Field K] [LinearOrder K] [Add V] [Sub V] [SMul K V]

/-- **C96, energy stagnation, from `patience` steps on.** An `energy_stagnation_term` object whose buffer still holds the losses `L₀` of an earlier dynamic decides like a
new one (`C06_stagnation`) as soon as `patience` steps were made, in every trajectory of a dynamic with one run in which no check raises. Missing: the
first `patience - 1` steps, see `C96_stagnation_early` and `C96_stagnation_false`. -/
theorem C96_stagnation_partial (env : Env K V) (move : St K V → Except Err (St K V)) (hm : MoveOK move)
    (hpost : PostOK env) (hp : PermOK env) (a : Args K V) (tr : ℕ → St K V) (h0 : init env a = .ok (tr 0))
    (i p : ℕ) (th : Flt K) (hp1 : 1 ≤ p) (L₀ : ℕ → ℕ → Flt K) (hi : a.terms[i]? = some (.energyStag p th (some L₀))) (hM : a.x0.rows = 1) (k : ℕ)
    (hk : p ≤ k) (ht : Trajectory env (consThen env move) k tr) (q : St K V) (hq : selectActive env (tr k) = .ok q) :
    StoppedBy q 0 i ↔ Flt.lt (Flt.std env.sqrtK ((List.range p).map fun j => consEnergy env (tr (k - j)))) th = true := by
  rw [reuse_stop hm hpost hp h0 hi hM ht hq]
  rw [List.map_congr_left (fun r hr => ringFrom_full (fun r => L₀ r 0) .pinf p (fun j => consEnergy env (tr j)) k r (List.mem_range.1 hr) hk),
    Flt.std_perm env.sqrtK (ring_perm .pinf p k (fun j => consEnergy env (tr j)) hp1 hk)]
  exact ⟨fun h => h.2, fun h => ⟨by omega, h⟩⟩

/-- **C96, energy stagnation, before.** After `1 ≤ k < patience` steps it decides on the `k` energies of this dynamic mixed with the remaining
losses of the earlier one. -/
theorem C96_stagnation_early (env : Env K V) (move : St K V → Except Err (St K V)) (hm : MoveOK move)
    (hpost : PostOK env) (hp : PermOK env) (a : Args K V) (tr : ℕ → St K V) (h0 : init env a = .ok (tr 0))
    (i p : ℕ) (th : Flt K) (L₀ : ℕ → ℕ → Flt K) (hi : a.terms[i]? = some (.energyStag p th (some L₀))) (hM : a.x0.rows = 1) (k : ℕ)
    (hk1 : 1 ≤ k) (hk : k < p) (ht : Trajectory env (consThen env move) k tr) (q : St K V) (hq : selectActive env (tr k) = .ok q) :
    StoppedBy q 0 i ↔ Flt.lt (Flt.std env.sqrtK
      ((List.range p).map fun r => if 1 ≤ r ∧ r ≤ k then consEnergy env (tr r) else L₀ r 0)) th = true := by
  rw [reuse_stop hm hpost hp h0 hi hM ht hq]
  rw [List.map_congr_left (fun r _ => ringFrom_part (fun r => L₀ r 0) p (fun j => consEnergy env (tr j)) r k hk)]
  exact ⟨fun h => h.2, fun h => ⟨hk1, h⟩⟩

end stag

/-- **C96 is false for energy stagnation.** A dynamic given the criterion object of a finished dynamic stops after one step; the same dynamic with a new object
stops after two. -/
theorem C96_stagnation_false : ∃ s s' s'' : St ℚ ℚ, ∃ a : Args ℚ ℚ,
    optimize Example.env (cboInner Example.env) 9 (Example.start1 [.energyStag 2 (.fin 5) none]) = .done s ∧
    a = Example.args1 s.terms ∧ (∃ s₀, init Example.env a = .ok s₀ ∧ optimize Example.env (cboInner Example.env) 9 s₀ = .done s') ∧
    (∃ s₀, init Example.env { a with terms := [.energyStag 2 (.fin 5) none] } = .ok s₀ ∧ optimize Example.env (cboInner Example.env) 9 s₀ = .done s'') ∧
    s'.it = 1 ∧ s''.it = 2 := by
  have key : (match optimize Example.env (cboInner Example.env) 9 (Example.start1 [.energyStag 2 (.fin 5) none]) with
    | .done s => (match init Example.env (Example.args1 s.terms) with
      | .ok s₀ => (match optimize Example.env (cboInner Example.env) 9 s₀ with
        | .done s' => decide (s'.it = 1)
        | _ => false)
      | _ => false) && decide (s.it = 2)
    | _ => false) = true := by decide +kernel
  split at key
  · rename_i s hs
    rw [Bool.and_eq_true] at key
    obtain ⟨k1, k2⟩ := key
    split at k1
    · rename_i s₀ h0
      split at k1
      · rename_i s' hs'
        refine ⟨s, s', s, _, hs, rfl, ⟨s₀, h0, hs'⟩, ?_, of_decide_eq_true k1, of_decide_eq_true k2⟩
        have hst : ∃ q, init Example.env (Example.args1 [.energyStag 2 (.fin 5) none]) = .ok q := ⟨_, rfl⟩
        obtain ⟨q, hq⟩ := hst
        refine ⟨q, hq, ?_⟩
        have : Example.start1 [.energyStag 2 (.fin 5) none] = q := by
          unfold Example.start1
          rw [hq]
        rw [← this]
        exact hs
      · cases k1
    · cases k1
  · cases key

section resampling
variable {K V : Type} [Zero K] [One K] [Neg K] [Add K] [Sub K] [Mul K] [Inv K] [Div K] [NatCast K] [Pow K ℕ] [LinearOrder K] [Add V] [Sub V] [SMul K V]

/-- **C96, loss stagnation, from the first better energy on.** A `loss_update_resampling` object that was used before selects run `m` of a new dynamic exactly when a new object
does, at every call not before the first one with an energy below the stored one. -/
theorem C96_loss_partial (thresh : ℕ) (ht : 1 ≤ thresh) (q : LossSt K) (st : ℕ → St K V) (t m : ℕ) (hm : m < (st t).M)
    (h : ∃ i ≤ t, Flt.lt ((st i).bestE m) (q.best m) = true) : m ∈ lossSel thresh (some q) st t ↔ m ∈ lossSel thresh none st t := by
  rw [lossSel_mem thresh ht _ st t m hm, lossSel_mem thresh ht _ st t m hm]
  obtain ⟨h1, h2⟩ := lossFrom_recover thresh q st m t
  by_cases hex : ∃ i < t, Flt.lt ((st i).bestE m) (q.best m) = true
  · rw [h2 hex]
  · have hno : ∀ i < t, Flt.lt ((st i).bestE m) (q.best m) = false := by
      intro i hi
      cases e : Flt.lt ((st i).bestE m) (q.best m) with
      | false => rfl
      | true => exact absurd ⟨i, hi, e⟩ hex
    have hlt : Flt.lt ((st t).bestE m) (q.best m) = true := by
      obtain ⟨i, hi, e⟩ := h
      by_cases hit : i = t
      · rwa [hit] at e
      · exact absurd ⟨i, by omega, e⟩ hex
    have hf : Flt.lt ((st t).bestE m) (lossAt (lossFrom thresh (none : Option (LossSt K)) st t) m).1 = true := by
      rcases lossFrom_fresh thresh st m t with e | ⟨j, hj, hn, e⟩
      · rw [e]; exact lt_pinf_of_lt hlt
      · rw [e]; exact Flt.lt_of_lt_of_not_lt hn hlt (hno j hj)
    rw [h1 hno, hlt, hf]
    simp

/-- **C96, loss stagnation, before.** As long as the energy of run `m` is not below the one stored from the earlier dynamic, the run is selected at every
`wait_thresh`-th call, however much it improves. -/
theorem C96_loss_stale (thresh : ℕ) (ht : 1 ≤ thresh) (q : LossSt K) (st : ℕ → St K V) (t m : ℕ) (hm : m < (st t).M) (hw : q.wait m < thresh)
    (h : ∀ i ≤ t, Flt.lt ((st i).bestE m) (q.best m) = false) : m ∈ lossSel thresh (some q) st t ↔ (q.wait m + t + 1) % thresh = 0 := by
  rw [lossSel_mem thresh ht _ st t m hm, lossFrom_stale thresh q st m ht hw t fun i hi => h i (by omega)]
  simp only [h t (le_refl _), Bool.false_eq_true, not_false_eq_true, true_and]
  have hlt := Nat.mod_lt (q.wait m + t) (show 0 < thresh by omega)
  have e : (q.wait m + t + 1) % thresh = ((q.wait m + t) % thresh + 1) % thresh := by rw [Nat.mod_add_mod]
  rw [e]
  constructor
  · intro h1
    rw [show (q.wait m + t) % thresh + 1 = thresh by omega, Nat.mod_self]
  · intro h1
    by_contra h2
    rw [Nat.mod_eq_of_lt (by omega)] at h1
    omega

/-- **C96 is false for loss stagnation.** If the energies of run `m` of the new dynamic fall at every call but stay above the stored one, a new object never
selects the run, a used one selects it. -/
theorem C96_loss_false (thresh : ℕ) (ht : 1 ≤ thresh) (q : LossSt K) (st : ℕ → St K V) (m : ℕ) (hm : ∀ t, m < (st t).M) (hw : q.wait m < thresh)
    (hf : ∀ t, ∃ e, (st t).bestE m = .fin e) (hdec : ∀ t, Flt.lt ((st (t + 1)).bestE m) ((st t).bestE m) = true)
    (hab : ∀ t, Flt.lt ((st t).bestE m) (q.best m) = false) :
    (∀ t, m ∉ lossSel thresh none st t) ∧ ∃ t, m ∈ lossSel thresh (some q) st t := by
  constructor
  · have inv : ∀ t, Flt.lt ((st t).bestE m) (lossAt (lossFrom thresh (none : Option (LossSt K)) st t) m).1 = true := by
      intro t
      induction t with
      | zero =>
        obtain ⟨e, he⟩ := hf 0
        rw [he]
        rfl
      | succ t ih =>
        rw [lossFrom, lossAt_step, lossStep, if_pos ih]
        exact hdec t
    intro t h
    exact ((lossSel_mem thresh ht _ st t m (hm t)).1 h).1 (inv t)
  · refine ⟨thresh - 1 - q.wait m, (C96_loss_stale thresh ht q st _ m (hm _) hw fun i _ => hab i).2 ?_⟩
    rw [show q.wait m + (thresh - 1 - q.wait m) + 1 = thresh by omega, Nat.mod_self]

/-- **C96, consensus stagnation, from `patience` calls on.** A `consensus_stagnation` object that was used before on dynamics with as many runs never raises on a new dynamic
and, from call `patience` on (counted from 0), selects the runs a new object selects: those whose consensus moved by less than `update_thresh` in each of the last `patience`
calls. -/
theorem C96_consensus_partial [SoundArith K] [Zero V] (nd : V → V → Flt K) (patience : ℕ) (hp : 1 ≤ patience) (thresh : Flt K) (M : ℕ) (q : StagSt K V)
    (hq : StagUsed patience M q) (st : ℕ → St K V) (hok : ∀ t, ConsOK M (st t)) (hact : ∀ t, ∀ m ∈ (st (t + 1)).active, m ∈ (st t).active)
    (t : ℕ) : (∃ sel, stagSel nd patience thresh q st t = .ok sel) ∧ (patience ≤ t → ∃ sel sel', stagSel nd patience thresh q st t = .ok sel ∧
      stagSel nd patience thresh ⟨[], none⟩ st t = .ok sel' ∧ ∀ m, (m ∈ sel ↔ m ∈ sel') ∧
        (m ∈ sel ↔ m ∈ (st t).active ∧ ∀ i < patience, Flt.lt (nd (consOf (st (t - i)) m) (consOf (st (t - i - 1)) m)) thresh = true)) := by
  obtain ⟨pre, q₁, sel, q₂, e1, e2, e3⟩ := stagFrom_used nd patience thresh M q hq st hok hact t
  have es : stagSel nd patience thresh q st t = .ok sel := by
    simp only [stagSel, e1, bind, Except.bind, e2]
    rfl
  refine ⟨⟨sel, es⟩, fun hpt => ?_⟩
  have hfresh : ∀ t, stagFrom nd patience thresh ⟨[], none⟩ st t = stagAfter nd patience thresh st t := by
    intro t
    induction t with
    | zero => rfl
    | succ t ih => rw [stagFrom, stagAfter, ih]
  obtain ⟨q₃, sel', q₄, f1, f2, f3⟩ := C47_partial nd patience thresh M st hok hact t
  have fs : stagSel nd patience thresh ⟨[], none⟩ st t = .ok sel' := by
    simp only [stagSel, hfresh, f1, bind, Except.bind, f2]
    rfl
  refine ⟨sel, sel', es, fs, fun m => ?_⟩
  have hsel : m ∈ sel ↔ m ∈ (st t).active ∧ ∀ i < patience, Flt.lt (nd (consOf (st (t - i)) m) (consOf (st (t - i - 1)) m)) thresh = true := by
    rw [e3 m]
    refine and_congr_right fun _ => ?_
    rw [lastK_pre patience hp _ _ (by rw [List.length_map, List.length_range]; exact hpt)]
    constructor
    · intro h i hi
      refine h _ ((mem_lastK _ _ _).2 ⟨t - i - 1, by rw [List.length_map, List.length_range]; omega, Or.inr (by rw [List.length_map, List.length_range]; omega), ?_⟩)
      rw [List.getElem_map, List.getElem_range, show t - i - 1 + 1 = t - i by omega]
    · intro h d hd
      obtain ⟨j, hj, hjp, rfl⟩ := (mem_lastK _ _ _).1 hd
      rw [List.length_map, List.length_range] at hj hjp
      rw [List.getElem_map, List.getElem_range]
      have := h (t - 1 - j) (by omega)
      rwa [show t - (t - 1 - j) - 1 = j by omega, show t - (t - 1 - j) = j + 1 by omega] at this
  refine ⟨?_, hsel⟩
  rw [hsel, f3 m]
  refine and_congr_right fun _ => ?_
  constructor
  · intro h
    refine ⟨by omega, fun j hj hjp => ?_⟩
    have := h (t - 1 - j) (by omega)
    rwa [show t - (t - 1 - j) - 1 = j by omega, show t - (t - 1 - j) = j + 1 by omega] at this
  · rintro ⟨-, h⟩ i hi
    have := h (t - i - 1) (by omega) (Or.inr (by omega))
    rwa [show t - i - 1 + 1 = t - i by omega] at this

/-- **C96, used objects.** Every call leaves a `consensus_stagnation` object that meets the hypothesis of `C96_consensus_partial`. -/
theorem C96_used [SoundArith K] [Zero V] (nd : V → V → Flt K) (patience : ℕ) (hp : 1 ≤ patience) (thresh : Flt K) (M : ℕ) (st : ℕ → St K V) (hM : ∀ t, (st t).M = M) (t : ℕ)
    (q : StagSt K V) (h : stagFrom nd patience thresh ⟨[], none⟩ st (t + 1) = .ok q) : StagUsed patience M q := by
  have inv : ∀ t q, stagFrom nd patience thresh ⟨[], none⟩ st t = .ok q → q.updates.length ≤ patience := by
    intro t
    induction t with
    | zero =>
      intro q h
      injection h with h
      subst h
      exact Nat.zero_le _
    | succ t ih =>
      intro q h
      rw [stagFrom] at h
      simp only [bind_ok, pure_ok] at h
      obtain ⟨q₁, h1, ⟨sel, q₂⟩, h2, rfl⟩ := h
      exact (stag_used hp (hM t) (ih _ h1) h2).1
  rw [stagFrom] at h
  simp only [bind_ok, pure_ok] at h
  obtain ⟨q₁, h1, ⟨sel, q₂⟩, h2, rfl⟩ := h
  exact stag_used hp (hM t) (inv _ _ h1) h2

end resampling

/-- **C96 is false for consensus stagnation.** A new object selects nothing at its first call. An object that was used once before, on a dynamic whose consensus points were
those of the new dynamic, selects every active run at the first call on the new dynamic, whatever `patience ≥ 1` is. -/
theorem C96_consensus_false {K V : Type} [Field K] [LinearOrder K] [IsStrictOrderedRing K] [Add V] [Sub V] [SMul K V] [Zero V] (nd : V → V → Flt K)
    (hnd : ∀ v, nd v v = .fin 0) (patience : ℕ) (s : St K V) (hok : ConsOK s.M s) :
    ∃ q sel, stagFrom nd patience (.fin 1) ⟨[], none⟩ (fun _ => s) 1 = .ok q ∧ stagSel nd patience (.fin 1) q (fun _ => s) 0 = .ok sel ∧
      stagSel nd patience (.fin 1) ⟨[], none⟩ (fun _ => s) 0 = .ok [] ∧ ∀ m ∈ s.active, m ∈ sel := by
  obtain ⟨q, h1, h2⟩ := stag_first nd patience (.fin 1) s.M (fun _ => s) hok
  obtain ⟨sel, q', h3, -, h5⟩ := stag_next nd patience (.fin 1) s.M (fun _ => s) 0 q h2 hok fun _ h => h
  refine ⟨q, sel, ?_, ?_, ?_, fun m hm => (h5 m).2 ⟨hm, fun d hd => ?_⟩⟩
  · simp only [stagFrom, bind, Except.bind, h1]
    rfl
  · simp only [stagSel, stagFrom, bind, Except.bind, h3]
    rfl
  · simp only [stagSel, stagFrom, bind, Except.bind, h1]
    rfl
  · obtain ⟨j, hj, -, rfl⟩ := (mem_lastK _ _ _).1 hd
    rw [List.getElem_map, hnd]
    simp [Flt.lt]

/-- C96: states with falling energies `1 + 1/(t+1)` above the stored energy 1 meet the hypotheses of `C96_loss_false`. -/
example : (∀ t, (0 : ℕ) ∉ lossSel 3 (none : Option (LossSt ℚ)) (fun t => { Example.start [] none with bestE := fun _ => .fin (1 + 1 / (t + 1 : ℚ)) }) t) ∧
    ∃ t, (0 : ℕ) ∈ lossSel 3 (some (⟨fun _ => .fin 1, fun _ => 2⟩ : LossSt ℚ)) (fun t => { Example.start [] none with bestE := fun _ => .fin (1 + 1 / (t + 1 : ℚ)) }) t := by
  refine C96_loss_false 3 (by omega) ⟨fun _ => .fin 1, fun _ => 2⟩ _ 0 (fun t => ?_) (by decide) (fun t => ⟨_, rfl⟩) (fun t => ?_) (fun t => ?_)
  · show 0 < (Example.start [] none).M
    decide +kernel
  · have h : (1 : ℚ) / ((t : ℚ) + 1 + 1) < 1 / ((t : ℚ) + 1) := one_div_lt_one_div_of_lt (by positivity) (by linarith)
    simp only [Flt.lt, decide_eq_true_eq, Nat.cast_add, Nat.cast_one]
    linarith
  · have h : (0 : ℚ) < 1 / ((t : ℚ) + 1) := by positivity
    simp only [Flt.lt, decide_eq_false_iff_not, not_lt]
    linarith

/-- C96: and an energy below the stored one at the third call meets the one of `C96_loss_partial`. -/
example : (0 : ℕ) ∈ lossSel 3 (some (⟨fun _ => .fin (1 / 2), fun _ => 2⟩ : LossSt ℚ)) (fun t => { Example.start [] none with bestE := fun _ => .fin (if t < 2 then 1 else 0) }) 5 ↔
    (0 : ℕ) ∈ lossSel 3 (none : Option (LossSt ℚ)) (fun t => { Example.start [] none with bestE := fun _ => .fin (if t < 2 then 1 else 0) }) 5 :=
  C96_loss_partial 3 (by omega) _ _ 5 0 (show 0 < (Example.start [] none).M by decide +kernel) ⟨2, by omega, by decide +kernel⟩

/-- C96: a used object and a dynamic with a consensus point for each of its two runs. -/
example : StagUsed 2 2 (⟨[fun _ => .fin 1], some ⟨2, 1, fun _ _ => 3⟩⟩ : StagSt ℚ ℚ) ∧
    ∀ _t : ℕ, ConsOK 2 { Example.start [] none with cons := some ⟨2, 1, fun _ _ => 0⟩ } :=
  ⟨⟨by decide, _, rfl, rfl, rfl⟩, fun _ => ⟨rfl, by decide +kernel, by decide +kernel, _, rfl, rfl, rfl⟩⟩

/-- C96: with a used buffer the example dynamic still makes three steps when the old losses are far apart, and the check after `patience = 2` steps is reached. -/
example : (match execAll Example.env (cboInner Example.env) [.select, .step, .sched, .select, .step, .sched, .select]
      (Example.start1 [.energyStag 2 (.fin 0) (some fun r _ => .fin (100 * r))]) with
    | .ok s => decide (s.it = 2 ∧ s.active = [0])
    | .error _ => false) = true := by decide +kernel

end Verif
