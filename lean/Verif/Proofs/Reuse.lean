import Verif.Proofs.Stag
import Verif.Proofs.Resampling
import Verif.Spec.Reuse

/-! Helper lemmas on criteria objects that were used before (C96). -/

set_option linter.unusedSectionVars false

namespace Verif

/-- The ring buffer after writing `e 1, ..., e k` into a buffer with content `z`. -/
def ringFrom {α : Type} (z : ℕ → α) (p : ℕ) (e : ℕ → α) : ℕ → ℕ → α
  | 0, r => z r
  | k + 1, r => if r = (k + 1) % p then e (k + 1) else ringFrom z p e k r

theorem ringFrom_written {α : Type} (z : ℕ → α) (w : α) (p : ℕ) (e : ℕ → α) (r : ℕ) : ∀ k, (∃ j, 1 ≤ j ∧ j ≤ k ∧ j % p = r) →
    ringFrom z p e k r = ring w p e k r
  | 0, ⟨j, h1, h2, _⟩ => by omega
  | k + 1, ⟨j, h1, h2, h3⟩ => by
    simp only [ringFrom, ring]
    split_ifs with h
    · rfl
    · refine ringFrom_written z w p e r k ⟨j, h1, ?_, h3⟩
      rcases Nat.lt_or_ge j (k + 1) with hj | hj
      · omega
      · exact absurd (by rw [← h3, show j = k + 1 by omega]) h

theorem ringFrom_full {α : Type} (z : ℕ → α) (w : α) (p : ℕ) (e : ℕ → α) (k r : ℕ) (hr : r < p) (hk : p ≤ k) :
    ringFrom z p e k r = ring w p e k r := by
  apply ringFrom_written
  by_cases h0 : r = 0
  · exact ⟨p, by omega, hk, by rw [h0, Nat.mod_self]⟩
  · exact ⟨r, by omega, by omega, Nat.mod_eq_of_lt hr⟩

theorem ringFrom_part {α : Type} (z : ℕ → α) (p : ℕ) (e : ℕ → α) (r : ℕ) : ∀ k, k < p →
    ringFrom z p e k r = if 1 ≤ r ∧ r ≤ k then e r else z r
  | 0, _ => by rw [if_neg (by omega)]; rfl
  | k + 1, h => by
    simp only [ringFrom]
    rw [Nat.mod_eq_of_lt h, ringFrom_part z p e r k (by omega)]
    by_cases hr : r = k + 1
    · rw [if_pos hr, if_pos (by omega), hr]
    · rw [if_neg hr]
      by_cases h1 : 1 ≤ r ∧ r ≤ k
      · rw [if_pos h1, if_pos (by omega)]
      · rw [if_neg h1, if_neg (by omega)]

section stag
variable {K V : Type} [Field K] [LinearOrder K] [Add V] [Sub V] [SMul K V]

/-- State of a used criterion at position `i` when the loop condition is about to be evaluated the `k`-th time, dynamic with one run. -/
structure ReuseInv (env : Env K V) (tr : ℕ → St K V) (i p : ℕ) (th : Flt K) (z : ℕ → Flt K) (k : ℕ) : Prop where
  wf : WF (tr k)
  it : (tr k).it = k
  M : (tr k).M = 1
  term : ∃ L, (tr k).terms[i]? = some (.energyStag p th (some L)) ∧ ∀ r, L r 0 = ringFrom z p (fun j => consEnergy env (tr j)) (k - 1) r
  cons : (k = 0 → (tr k).cons = none) ∧ (1 ≤ k → ∃ c, (tr k).cons = some c ∧ c.rows = (tr k).active.length)
  reason : 0 ∈ (tr k).active ∨ k = 0 → ¬ StoppedBy (tr k) 0 i

theorem reuse_eval {env : Env K V} {tr : ℕ → St K V} {i p : ℕ} {th : Flt K} {z : ℕ → Flt K} {k : ℕ}
    (hI : ReuseInv env tr i p th z k) {q : St K V} {L : ℕ → ℕ → Flt K}
    (hq : q = { tr k with nEval := q.nEval, log := q.log }) {v : (ℕ → Bool) × Term K × St K V}
    (hL : ∀ r, L r 0 = ringFrom z p (fun j => consEnergy env (tr j)) (k - 1) r)
    (h : evalTerm env (.energyStag p th (some L)) q = .ok v) :
    (1 ≤ k → (tr k).active = [0]) ∧
    (∃ L', v.2.1 = .energyStag p th (some L') ∧ ∀ r, L' r 0 = ringFrom z p (fun j => consEnergy env (tr j)) k r) ∧
    (v.1 0 = true ↔ 1 ≤ k ∧ Flt.lt (Flt.std env.sqrtK
      ((List.range p).map fun r => ringFrom z p (fun j => consEnergy env (tr j)) k r)) th = true) := by
  have qc : q.cons = (tr k).cons := by rw [hq]
  have qa : q.active = (tr k).active := by rw [hq]
  have qi : q.it = k := by rw [hq]; exact hI.it
  simp only [evalTerm, evalStag] at h
  by_cases hk : k = 0
  · subst hk
    rw [qc, hI.cons.1 rfl] at h
    simp only [pure_ok] at h
    subst h
    exact ⟨by omega, ⟨_, rfl, fun r => hL r⟩, by simp⟩
  · obtain ⟨c, hc, hcr⟩ := hI.cons.2 (by omega)
    rw [qc, hc] at h
    simp only at h
    split_ifs at h with h1 h2 h3
    simp only [pure_ok] at h
    subst h
    rw [qa] at h1 h3
    have hact : (tr k).active = [0] := by
      obtain ⟨x, hx⟩ := List.length_eq_one_iff.1 h3.1
      have := h1 x (by rw [hx]; simp)
      rw [hcr, h3.1] at this
      have : x = 0 := by omega
      rw [hx, this]
    have hce : consEnergy env (tr k) = env.f (c.get 0 0) := by simp only [consEnergy, hc]
    have hbuf : ∀ r, (fun r m => if r = q.it % p ∧ m = q.active.getD 0 0 then env.f (c.get (q.active.getD 0 0) 0)
          else ((some L).getD fun _ _ => Flt.pinf) r m) r 0 = ringFrom z p (fun j => consEnergy env (tr j)) k r := by
      intro r
      obtain ⟨j, rfl⟩ : ∃ j, k = j + 1 := ⟨k - 1, by omega⟩
      simp only [ringFrom, qi, qa, hact, List.getD_cons_zero, and_true, Option.getD_some]
      split_ifs with hr
      · rw [hce]
      · rw [hL r]; rfl
    refine ⟨fun _ => hact, ⟨_, rfl, hbuf⟩, ?_⟩
    simp only at hbuf ⊢
    rw [List.map_congr_left (fun r _ => hbuf r)]
    simp only [show 1 ≤ k by omega, true_and]

theorem reuseInv {env : Env K V} {move : St K V → Except Err (St K V)} (hm : MoveOK move) (hpost : PostOK env)
    (hp : PermOK env) {a : Args K V} {tr : ℕ → St K V} (h0 : init env a = .ok (tr 0)) {i p : ℕ} {th : Flt K} {L₀ : ℕ → ℕ → Flt K}
    (hi : a.terms[i]? = some (.energyStag p th (some L₀))) (hM : a.x0.rows = 1) :
    ∀ k, Trajectory env (consThen env move) k tr → ReuseInv env tr i p th (fun r => L₀ r 0) k := by
  intro k
  induction k with
  | zero =>
    intro _
    have e1 : (tr 0).it = 0 ∧ (tr 0).terms = a.terms ∧ (tr 0).cons = none ∧ ((tr 0).reason = fun _ => none) ∧ (tr 0).M = a.x0.rows := by
      have h := h0
      unfold init at h
      split_ifs at h <;>
        (injection h with h
         rw [← h]
         exact ⟨rfl, rfl, rfl, rfl, rfl⟩)
    refine ⟨init_wf hp h0, e1.1, by rw [e1.2.2.2.2, hM], ⟨L₀, by rw [e1.2.1]; exact hi, fun r => rfl⟩, ⟨fun _ => e1.2.2.1, by omega⟩, ?_⟩
    rintro - ⟨l, hl, -⟩
    rw [e1.2.2.2.1] at hl
    cases hl
  | succ k ih =>
    intro ht
    have hI := ih fun j hj => ht j (by omega)
    obtain ⟨q, u, h1, h2, h3⟩ := ht k (by omega)
    obtain ⟨L, hL, hL'⟩ := hI.term
    obtain ⟨w, v, hw, hv, htm, hm'⟩ := select_get h1 hL
    obtain ⟨e1, ⟨L', e2, e3⟩, -⟩ := reuse_eval hI hw hL' hv
    have fq := select_frame h1
    have fu := step_frame (consThen_frame hm) h2
    have ft := sched_frame h3
    have wq := select_wf hI.wf h1
    have wu := step_wf hm hpost hp wq h2
    have hact : (tr (k + 1)).active = q.active := by rw [ft]; exact fu.active
    have hrea : (tr (k + 1)).reason = q.reason := by rw [ft]; exact fu.reason
    refine ⟨sched_wf wu h3, ?_, ?_, ⟨L', ?_, e3⟩, ⟨by omega, ?_⟩, ?_⟩
    · rw [ft]; simp only; rw [fu.it, fq]; simp only; rw [hI.it]
    · rw [ft]; simp only; rw [fu.M, fq]; simp only; rw [hI.M]
    · rw [ft]; simp only; rw [fu.terms, htm, e2]
    · intro _
      obtain ⟨c, hc, hcr⟩ := step_cons hm hp wq h2
      exact ⟨c, by rw [ft]; exact hc, by rw [hact]; exact hcr⟩
    · intro hmm hst
      have hst' : StoppedBy q 0 i := by
        obtain ⟨l, hl, hil⟩ := hst
        exact ⟨l, by rw [← hrea]; exact hl, hil⟩
      have hmM : 0 < (tr k).M := by rw [hI.M]; exact Nat.one_pos
      have hmm' : 0 ∈ q.active := by
        rcases hmm with h | h
        · rwa [hact] at h
        · omega
      rcases (hm' 0 hmM).2.2 hst' with hh | hh
      · rw [(hm' 0 hmM).1 hmm'] at hh; cases hh
      · refine hI.reason ?_ hh
        by_cases hk : k = 0
        · exact .inr hk
        · exact .inl (by rw [e1 (by omega)]; simp)

/-- The decision of a used criterion at every check. -/
theorem reuse_stop {env : Env K V} {move : St K V → Except Err (St K V)} (hm : MoveOK move) (hpost : PostOK env)
    (hp : PermOK env) {a : Args K V} {tr : ℕ → St K V} (h0 : init env a = .ok (tr 0)) {i p : ℕ} {th : Flt K} {L₀ : ℕ → ℕ → Flt K}
    (hi : a.terms[i]? = some (.energyStag p th (some L₀))) (hM : a.x0.rows = 1) {k : ℕ} (ht : Trajectory env (consThen env move) k tr)
    {q : St K V} (hq : selectActive env (tr k) = .ok q) :
    StoppedBy q 0 i ↔ 1 ≤ k ∧ Flt.lt (Flt.std env.sqrtK
      ((List.range p).map fun r => ringFrom (fun r => L₀ r 0) p (fun j => consEnergy env (tr j)) k r)) th = true := by
  have hI := reuseInv hm hpost hp h0 hi hM k ht
  obtain ⟨L, hL, hL'⟩ := hI.term
  obtain ⟨w, v, hw, hv, -, hm'⟩ := select_get hq hL
  obtain ⟨e1, -, e5⟩ := reuse_eval hI hw hL' hv
  have hM' : 0 < (tr k).M := by rw [hI.M]; exact Nat.one_pos
  rw [← e5]
  constructor
  · intro hs
    rcases (hm' 0 hM').2.2 hs with hh | hh
    · exact hh
    · refine absurd hh (hI.reason ?_)
      by_cases hk : k = 0
      · exact .inr hk
      · exact .inl (by rw [e1 (by omega)]; simp)
  · exact (hm' 0 hM').2.1

end stag

section resampling
variable {K V : Type} [Zero K] [One K] [Neg K] [Add K] [Sub K] [Mul K] [Inv K] [Div K] [NatCast K] [Pow K ℕ] [LinearOrder K] [Add V] [Sub V] [SMul K V]

/-- The entry of run `m` in the state of `loss_update_resampling`. -/
def lossAt (q : Option (LossSt K)) (m : ℕ) : Flt K × ℕ := ((q.getD ⟨fun _ => .pinf, fun _ => 0⟩).best m, (q.getD ⟨fun _ => .pinf, fun _ => 0⟩).wait m)

/-- One call, seen from run `m`. -/
def lossStep (thresh : ℕ) (p : Flt K × ℕ) (b : Flt K) : Flt K × ℕ :=
  if Flt.lt b p.1 = true then (b, 0) else (p.1, if thresh = 0 then 0 else (p.2 + 1) % thresh)

theorem lossAt_step (thresh : ℕ) (q : Option (LossSt K)) (s : St K V) (m : ℕ) :
    lossAt (some (lossUpdate thresh q s).2) m = lossStep thresh (lossAt q m) (s.bestE m) := by
  simp only [lossAt, lossStep, lossUpdate, Option.getD_some, Flt.gt]
  split_ifs <;> simp_all

theorem lossSel_mem (thresh : ℕ) (ht : 1 ≤ thresh) (q : Option (LossSt K)) (st : ℕ → St K V) (t m : ℕ) (hm : m < (st t).M) :
    m ∈ lossSel thresh q st t ↔ ¬ Flt.lt ((st t).bestE m) (lossAt (lossFrom thresh q st t) m).1 = true ∧
      thresh ≤ (lossAt (lossFrom thresh q st t) m).2 + 1 := by
  simp only [lossSel, lossUpdate, List.mem_filter, List.mem_range, hm, true_and, decide_eq_true_eq, lossAt, Flt.gt]
  by_cases h : Flt.lt ((st t).bestE m) (((lossFrom thresh q st t).getD ⟨fun _ => .pinf, fun _ => 0⟩).best m) = true
  · simp only [h, if_true, decide_eq_true_eq, not_true_eq_false, false_and, iff_false]; omega
  · simp only [h, if_false, decide_eq_true_eq, not_false_eq_true, true_and, Bool.false_eq_true]

/-- While nothing is below the stored energy, the stored energy stays and the waiting time counts all calls. -/
theorem lossFrom_stale (thresh : ℕ) (q : LossSt K) (st : ℕ → St K V) (m : ℕ) (ht : 1 ≤ thresh) (hw : q.wait m < thresh) : ∀ t,
    (∀ i < t, Flt.lt ((st i).bestE m) (q.best m) = false) → lossAt (lossFrom thresh (some q) st t) m = (q.best m, (q.wait m + t) % thresh)
  | 0, _ => by simp [lossFrom, lossAt, Nat.mod_eq_of_lt hw]
  | t + 1, h => by
    rw [lossFrom, lossAt_step, lossFrom_stale thresh q st m ht hw t fun i hi => h i (by omega), lossStep, if_neg (by simp [h t (by omega)]), if_neg (by omega)]
    simp only
    rw [Nat.mod_add_mod]
    rfl

/-- A new object stores infinity or the energy of one of the calls. -/
theorem lossFrom_fresh (thresh : ℕ) (st : ℕ → St K V) (m : ℕ) : ∀ t, (lossAt (lossFrom thresh (none : Option (LossSt K)) st t) m).1 = .pinf ∨
    ∃ j < t, (st j).bestE m ≠ .nan ∧ (lossAt (lossFrom thresh (none : Option (LossSt K)) st t) m).1 = (st j).bestE m
  | 0 => Or.inl rfl
  | t + 1 => by
    rw [lossFrom, lossAt_step, lossStep]
    by_cases h : Flt.lt ((st t).bestE m) (lossAt (lossFrom thresh (none : Option (LossSt K)) st t) m).1 = true
    · rw [if_pos h]; exact Or.inr ⟨t, by omega, Flt.ne_nan_of_lt_left h, rfl⟩
    · rw [if_neg h]
      rcases lossFrom_fresh thresh st m t with e | ⟨j, hj, hn, e⟩
      · exact Or.inl e
      · exact Or.inr ⟨j, by omega, hn, e⟩

theorem lt_pinf_of_lt {a b : Flt K} (h : Flt.lt a b = true) : Flt.lt a .pinf = true := by cases a <;> cases b <;> simp_all [Flt.lt]

/-- After the first energy below the stored one a used object agrees with a new one. -/
theorem lossFrom_recover (thresh : ℕ) (q : LossSt K) (st : ℕ → St K V) (m : ℕ) : ∀ t,
    ((∀ i < t, Flt.lt ((st i).bestE m) (q.best m) = false) → (lossAt (lossFrom thresh (some q) st t) m).1 = q.best m) ∧
    ((∃ i < t, Flt.lt ((st i).bestE m) (q.best m) = true) → lossAt (lossFrom thresh (some q) st t) m = lossAt (lossFrom thresh none st t) m)
  | 0 => ⟨fun _ => rfl, fun ⟨i, h, _⟩ => by omega⟩
  | t + 1 => by
    obtain ⟨h1, h2⟩ := lossFrom_recover thresh q st m t
    refine ⟨fun h => ?_, fun h => ?_⟩
    · rw [lossFrom, lossAt_step, lossStep, h1 fun i hi => h i (by omega), if_neg (by simp [h t (by omega)])]
    · rw [lossFrom, lossFrom, lossAt_step, lossAt_step]
      by_cases hex : ∃ i < t, Flt.lt ((st i).bestE m) (q.best m) = true
      · rw [h2 hex]
      · have hno : ∀ i < t, Flt.lt ((st i).bestE m) (q.best m) = false := by
          intro i hi
          cases e : Flt.lt ((st i).bestE m) (q.best m) with
          | false => rfl
          | true => exact absurd ⟨i, hi, e⟩ hex
        have hlt : Flt.lt ((st t).bestE m) (q.best m) = true := by
          obtain ⟨i, hi, e⟩ := h
          by_cases hit : i = t
          · rwa [hit] at e
          · exact absurd ⟨i, by omega, e⟩ hex
        have hf : Flt.lt ((st t).bestE m) (lossAt (lossFrom thresh (none : Option (LossSt K)) st t) m).1 = true := by
          rcases lossFrom_fresh thresh st m t with e | ⟨j, hj, hn, e⟩
          · rw [e]; exact lt_pinf_of_lt hlt
          · rw [e]; exact Flt.lt_of_lt_of_not_lt hn hlt (hno j hj)
        rw [lossStep, lossStep, h1 hno, if_pos hlt, if_pos hf]

theorem lastK_pre {α : Type} (k : ℕ) (hk : 1 ≤ k) (pre l : List α) (h : k ≤ l.length) : lastK k (pre ++ l) = lastK k l := by
  unfold lastK
  rw [if_neg (by omega), if_neg (by omega), List.length_append, List.drop_append, List.drop_eq_nil_of_le (by omega), List.nil_append]
  congr 1
  omega

/-- A call keeps the form of a used object. -/
theorem stag_used [Zero V] {nd : V → V → Flt K} {patience : ℕ} (hp : 1 ≤ patience) {thresh : Flt K} {M : ℕ} {q q' : StagSt K V} {s : St K V} {sel : List ℕ} (hs : s.M = M)
    (hq : q.updates.length ≤ patience) (h : consensusStagnation nd patience thresh q s = .ok (sel, q')) : StagUsed patience M q' := by
  unfold consensusStagnation at h
  split at h
  · cases h
  · split at h
    · simp only [bind_ok, pure_ok] at h
      obtain ⟨o, ho, e⟩ := h
      injection e with e1 e2
      subst e2
      obtain ⟨-, o1, o2, -⟩ := Mat.scatter_ok ho
      exact ⟨hq, o, rfl, o1.trans hs, o2⟩
    · simp only [bind_ok, pure_ok] at h
      obtain ⟨og, -, df, -, di, -, o, ho, e⟩ := h
      injection e with e1 e2
      subst e2
      obtain ⟨-, o1, o2, -⟩ := Mat.scatter_ok ho
      refine ⟨?_, o, rfl, o1.trans hs, o2⟩
      simp only [lastK]
      rw [if_neg (by omega), List.length_drop]
      omega

/-- The state of a used object after calls on a new dynamic. -/
theorem stagFrom_used [SoundArith K] [Zero V] (nd : V → V → Flt K) (patience : ℕ) (thresh : Flt K) (M : ℕ) (q : StagSt K V)
    (hq : StagUsed patience M q) (st : ℕ → St K V) (hok : ∀ t, ConsOK M (st t)) (hact : ∀ t, ∀ m ∈ (st (t + 1)).active, m ∈ (st t).active) (t : ℕ) :
    ∃ pre : ℕ → List (Flt K), ∃ q₁ sel q₂, stagFrom nd patience thresh q st t = .ok q₁ ∧ consensusStagnation nd patience thresh q₁ (st t) = .ok (sel, q₂) ∧
      ∀ m, m ∈ sel ↔ m ∈ (st t).active ∧ ∀ d ∈ lastK patience (pre m ++ (List.range t).map fun j => nd (consOf (st (j + 1)) m) (consOf (st j) m)),
        Flt.lt d thresh = true := by
  obtain ⟨hlen, o, ho, hr, hc⟩ := hq
  let fake : St K V := { st 0 with active := List.range M, cons := some o }
  let sq : ℕ → St K V := fun i => match i with | 0 => fake | i + 1 => st i
  let pre : ℕ → List (Flt K) := fun m => q.updates.map fun u => u m
  have hcons : ∀ m < M, consOf fake m = o.get m 0 := by
    intro m hm
    have e : (List.range M).idxOf m = m := by
      have h := List.nodup_range (n := M)
      have hl : m < (List.range M).length := by simpa using hm
      have := h.idxOf_getElem m hl
      rwa [List.getElem_range] at this
    simp only [consOf, fake, e]
  have h0 : StagInvFrom nd patience M pre sq 0 q := by
    refine ⟨o, ho, hr, hc, fun m hm => ⟨?_, ?_⟩⟩
    · have : m ∈ List.range M := hm
      exact (hcons m (List.mem_range.1 this)).symm
    · simp only [List.range_zero, List.map_nil, List.append_nil, pre]
      unfold lastK
      split
      · rfl
      · rw [List.length_map, show q.updates.length - patience = 0 by omega, List.drop_zero]
  have hacts : ∀ i, ∀ m ∈ (sq (i + 1)).active, m ∈ (sq i).active := by
    intro i m hm
    cases i with
    | zero => exact List.mem_range.2 ((hok 0).bound m hm)
    | succ i => exact hact i m hm
  have inv : ∀ i, ∃ q₁, stagFrom nd patience thresh q st i = .ok q₁ ∧ StagInvFrom nd patience M pre sq i q₁ := by
    intro i
    induction i with
    | zero => exact ⟨q, rfl, h0⟩
    | succ i ih =>
      obtain ⟨q₁, e1, e2⟩ := ih
      obtain ⟨sel, q₂, e3, e4, -⟩ := stag_next_from nd patience thresh M pre sq i q₁ e2 (hok i) (hacts i)
      refine ⟨q₂, ?_, e4⟩
      rw [stagFrom, e1]
      simp only [bind, Except.bind]
      have e3' : consensusStagnation nd patience thresh q₁ (st i) = .ok (sel, q₂) := e3
      rw [e3']
      rfl
  obtain ⟨q₁, e1, e2⟩ := inv t
  obtain ⟨sel, q₂, e3, -, e5⟩ := stag_next_from nd patience thresh M pre sq t q₁ e2 (hok t) (hacts t)
  refine ⟨fun m => pre m ++ [nd (consOf (st 0) m) (consOf fake m)], q₁, sel, q₂, e1, e3, fun m => ?_⟩
  rw [e5 m]
  refine and_congr_right fun _ => ?_
  have : (List.range (t + 1)).map (fun j => nd (consOf (sq (j + 1)) m) (consOf (sq j) m)) =
      [nd (consOf (st 0) m) (consOf fake m)] ++ (List.range t).map fun j => nd (consOf (st (j + 1)) m) (consOf (st j) m) := by
    rw [List.range_succ_eq_map, List.map_cons, List.map_map]
    rfl
  rw [this, List.append_assoc]

end resampling

end Verif
