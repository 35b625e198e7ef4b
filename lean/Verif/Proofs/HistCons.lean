import Verif.Props.History
import Verif.Proofs.Sim
import Verif.Proofs.Total
import Verif.Proofs.Local

/-! Helper lemmas: the entries of the history belong together. -/

set_option linter.unusedSectionVars false

namespace Verif

variable {K V : Type} [Zero K] [One K] [Neg K] [Add K] [Sub K] [Mul K] [Inv K] [Div K] [NatCast K] [Pow K ℕ] [LinearOrder K] [Add V] [Sub V] [SMul K V]

/-- Split a list of operations at the step number `j`. -/
theorem split_step : ∀ {ops : List Op} {j : ℕ}, j < nSteps ops → ∃ l₁ l₂, ops = l₁ ++ Op.step :: l₂ ∧ nSteps l₁ = j
  | [], j, h => by simp [nSteps] at h
  | o :: ops, j, h => by
    by_cases ho : o = .step
    · subst ho
      cases j with
      | zero => exact ⟨[], ops, rfl, rfl⟩
      | succ j =>
        obtain ⟨l₁, l₂, h1, h2⟩ := split_step (ops := ops) (j := j) (by simp only [nSteps, List.count_cons_self] at h ⊢; omega)
        exact ⟨.step :: l₁, l₂, by rw [h1]; rfl, by simp only [nSteps, List.count_cons_self] at h2 ⊢; omega⟩
    · obtain ⟨l₁, l₂, h1, h2⟩ := split_step (ops := ops) (j := j) (by
        simp only [nSteps, List.count_cons_of_ne ho] at h ⊢; exact h)
      exact ⟨o :: l₁, l₂, by rw [h1]; rfl, by simp only [nSteps, List.count_cons_of_ne ho] at h2 ⊢; exact h2⟩

theorem execAll_split {env : Env K V} {inner : St K V → Except Err (St K V)} : ∀ {l₁ l₂ : List Op} {s s' : St K V},
    execAll env inner (l₁ ++ l₂) s = .ok s' → ∃ q, execAll env inner l₁ s = .ok q ∧ execAll env inner l₂ q = .ok s'
  | [], _, s, _, h => ⟨s, rfl, h⟩
  | o :: l₁, l₂, s, s', h => by
    simp only [List.cons_append, execAll, bind_ok] at h
    obtain ⟨r, hr, h⟩ := h
    obtain ⟨q, h1, h2⟩ := execAll_split h
    exact ⟨q, by simp only [execAll, bind_ok]; exact ⟨r, hr, h1⟩, h2⟩

/-- With interval 1, the last recorded positions are the current ones. -/
theorem hist_x_last {env : Env K V} {inner : St K V → Except Err (St K V)} (hi : InnerFrame inner) {a : Args K V} (hn : a.tracks.Nodup)
    (hx : Track.x ∈ a.tracks) (hs : a.saveInt = 1) : ∀ {ops : List Op} {s s' : St K V} {k : ℕ}, Op.reset ∉ ops → HistInv a k s →
      (s.hist .x)[k]? = some (.x s.x) → execAll env inner ops s = .ok s' → (s'.hist .x)[k + nSteps ops]? = some (.x s'.x)
  | [], s, s', k, _, _, hl, h => by
    simp only [execAll] at h
    injection h with h
    subst h
    exact hl
  | o :: l, s, s', k, hr, hI, hl, h => by
    simp only [execAll, bind_ok] at h
    obtain ⟨b, hb, h⟩ := h
    simp only [List.mem_cons, not_or] at hr
    have h1 := (histInv_exec hi hn (Ne.symm hr.1) hI hb).1
    by_cases ho : o = .step
    · subst ho
      rw [if_pos rfl] at h1
      have hh := (step_hist hi hb (by rw [hI.tracks]; exact hn) .x).1
      rw [hI.tracks, hI.saveInt, hs, if_pos ⟨Nat.mod_one _, hx⟩] at hh
      have hlen := hI.len .x hx (fun _ => by simp)
      have e : k + nSteps (Op.step :: l) = k + 1 + nSteps l := by
        simp only [nSteps, List.count_cons_self]
        omega
      rw [e]
      refine hist_x_last hi hn hx hs hr.2 h1 ?_ h
      have : (s.hist .x).length = k + 1 := by rw [hlen, hs]; simp [off]
      rw [hh, List.getElem?_append_right (by omega), this, Nat.sub_self]
      rfl
    · rw [if_neg ho] at h1
      have e : k + nSteps (o :: l) = k + nSteps l := by simp only [nSteps, List.count_cons_of_ne ho]
      rw [e]
      refine hist_x_last hi hn hx hs hr.2 h1 ?_ h
      have : b.x = s.x ∧ b.hist = s.hist := by
        cases o with
        | step => exact absurd rfl ho
        | reset => exact absurd rfl hr.1
        | select => rw [select_frame hb]; exact ⟨rfl, rfl⟩
        | sched => rw [sched_frame hb]; exact ⟨rfl, rfl⟩
      rw [this.1, this.2]
      exact hl

theorem hist_x_init {env : Env K V} {a : Args K V} {s : St K V} (h : init env a = .ok s) : (s.hist .x)[0]? = some (.x s.x) := by
  unfold init at h
  split_ifs at h <;> (injection h with h; rw [← h]; rfl)

/-- The state before the step number `j`, the state after it, and the entries recorded by this step. -/
theorem hist_at {env : Env K V} {inner : St K V → Except Err (St K V)} (hi : InnerFrame inner) {a : Args K V} {s₀ s : St K V} {ops : List Op}
    (h0 : init env a = .ok s₀) (hs : a.saveInt = 1) (hn : a.tracks.Nodup) (hr : Op.reset ∉ ops) (h : execAll env inner ops s₀ = .ok s)
    {j : ℕ} (hj : j < nSteps ops) : ∃ l₁ l₂ q u, ops = l₁ ++ Op.step :: l₂ ∧ nSteps l₁ = j ∧ execAll env inner l₁ s₀ = .ok q ∧ step env inner q = .ok u ∧
      (Track.x ∈ a.tracks → (s.hist .x)[j]? = some (.x q.x) ∧ (s.hist .x)[j + 1]? = some (.x u.x)) ∧
      (Track.energy ∈ a.tracks → (s.hist .energy)[j]? = some (.energy u.energy)) ∧
      (Track.updateNorm ∈ a.tracks → (s.hist .updateNorm)[j]? = some (.updateNorm u.updDiff)) ∧
      (Track.consensus ∈ a.tracks → (s.hist .consensus)[j]? = some (.consensus u.cons)) ∧
      (Track.drift ∈ a.tracks → (s.hist .drift)[j]? = some (.drift u.drift u.pIdx)) := by
  obtain ⟨l₁, l₂, rfl, hl⟩ := split_step hj
  obtain ⟨q, hq, h2⟩ := execAll_split h
  simp only [execAll, bind_ok] at h2
  obtain ⟨u, hu, h2⟩ := h2
  have hr1 : Op.reset ∉ l₁ := fun hc => hr (List.mem_append_left _ hc)
  have hr2 : Op.reset ∉ l₂ := fun hc => hr (List.mem_append_right _ (List.mem_cons_of_mem _ hc))
  have I0 := histInv_init h0 (by omega : 1 ≤ a.saveInt)
  have ent := fun t ht hto => C39_entry env inner hi a s₀ q u s l₁ l₂ h0 (by omega) hn hr1 hr2 hq hu h2 (by rw [hs, Nat.mod_one]) t ht hto
  rw [hs] at ent
  simp only [Nat.div_one, hl] at ent
  refine ⟨l₁, l₂, q, u, rfl, hl, hq, hu, fun ht => ⟨?_, ?_⟩, fun ht => ?_, fun ht => ?_, fun ht => ?_, fun ht => ?_⟩
  · have hx := hist_x_last hi hn ht hs hr1 I0 (hist_x_init h0) hq
    rw [Nat.zero_add, hl] at hx
    have I1 := (histInv_execAll hi hn hr1 I0 hq).1
    have I2 := histInv_exec hi hn (o := .step) (by decide) I1 hu
    have I3 := (histInv_execAll hi hn hr2 I2.1 h2).2 .x
    obtain ⟨w, hw⟩ := (I2.2 .x).trans I3
    rw [← hw, List.getElem?_append_left (by
      by_contra hc
      rw [List.getElem?_eq_none (by omega)] at hx
      cases hx)]
    exact hx
  · simpa using ent .x ht (fun _ => by simp)
  · simpa using ent .energy ht (fun _ => by simp)
  · simpa using ent .updateNorm ht (fun _ => by simp)
  · simpa using ent .consensus ht (fun _ => by simp)
  · simpa using ent .drift ht (fun _ => by simp)

theorem step_cons_mean {env : Env K V} {move : St K V → Except Err (St K V)} (hm : MoveOK move) (hp : PermOK env)
    {r : List (K × Flt K × V) → V} (hr : env.cons = .mean r) {s s' : St K V} (hw : WF s) (hb : s.batched = false)
    (h : step env (consThen env move) s = .ok s') : ∃ c, s'.cons = some c ∧ c.rows = s.active.length ∧ c.cols = 1 ∧
      ∀ i < s.active.length, c.get i 0 = r ((List.range s.N).map fun n =>
        (s.alpha (s.active.getD i 0), env.f (s.x.get (s.active.getD i 0) n), s.x.get (s.active.getD i 0) n)) := by
  obtain ⟨v, hv, hps⟩ := step_split.1 h
  obtain ⟨c, hcc, hmv⟩ := consThen_split.1 hv
  have hix := preStep_idx env hp hw
  have p1 := preStep_frame env s
  have pact : (preStep env s).active = s.active := by rw [p1]
  have px : (preStep env s).x = s.x := by rw [p1]
  have pal : (preStep env s).alpha = s.alpha := by rw [p1]
  obtain ⟨cm, hcm, cm1, cm2, cm3⟩ := computeConsensus_mean hr (by rw [pact]; exact hix.cRows) hcc
  have mf := hm.frame _ _ hmv
  unfold MoveFrame at mf
  have pf := postStep_facts hps
  refine ⟨cm, ?_, by rw [cm1, pact], cm2, fun i hi => ?_⟩
  · rw [pf.frame]; simp only; rw [mf]; exact hcm
  · rw [cm3 i (by rw [pact]; exact hi)]
    unfold sampleOf
    rw [pact, px, pal, hix.cCols, hw.unb hb, hix.cRun i hi]
    congr 1
    apply List.map_congr_left
    intro n _
    rw [((preStep_row env s).2 hb).1]

/-- Fields that change only in `select` and `reset`, or never. -/
theorem exec_config {env : Env K V} {move : St K V → Except Err (St K V)} (hm : MoveOK move) {o : Op} {s s' : St K V}
    (h : exec env (consThen env move) o s = .ok s') :
    s'.M = s.M ∧ s'.N = s.N ∧ s'.batched = s.batched ∧ (o ≠ .select → s'.active = s.active) := by
  cases o with
  | step =>
    have f := step_frame (consThen_frame hm) h
    exact ⟨f.M, f.N, f.batched, fun _ => f.active⟩
  | select => rw [select_frame h]; exact ⟨rfl, rfl, rfl, fun hc => absurd rfl hc⟩
  | sched => rw [sched_frame h]; exact ⟨rfl, rfl, rfl, fun _ => rfl⟩
  | reset =>
    simp only [exec, reset] at h
    injection h with h
    rw [← h]
    exact ⟨rfl, rfl, rfl, fun _ => rfl⟩

theorem execAll_config {env : Env K V} {move : St K V → Except Err (St K V)} (hm : MoveOK move) : ∀ {ops : List Op} {s s' : St K V},
    execAll env (consThen env move) ops s = .ok s' →
    s'.M = s.M ∧ s'.N = s.N ∧ s'.batched = s.batched ∧ (Op.select ∉ ops → s'.active = s.active)
  | [], s, s', h => by
    simp only [execAll] at h
    injection h with h
    subst h
    exact ⟨rfl, rfl, rfl, fun _ => rfl⟩
  | o :: l, s, s', h => by
    simp only [execAll, bind_ok] at h
    obtain ⟨b, hb, h⟩ := h
    obtain ⟨a1, a2, a3, a4⟩ := exec_config hm hb
    obtain ⟨b1, b2, b3, b4⟩ := execAll_config hm h
    refine ⟨b1.trans a1, b2.trans a2, b3.trans a3, fun hc => ?_⟩
    simp only [List.mem_cons, not_or] at hc
    exact (b4 hc.2).trans (a4 (Ne.symm hc.1))

theorem init_config {env : Env K V} {a : Args K V} {s : St K V} (h : init env a = .ok s) :
    s.M = a.x0.rows ∧ s.N = a.x0.cols ∧ (a.batchSize = none → s.batched = false) ∧ s.active = List.range a.x0.rows ∧ s.x = a.x0 := by
  unfold init at h
  split_ifs at h <;>
    (injection h with h
     subst h
     refine ⟨rfl, rfl, fun hb => ?_, rfl, rfl⟩
     simp [initBatch, hb, batchSizeOf])

end Verif
