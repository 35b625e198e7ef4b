import Verif.Proofs.Term
import Verif.Spec.Count
import Mathlib.Algebra.BigOperators.Group.Finset.Basic
import Mathlib.Algebra.BigOperators.Intervals

/-! Counting of objective evaluations. Helper lemmas. -/

set_option linter.unusedSectionVars false

namespace Verif

variable {K V : Type} [Zero K] [One K] [Neg K] [Add K] [Sub K] [Mul K] [Inv K] [Div K] [NatCast K] [Pow K ℕ] [LinearOrder K] [Add V] [Sub V] [SMul K V]

theorem count_entries {α : Type} (run : ℕ → ℕ) (a : Mat α) (m : ℕ) :
    (a.entries run).countP (fun q => decide (q.1 = m)) =
      (List.range a.rows).countP (fun i => decide (run i = m)) * a.cols := by
  unfold Mat.entries
  induction a.rows with
  | zero => simp
  | succ r ih =>
    rw [List.range_succ, List.flatMap_append, List.countP_append, ih, List.countP_append, add_mul]
    congr 1
    simp only [List.flatMap_cons, List.flatMap_nil, List.append_nil, List.countP_map]
    by_cases h : run r = m
    · simp [h, List.countP_eq_length.2, Function.comp_def]
    · simp [h, Function.comp_def]

theorem count_sites {α : Type} (site : Site) (l : List (ℕ × α)) (m : ℕ) :
    (l.map fun q => (site, q.1, q.2)).countP (fun q => decide (q.2.1 = m)) =
      l.countP fun q => decide (q.1 = m) := by
  rw [List.countP_map]; rfl

theorem count_getD {l : List ℕ} (h : l.Nodup) (m : ℕ) :
    (List.range l.length).countP (fun i => decide (l.getD i 0 = m)) = if m ∈ l then 1 else 0 := by
  have e : (List.range l.length).map (fun i => l.getD i 0) = l := by
    apply List.ext_getElem
    · simp
    · intro i h1 h2; simp [List.getD, h2]
  have : l.count m = (List.range l.length).countP (fun i => decide (l.getD i 0 = m)) := by
    conv_lhs => rw [← e]
    rw [List.count, List.countP_map]
    rfl
  rw [← this]
  split_ifs with hm
  · exact List.count_eq_one_of_mem h hm
  · exact List.count_eq_zero_of_not_mem hm

theorem count_range {M m : ℕ} (h : m < M) :
    (List.range M).countP (fun i => decide (id i = m)) = 1 := by
  have : (List.range M).countP (fun i => decide (id i = m)) = (List.range M).count m := rfl
  rw [this]
  exact List.count_eq_one_of_mem List.nodup_range (List.mem_range.2 h)

theorem countP_range_congr {n : ℕ} {p q : ℕ → Bool} (h : ∀ i < n, p i = q i) :
    (List.range n).countP p = (List.range n).countP q :=
  List.countP_congr fun i hi => by rw [h i (List.mem_range.1 hi)]

/-- Evaluations of the energies of a step, per run. -/
theorem step_log_count {ix : Idx} {act : List ℕ} (hn : act.Nodup) (hr : ix.rows = act.length)
    (hrun : ∀ i < act.length, ix.run i = act.getD i 0) {α : Type} (get : ℕ → ℕ → α) (site : Site) (m : ℕ) :
    ((Mat.entries ix.run ⟨ix.rows, ix.cols, get⟩).map fun q => (site, q.1, q.2)).countP
      (fun q => decide (q.2.1 = m)) = if m ∈ act then ix.cols else 0 := by
  rw [count_sites, count_entries, hr]
  simp only
  rw [countP_range_congr (q := fun i => decide (act.getD i 0 = m)) (fun i hi => by rw [hrun i hi]),
    count_getD hn]
  split_ifs <;> simp

/-- Each charge is an evaluation, and all evaluations belong to an existing run. -/
structure CountInv (s : St K V) : Prop where
  eq : ∀ m < s.M, s.nEval m = evalCount s m
  inRun : ∀ q ∈ s.log, q.2.1 < s.M

/-- Requirement on moves of a dynamic with `M₀` runs: they charge what they evaluate. -/
def MoveCounted (env : Env K V) (M₀ : ℕ) (move : St K V → Except Err (St K V)) : Prop :=
  ∀ s s', s.M = M₀ → s.active.Sublist (List.range s.M) →
    (∃ c, s.cons = some c ∧ c.rows = s.active.length ∧ (∀ r, env.cons = .mean r → c.cols = 1)) →
    move s = .ok s' → CountInv s → CountInv s'

theorem computeConsensus_cons {env : Env K V} {s s' : St K V}
    (h : computeConsensus env s = .ok s') (hr : s.cIdx.rows = s.active.length) :
    ∃ c, s'.cons = some c ∧ c.rows = s.active.length ∧ (∀ r, env.cons = .mean r → c.cols = 1) := by
  obtain ⟨c, hc, hc'⟩ := (computeConsensus_facts h).cons
  refine ⟨c, hc, by rcases hc' with h | h <;> omega, ?_⟩
  simp only [computeConsensus, bind_ok, pure_ok, evalF, callF] at h
  obtain ⟨xb, _, _, _, w, _, wx, _, en, _, rfl⟩ := h
  simp only [Option.some.injEq] at hc
  subst hc
  intro r hr
  rw [hr]; rfl

theorem countInv_consensus {env : Env K V} {s s' : St K V} (h : computeConsensus env s = .ok s')
    (hact : s.active.Sublist (List.range s.M)) (hr : s.cIdx.rows = s.active.length)
    (hrun : ∀ i < s.active.length, s.cIdx.run i = s.active.getD i 0) (hi : CountInv s) : CountInv s' := by
  have hf := computeConsensus_frame h
  have hc := computeConsensus_facts h
  have hM : s'.M = s.M := by rw [hf]
  have hnd : s.active.Nodup := hact.nodup List.nodup_range
  refine ⟨?_, ?_⟩
  · intro m hm
    rw [hc.nEval, evalCount, hc.log, List.countP_append, step_log_count hnd hr hrun]
    have := hi.eq m (by omega)
    unfold evalCount at this
    simp only
    split_ifs <;> omega
  · rw [hM]
    intro q hq
    rw [hc.log, List.mem_append] at hq
    rcases hq with hq | hq
    · exact hi.inRun q hq
    · simp only [List.mem_map, Mat.entries, List.mem_flatMap, List.mem_range] at hq
      obtain ⟨a, ⟨i, hi', j, hj, rfl⟩, rfl⟩ := hq
      simp only
      rw [hrun i (by omega)]
      exact List.mem_range.1 (hact.subset (getD_mem (by omega)))

theorem countInv_congr {s s' : St K V} (hi : CountInv s) (e1 : s'.M = s.M) (e2 : s'.nEval = s.nEval)
    (e3 : s'.log = s.log) : CountInv s' :=
  ⟨by rw [e1, e2]; unfold evalCount; rw [e3]; exact hi.eq, by rw [e1, e3]; exact hi.inRun⟩

theorem countInv_step {env : Env K V} {move : St K V → Except Err (St K V)} (hm : MoveOK move)
    {M₀ : ℕ} (hc : MoveCounted env M₀ move) (hp : PermOK env) {s s' : St K V} (hw : WF s) (hM₀ : s.M = M₀)
    (h : step env (consThen env move) s = .ok s') (hi : CountInv s) : CountInv s' := by
  obtain ⟨v, hv, hs⟩ := step_split.1 h
  obtain ⟨c, hcc, hmv⟩ := consThen_split.1 hv
  have p1 := preStep_frame env s
  have hix := preStep_idx env hp hw
  have pact : (preStep env s).active = s.active := by rw [p1]
  have pM : (preStep env s).M = s.M := by rw [p1]
  have i0 : CountInv (preStep env s) := countInv_congr hi (by rw [p1]) (by rw [p1]) (by rw [p1])
  have i1 : CountInv c := countInv_consensus hcc (by rw [pact, pM]; exact hw.act) (by rw [pact]; exact hix.cRows)
    (by rw [pact]; exact hix.cRun) i0
  have cf := computeConsensus_frame hcc
  have cact : c.active = s.active := by rw [cf]; exact pact
  have cM : c.M = s.M := by rw [cf]; exact pM
  obtain ⟨k, hk, hk', hk''⟩ := computeConsensus_cons hcc (by rw [pact]; exact hix.cRows)
  have i2 : CountInv v := hc c v (cM.trans hM₀) (by rw [cact, cM]; exact hw.act)
    ⟨k, hk, by rw [hk', pact, cact], hk''⟩ hmv i1
  have pf := (postStep_facts hs).frame
  exact countInv_congr i2 (by rw [pf]) (by rw [pf]) (by rw [pf])

theorem countInv_evalTerm {env : Env K V} {tm : Term K} {s : St K V} {r : (ℕ → Bool) × Term K × St K V}
    (h : evalTerm env tm s = .ok r) (hact : s.active.Sublist (List.range s.M)) (hi : CountInv s) :
    CountInv r.2.2 := by
  unfold evalTerm at h
  split at h
  case h_7 p th l =>
    unfold evalStag at h
    split at h
    · rw [pure_ok] at h; subst h; exact hi
    · split_ifs at h with h1 h2 h3
      rw [pure_ok] at h; subst h
      have hnd : s.active.Nodup := hact.nodup List.nodup_range
      refine ⟨?_, ?_⟩
      · intro m hm
        simp only [evalCount, callF] at hm ⊢
        rw [List.countP_append, count_sites, count_entries]
        simp only
        rw [count_getD hnd, h3.2]
        have := hi.eq m hm
        unfold evalCount at this
        split_ifs <;> omega
      · simp only [callF]
        intro q hq
        rw [List.mem_append] at hq
        rcases hq with hq | hq
        · exact hi.inRun q hq
        · simp only [List.mem_map, Mat.entries, List.mem_flatMap, List.mem_range] at hq
          obtain ⟨a, ⟨i, hi', j, hj, rfl⟩, rfl⟩ := hq
          exact List.mem_range.1 (hact.subset (getD_mem (by omega)))
  all_goals (rw [pure_ok] at h; subst h; exact hi)

theorem countInv_evalTerms {env : Env K V} : ∀ {l : List (Term K)} {s : St K V}
    {r : List (ℕ → Bool) × List (Term K) × St K V}, evalTerms env l s = .ok r →
    s.active.Sublist (List.range s.M) → CountInv s → CountInv r.2.2
  | [], s, r, h, _, hi => by
    simp only [evalTerms, pure_ok] at h; subst h; exact hi
  | tm :: l, s, r, h, hact, hi => by
    simp only [evalTerms, bind_ok, pure_ok] at h
    obtain ⟨a, ha, b, hb, rfl⟩ := h
    have hf := evalTerm_frame ha
    have := countInv_evalTerms hb (by rw [hf]; exact hact) (countInv_evalTerm ha hact hi)
    exact this

theorem countInv_exec {env : Env K V} {move : St K V → Except Err (St K V)} (hm : MoveOK move)
    {M₀ : ℕ} (hc : MoveCounted env M₀ move) (hp : PermOK env) {o : Op} {s s' : St K V}
    (hw : WF s) (hM₀ : s.M = M₀) (hi : CountInv s) (h : exec env (consThen env move) o s = .ok s') : CountInv s' := by
  cases o with
  | step => exact countInv_step hm hc hp hw hM₀ h hi
  | select =>
    simp only [exec, selectActive, bind_ok, pure_ok] at h
    obtain ⟨r, hr, rfl⟩ := h
    exact countInv_congr (countInv_evalTerms hr hw.act hi) rfl rfl rfl
  | sched =>
    simp only [exec] at h
    have hf := sched_frame h
    exact countInv_congr hi (by rw [hf]) (by rw [hf]) (by rw [hf])
  | reset =>
    simp only [exec] at h
    injection h with h
    subst h
    exact countInv_congr hi rfl rfl rfl

theorem countInv_init {env : Env K V} {a : Args K V} {s : St K V} (h : init env a = .ok s) :
    CountInv s := by
  unfold init at h
  split_ifs at h
  · injection h with h
    subst h
    refine ⟨?_, ?_⟩
    · intro m hm
      simp only [initBatch, initHistory, checkFDims, callF, baseSt, evalCount] at hm ⊢
      rw [List.countP_append, count_sites, count_entries]
      simp only
      rw [count_range hm]
      simp
    · intro q hq
      simp only [initBatch, initHistory, checkFDims, callF, baseSt, List.nil_append, List.mem_map,
        Mat.entries, List.mem_flatMap, List.mem_range] at hq ⊢
      obtain ⟨a, ⟨i, hi', j, hj, rfl⟩, rfl⟩ := hq
      exact hi'
  · injection h with h
    subst h
    exact ⟨fun m _ => rfl, fun q hq => by simp [initBatch, initHistory, baseSt] at hq⟩

/-- The charges of all runs add up to the total number of evaluations. -/
theorem countInv_total {s : St K V} (hi : CountInv s) :
    ∑ m ∈ Finset.range s.M, s.nEval m = totalEval s := by
  have h1 : ∑ m ∈ Finset.range s.M, s.nEval m = ∑ m ∈ Finset.range s.M, evalCount s m :=
    Finset.sum_congr rfl fun m hm => hi.eq m (Finset.mem_range.1 hm)
  rw [h1]
  unfold evalCount totalEval
  have := hi.inRun
  revert this
  generalize s.log = l
  induction l with
  | nil => intro _; simp
  | cons q l ih =>
    intro h
    have hq : q.2.1 < s.M := h q (by simp)
    simp only [List.countP_cons, List.length_cons, Finset.sum_add_distrib]
    rw [ih fun p hp => h p (by simp [hp])]
    congr 1
    rw [Finset.sum_eq_single q.2.1]
    · simp
    · intro b _ hb; simp [Ne.symm hb]
    · intro hc; exact absurd (Finset.mem_range.2 hq) hc

/-- Moves that neither evaluate nor charge. -/
def MoveQuiet (move : St K V → Except Err (St K V)) : Prop :=
  ∀ s s', move s = .ok s' → s'.nEval = s.nEval ∧ s'.log = s.log

theorem MoveQuiet.counted {env : Env K V} {move : St K V → Except Err (St K V)} (hm : MoveOK move)
    (hq : MoveQuiet move) (M₀ : ℕ) : MoveCounted env M₀ move := by
  intro s s' _ _ _ h hi
  have hf := hm.frame _ _ h
  unfold MoveFrame at hf
  exact countInv_congr hi (by rw [hf]) (hq _ _ h).1 (hq _ _ h).2

/-- Without a Heaviside correction the CBO move is quiet. -/
theorem cboMove_quiet {env : Env K V} (hc : ∀ g, env.corr ≠ .heavi g) : MoveQuiet (cboMove env) := by
  intro s s' h
  unfold cboMove at h
  split at h
  · simp at h
  · simp only [bind_ok, pure_ok] at h
    obtain ⟨xp, _, d, _, ⟨d', s1⟩, hcc, n, _, u, _, x, hx, rfl⟩ := h
    unfold correction at hcc
    split at hcc
    · rw [pure_ok] at hcc; cases hcc; exact ⟨rfl, rfl⟩
    · simp only [bind_ok, pure_ok] at hcc
      obtain ⟨_, _, hcc⟩ := hcc
      cases hcc; exact ⟨rfl, rfl⟩
    · rename_i g hg; exact absurd hg (hc g)

/-- Exact effect of the Heaviside correction on charges and evaluations. -/
theorem cboMove_heavi {env : Env K V} {g : Flt K → V → V} (hg : env.corr = .heavi g) {s s' : St K V}
    {c : Mat V} (hc : s.cons = some c) (h : cboMove env s = .ok s') :
    s'.nEval = (fun m => s.nEval m + c.rows) ∧
    s'.log = s.log ++ (c.entries fun i => s.active.getD i 0).map (fun q => (Site.corr, q.1, q.2)) := by
  unfold cboMove at h
  rw [hc] at h
  simp only [bind_ok, pure_ok] at h
  obtain ⟨xp, _, d, _, ⟨d', s1⟩, hcc, n, _, u, _, x, hx, rfl⟩ := h
  unfold correction at hcc
  rw [hg, hc] at hcc
  simp only [bind_ok, pure_ok, callF] at hcc
  obtain ⟨_, _, _, _, hcc⟩ := hcc
  cases hcc
  exact ⟨rfl, rfl⟩

/-- With one run the Heaviside correction charges what it evaluates. -/
theorem cboMove_heavi_counted {env : Env K V} {r : List (K × Flt K × V) → V} (hcons : env.cons = .mean r)
    {g : Flt K → V → V} (hg : env.corr = .heavi g) : MoveCounted env 1 (cboMove env) := by
  intro s s' hM hact hc h hi
  obtain ⟨c, hc, hr, hcols⟩ := hc
  have hcols := hcols r hcons
  obtain ⟨e1, e2⟩ := cboMove_heavi hg hc h
  have hf := (cboMove_ok env).frame _ _ h
  unfold MoveFrame at hf
  have hM' : s'.M = s.M := by rw [hf]
  have hnd : s.active.Nodup := hact.nodup List.nodup_range
  refine ⟨?_, ?_⟩
  · intro m hm
    rw [hM', hM] at hm
    have hm0 : m = 0 := by omega
    subst hm0
    rw [e1, evalCount, e2, List.countP_append, count_sites, count_entries, hr, count_getD hnd, hcols]
    have h0 := hi.eq 0 (by omega)
    unfold evalCount at h0
    have hl := hact.length_le
    rw [hM, List.length_range] at hl
    rw [hM] at hact
    have : s.active = [] ∨ s.active = [0] := by
      rcases Nat.lt_or_ge 0 s.active.length with hp | hp
      · right; exact hact.eq_of_length (by simp; omega)
      · left; exact List.length_eq_zero_iff.1 (by omega)
    rcases this with ha | ha
    · simp only [ha, List.length_nil]; simpa using h0
    · simp only [ha, List.length_cons, List.length_nil]; simpa using h0
  · rw [hM', e2]
    intro q hq
    rw [List.mem_append] at hq
    rcases hq with hq | hq
    · exact hi.inRun q hq
    · simp only [List.mem_map, Mat.entries, List.mem_flatMap, List.mem_range] at hq
      obtain ⟨a, ⟨i, hi', j, hj, rfl⟩, rfl⟩ := hq
      exact List.mem_range.1 (hact.subset (getD_mem (by omega)))

/-- The charge of a step for dynamics whose moves do not evaluate. -/
theorem step_nEval {env : Env K V} {move : St K V → Except Err (St K V)} (hm : MoveOK move)
    (hq : MoveQuiet move) (hp : PermOK env) {s s' : St K V} (hw : WF s)
    (h : step env (consThen env move) s = .ok s') (m : ℕ) :
    s'.nEval m = if m ∈ s.active then s.nEval m + s.batchSize else s.nEval m := by
  obtain ⟨v, hv, hs⟩ := step_split.1 h
  obtain ⟨c, hcc, hmv⟩ := consThen_split.1 hv
  have p1 := preStep_frame env s
  have hix := preStep_idx env hp hw
  have hc := (computeConsensus_facts hcc).nEval
  have pf := (postStep_facts hs).frame
  have n1 : s'.nEval = v.nEval := by rw [pf]
  have n0 : (preStep env s).nEval = s.nEval := by rw [p1]
  have pact : (preStep env s).active = s.active := by rw [p1]
  rw [n1, (hq _ _ hmv).1, hc, n0, pact, hix.cCols]

end Verif
