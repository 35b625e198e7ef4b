import Verif.Proofs.Resampling

/-! Property C62: the best consensus points recorded by the resampling. -/

set_option linter.unusedSectionVars false

namespace Verif

variable {K V : Type} [Zero K] [One K] [Neg K] [Add K] [Sub K] [Mul K] [Inv K] [Div K] [NatCast K] [Pow K ℕ] [LinearOrder K] [Add V] [Sub V] [SMul K V]

/-- **C62.** While all runs are active, a tracked call keeps the record right, evaluates exactly the consensus points of the resampled runs and does not touch the
ensemble. -/
theorem C62_track (env : Env K V) (hf : ∀ v, Flt.lt (env.f v) .pinf = true) (M : ℕ) (hist : List (List ℕ × Mat V))
    (idx : List ℕ) (hnd : idx.Nodup) (hb : ∀ m ∈ idx, m < M) (s : St K V) (hM : s.M = M) (c : Mat V) (hc : s.cons = some c)
    (h1 : c.rows = M) (h2 : c.cols = 1) (b : Option (Mat V × Mat (Flt K))) (hB : BestConsensus env.f M hist b) :
    ∃ s' b', trackConsensus env idx s b = .ok (s', b') ∧ BestConsensus env.f M (hist ++ [(idx, c)]) (some b') ∧
      (∃ n, s' = { s with nEval := n, log := s.log ++ idx.map fun m => (Site.energy, m, c.get m 0) }) ∧
      (∀ m ∈ s.active, s'.nEval m = s.nEval m + 1) ∧ ∀ m, m ∉ s.active → s'.nEval m = s.nEval m := by
  have hib : (Idx.ofRuns idx c.cols).InBounds c.rows c.cols := ofRuns_inBounds (by rw [h1]; exact hb)
  have hg := Mat.gather_of_inBounds hib
  set p : Mat V := ⟨(Idx.ofRuns idx c.cols).rows, (Idx.ofRuns idx c.cols).cols, fun i j =>
    c.get ((Idx.ofRuns idx c.cols).run i) ((Idx.ofRuns idx c.cols).par i j)⟩ with hp
  have hpr : p.rows = idx.length := rfl
  have hpc : p.cols = 1 := h2
  set ev := evalF env (fun i => idx.getD i 0) p s with hev
  have hlog : ev.2 = { s with nEval := fun m => if m ∈ s.active then s.nEval m + 1 else s.nEval m,
                              log := s.log ++ idx.map fun m => (Site.energy, m, c.get m 0) } := by
    rw [hev]
    unfold evalF callF
    simp only [hpc]
    congr 2
    unfold Mat.entries
    rw [hpc, hpr, List.map_flatMap]
    have : ∀ i ∈ List.range idx.length, (List.map (fun q : ℕ × V => (Site.energy, q.1, q.2)) ((List.range 1).map fun j => (idx.getD i 0, p.get i j))) =
        [(Site.energy, idx.getD i 0, c.get (idx.getD i 0) 0)] := by
      intro i _
      simp [hp, Idx.ofRuns]
    rw [List.flatMap_congr this]
    apply List.ext_getElem
    · simp
    · intro i h1 h2
      simp only [List.length_map] at h2
      simp [List.flatMap_singleton', ← List.map_eq_flatMap, h2]
  have heg : ∀ i < idx.length, ev.1.get i 0 = env.f (c.get (idx.getD i 0) 0) := fun i _ => rfl
  have hdone : ∀ b', BestConsensus env.f M (hist ++ [(idx, c)]) (some b') → trackConsensus env idx s b = .ok (ev.2, b') →
      ∃ s' b', trackConsensus env idx s b = .ok (s', b') ∧ BestConsensus env.f M (hist ++ [(idx, c)]) (some b') ∧
      (∃ n, s' = { s with nEval := n, log := s.log ++ idx.map fun m => (Site.energy, m, c.get m 0) }) ∧
      (∀ m ∈ s.active, s'.nEval m = s.nEval m + 1) ∧ ∀ m, m ∉ s.active → s'.nEval m = s.nEval m := by
    intro b' hb' ht
    refine ⟨ev.2, b', ht, hb', ⟨_, hlog⟩, fun m hm => ?_, fun m hm => ?_⟩
    · rw [hlog]; simp only [if_pos hm]
    · rw [hlog]; simp only [if_neg hm]
  cases b with
  | none =>
    have hh : hist = [] := hB
    subst hh
    have hib2 : (Idx.ofRuns idx 1).InBounds s.M 1 := ofRuns_inBounds (by rw [hM]; exact hb)
    obtain ⟨be, hbe⟩ := Mat.scatter_of_shape (a := (⟨s.M, 1, fun _ _ => .pinf⟩ : Mat (Flt K))) hib2 (v := ev.1) rfl hpc
    obtain ⟨-, e1, e2, -⟩ := Mat.scatter_ok hbe
    refine hdone (c, be) ?_ ?_
    · refine ⟨h1, h2, e1.trans hM, e2, fun m hm => ?_⟩
      rw [pointsOf_append]
      have hs := scatter_runs hnd hbe rfl hpc m 0 (by omega)
      by_cases hmi : m ∈ idx
      · have hlt := List.idxOf_lt_length_of_mem hmi
        have hv : be.get m 0 = env.f (c.get m 0) := by
          rw [hs.1 hmi, heg _ hlt, getD_elem hlt, List.getElem_idxOf]
        rw [if_pos hmi]
        refine ⟨fun h => by simp [pointsOf] at h, ?_, fun _ => ⟨c.get m 0, by simp, hv, rfl⟩⟩
        intro q hq
        simp only [pointsOf, List.filter_nil, List.map_nil, List.nil_append, List.mem_singleton] at hq
        rw [hq, hv]
        exact Flt.lt_irrefl _
      · rw [if_neg hmi]
        refine ⟨fun _ => hs.2 hmi, ?_, fun h => absurd rfl h⟩
        intro q hq
        simp [pointsOf] at hq
    · unfold trackConsensus
      rw [hc]
      simp only [bind, Except.bind]
      rw [hg]
      simp only
      have : (evalF env (fun i => idx.getD i 0) p s).2.M = s.M := by rw [← hev, hlog]
      rw [this, ← hev, hbe]
      rfl
  | some bb =>
    obtain ⟨bc, be⟩ := bb
    obtain ⟨b1, b2, b3, b4, b5⟩ := hB
    have hib2 : (Idx.ofRuns idx be.cols).InBounds be.rows be.cols := ofRuns_inBounds (by rw [b3]; exact hb)
    have hg2 := Mat.gather_of_inBounds hib2
    set old : Mat (Flt K) := ⟨(Idx.ofRuns idx be.cols).rows, (Idx.ofRuns idx be.cols).cols, fun i j =>
      be.get ((Idx.ofRuns idx be.cols).run i) ((Idx.ofRuns idx be.cols).par i j)⟩ with hold
    have hbin := Mat.bin_of_dims (f := fun a b : Flt K => Flt.lt a b) (a := ev.1) (b := old) (r := idx.length) (c := 1)
      (by exact Mat.bdim_self _) (by show Mat.bdim p.cols be.cols = _; rw [hpc, b4]; rfl)
    obtain ⟨lt, hlt, lt1, lt2, lt3⟩ : ∃ lt, Mat.bin (fun a b : Flt K => Flt.lt a b) ev.1 old = .ok lt ∧ lt.rows = idx.length ∧ lt.cols = 1 ∧
        ∀ i < idx.length, lt.get i 0 = Flt.lt (env.f (c.get (idx.getD i 0) 0)) (be.get (idx.getD i 0) 0) := by
      refine ⟨_, hbin, rfl, rfl, fun i hi => ?_⟩
      simp only
      rw [Mat.bpos_lt (show i < ev.1.rows from hi), Mat.bpos_lt (show i < old.rows from hi),
        Mat.bpos_lt (show 0 < ev.1.cols by show 0 < p.cols; omega), Mat.bpos_lt (show 0 < old.cols by show 0 < be.cols; omega), heg i hi]
      rfl
    set rows := (List.range lt.rows).flatMap fun i => ((List.range lt.cols).filter fun j => lt.get i j).map fun _ => i with hrows
    have hrows' : rows = (List.range idx.length).filter fun i => lt.get i 0 := by
      rw [hrows, lt1, lt2]
      have : ∀ l : List ℕ, (l.flatMap fun i => ((List.range 1).filter fun j => lt.get i j).map fun _ => i) = l.filter fun i => lt.get i 0 := by
        intro l
        induction l with
        | nil => rfl
        | cons a l ih =>
          rw [List.flatMap_cons, ih, List.filter_cons]
          by_cases h : lt.get a 0 <;> simp [List.range_succ, h]
      exact this _
    have hrn : rows.Nodup := by rw [hrows']; exact List.nodup_range.filter _
    have hrm : ∀ i, i ∈ rows ↔ i < idx.length ∧ lt.get i 0 = true := by
      intro i
      rw [hrows', List.mem_filter, List.mem_range]
    set sel := rows.map fun i => idx.getD i 0 with hsel
    have hsn : sel.Nodup := by
      rw [hsel]
      refine List.Nodup.map_on ?_ hrn
      intro i hi j hj hij
      have hi' := ((hrm i).1 hi).1
      have hj' := ((hrm j).1 hj).1
      rw [getD_elem hi', getD_elem hj'] at hij
      exact (List.Nodup.getElem_inj_iff hnd).1 hij
    have hsb : ∀ m ∈ sel, m < M := by
      intro m hm
      obtain ⟨i, hi, rfl⟩ := List.mem_map.1 hm
      have hi' := ((hrm i).1 hi).1
      rw [getD_elem hi']
      exact hb _ (List.getElem_mem hi')
    have hsm : ∀ m, m ∈ sel ↔ m ∈ idx ∧ Flt.lt (env.f (c.get m 0)) (be.get m 0) = true := by
      intro m
      rw [hsel, List.mem_map]
      constructor
      · rintro ⟨i, hi, rfl⟩
        obtain ⟨hi', hl⟩ := (hrm i).1 hi
        rw [lt3 i hi'] at hl
        refine ⟨?_, hl⟩
        rw [getD_elem hi']
        exact List.getElem_mem hi'
      · rintro ⟨hm, hl⟩
        obtain ⟨i, hi, rfl⟩ := List.mem_iff_getElem.1 hm
        refine ⟨i, (hrm i).2 ⟨hi, ?_⟩, getD_elem hi⟩
        rw [lt3 i hi, getD_elem hi]
        exact hl
    have hg3 := Mat.gather_of_inBounds (a := c) (ix := Idx.ofRuns sel c.cols) (ofRuns_inBounds (by rw [h1]; exact hsb))
    obtain ⟨bc', hbc⟩ := Mat.scatter_of_shape (a := bc) (ix := Idx.ofRuns sel bc.cols) (ofRuns_inBounds (by rw [b1]; exact hsb))
      (v := ⟨(Idx.ofRuns sel c.cols).rows, (Idx.ofRuns sel c.cols).cols, fun i j =>
        c.get ((Idx.ofRuns sel c.cols).run i) ((Idx.ofRuns sel c.cols).par i j)⟩) rfl (by show c.cols = bc.cols; omega)
    have hg4 := Mat.gather_of_inBounds (a := ev.1) (ix := Idx.ofRuns rows ev.1.cols)
      (ofRuns_inBounds fun i hi => ((hrm i).1 hi).1)
    obtain ⟨be', hbe⟩ := Mat.scatter_of_shape (a := be) (ix := Idx.ofRuns sel be.cols) (ofRuns_inBounds (by rw [b3]; exact hsb))
      (v := ⟨(Idx.ofRuns rows ev.1.cols).rows, (Idx.ofRuns rows ev.1.cols).cols, fun i j =>
        ev.1.get ((Idx.ofRuns rows ev.1.cols).run i) ((Idx.ofRuns rows ev.1.cols).par i j)⟩)
      (by show rows.length = sel.length; rw [hsel, List.length_map]) (by show p.cols = be.cols; omega)
    obtain ⟨-, c1, c2, -⟩ := Mat.scatter_ok hbc
    obtain ⟨-, e1, e2, -⟩ := Mat.scatter_ok hbe
    have hvb : ∀ m, (m ∈ sel → bc'.get m 0 = c.get m 0 ∧ be'.get m 0 = env.f (c.get m 0)) ∧
        (m ∉ sel → bc'.get m 0 = bc.get m 0 ∧ be'.get m 0 = be.get m 0) := by
      intro m
      have s1 := scatter_runs hsn hbc rfl (by show c.cols = bc.cols; omega) m 0 (by omega)
      have s2 := scatter_runs hsn hbe (by show rows.length = sel.length; rw [hsel, List.length_map]) (by show p.cols = be.cols; omega) m 0
        (by omega)
      refine ⟨fun hm => ?_, fun hm => ⟨s1.2 hm, s2.2 hm⟩⟩
      have hlt := List.idxOf_lt_length_of_mem hm
      have hlt' : sel.idxOf m < rows.length := by rw [hsel, List.length_map] at hlt; exact hlt
      rw [s1.1 hm, s2.1 hm]
      have g1 : sel.getD (sel.idxOf m) 0 = m := by rw [getD_elem hlt, List.getElem_idxOf]
      have g2 : idx.getD (rows.getD (sel.idxOf m) 0) 0 = m := by
        rw [getD_elem hlt']
        have : sel[sel.idxOf m] = idx.getD (rows[sel.idxOf m]) 0 := by simp only [hsel, List.getElem_map]
        rw [← this, List.getElem_idxOf]
      have hr : rows.getD (sel.idxOf m) 0 < idx.length := by
        rw [getD_elem hlt']
        exact ((hrm _).1 (List.getElem_mem hlt')).1
      refine ⟨?_, ?_⟩
      · show c.get (sel.getD (sel.idxOf m) 0) 0 = _
        rw [g1]
      · show ev.1.get (rows.getD (sel.idxOf m) 0) 0 = _
        rw [heg _ hr, g2]
    refine hdone (bc', be') ?_ ?_
    · refine ⟨c1.trans b1, c2.trans b2, e1.trans b3, e2.trans b4, fun m hm => ?_⟩
      obtain ⟨i1, i2, i3⟩ := b5 m hm
      rw [pointsOf_append]
      by_cases hmi : m ∈ idx
      · rw [if_pos hmi]
        by_cases hms : m ∈ sel
        · obtain ⟨v1, v2⟩ := (hvb m).1 hms
          have hl := ((hsm m).1 hms).2
          refine ⟨fun h => by simp at h, ?_, fun _ => ⟨c.get m 0, by simp, v2, v1⟩⟩
          intro q hq
          rw [v2]
          rcases List.mem_append.1 hq with hq | hq
          · have := i2 q hq
            cases h : Flt.lt (env.f q) (env.f (c.get m 0))
            · rfl
            · rw [Flt.lt_trans h hl] at this
              cases this
          · rw [List.mem_singleton] at hq
            rw [hq]
            exact Flt.lt_irrefl _
        · obtain ⟨v1, v2⟩ := (hvb m).2 hms
          have hl : Flt.lt (env.f (c.get m 0)) (be.get m 0) = false := by
            cases h : Flt.lt (env.f (c.get m 0)) (be.get m 0)
            · rfl
            · exact absurd ((hsm m).2 ⟨hmi, h⟩) hms
          have hne : pointsOf hist m ≠ [] := by
            intro h
            rw [i1 h, hf] at hl
            cases hl
          obtain ⟨q, q1, q2, q3⟩ := i3 hne
          refine ⟨fun h => by simp at h, ?_, fun _ => ⟨q, List.mem_append_left _ q1, by rw [v2, q2], by rw [v1, q3]⟩⟩
          intro q hq
          rw [v2]
          rcases List.mem_append.1 hq with hq | hq
          · exact i2 q hq
          · rw [List.mem_singleton] at hq
            rw [hq]
            exact hl
      · rw [if_neg hmi]
        have hms : m ∉ sel := fun h => hmi ((hsm m).1 h).1
        obtain ⟨v1, v2⟩ := (hvb m).2 hms
        rw [v1, v2]
        exact ⟨i1, i2, i3⟩
    · unfold trackConsensus
      rw [hc]
      simp only [bind, Except.bind]
      rw [hg]
      simp only
      rw [hg2]
      simp only
      rw [← hev, hlt]
      simp only
      rw [← hrows, ← hsel, hg3]
      simp only
      rw [hbc]
      simp only
      rw [hg4]
      simp only
      rw [hbe]
      rfl

/-- **C62, all calls.** Over any sequence of tracked calls, with any states of the dynamic with all runs active in between, the record names the
least consensus energy of the calls that resampled the run and a consensus point with that energy. -/
theorem C62_history (env : Env K V) (hf : ∀ v, Flt.lt (env.f v) .pinf = true) (M : ℕ) (calls : List (List ℕ × St K V))
    (hc : ∀ q ∈ calls, q.1.Nodup ∧ (∀ m ∈ q.1, m < M) ∧ q.2.M = M ∧ ∃ c, q.2.cons = some c ∧ c.rows = M ∧ c.cols = 1) :
    ∃ b, calls.foldlM (fun b q => do let r ← trackConsensus env q.1 q.2 b; pure (some r.2)) none = .ok b ∧
      BestConsensus env.f M (calls.map fun q => (q.1, q.2.cons.getD ⟨0, 0, fun _ _ => q.2.x.get 0 0⟩)) b := by
  have key : ∀ (calls : List (List ℕ × St K V)) (hist : List (List ℕ × Mat V)) (b : Option (Mat V × Mat (Flt K))),
      (∀ q ∈ calls, q.1.Nodup ∧ (∀ m ∈ q.1, m < M) ∧ q.2.M = M ∧ ∃ c, q.2.cons = some c ∧ c.rows = M ∧ c.cols = 1) →
      BestConsensus env.f M hist b → ∃ b', calls.foldlM (fun b q => do let r ← trackConsensus env q.1 q.2 b; pure (some r.2)) b = .ok b' ∧
        BestConsensus env.f M (hist ++ calls.map fun q => (q.1, q.2.cons.getD ⟨0, 0, fun _ _ => q.2.x.get 0 0⟩)) b' := by
    intro calls
    induction calls with
    | nil => intro hist b _ hB; exact ⟨b, rfl, by simpa using hB⟩
    | cons q l ih =>
      intro hist b hc hB
      obtain ⟨h1, h2, h3, c, h4, h5, h6⟩ := hc q (by simp)
      obtain ⟨s', b', e1, e2, -⟩ := C62_track env hf M hist q.1 h1 h2 q.2 h3 c h4 h5 h6 b hB
      obtain ⟨b'', e3, e4⟩ := ih (hist ++ [(q.1, c)]) (some b') (fun q hq => hc q (by simp [hq])) e2
      refine ⟨b'', ?_, ?_⟩
      · rw [List.foldlM_cons, e1]
        exact e3
      · rw [List.map_cons, h4]
        simpa using e4
  simpa using key calls [] none hc rfl

/-- C62, disagreement: resampling one run charges one evaluation to every active run, although only the consensus of the resampled run is
evaluated. -/
theorem C62_charge_false (env : Env K V) (hf : ∀ v, Flt.lt (env.f v) .pinf = true) (s : St K V) (c : Mat V) (hc : s.cons = some c)
    (h1 : c.rows = s.M) (h2 : c.cols = 1) (k m : ℕ) (hk : k < s.M) (hm : m ∈ s.active) (hkm : k ≠ m) :
    ∃ s' b', trackConsensus env [k] s none = .ok (s', b') ∧ s'.log = s.log ++ [(Site.energy, k, c.get k 0)] ∧ s'.nEval m = s.nEval m + 1 ∧
      ∀ e ∈ s'.log.drop s.log.length, e.2.1 ≠ m := by
  obtain ⟨s', b', e1, -, ⟨n, e3⟩, e4, -⟩ := C62_track env hf s.M [] [k] (by simp) (by simpa using hk) s rfl c hc h1 h2 none rfl
  refine ⟨s', b', e1, by rw [e3]; rfl, e4 m hm, ?_⟩
  rw [e3]
  simpa using hkm

/-- C62, disagreement: `dyn.consensus` has one row per active run but is indexed by run numbers. Once runs have stopped, a call selecting a run
whose number is not below the number of active runs raises, -/
theorem C62_stopped_raises (env : Env K V) (s : St K V) (c : Mat V) (hc : s.cons = some c) (h1 : c.rows = s.active.length) (h2 : 0 < c.cols)
    (m : ℕ) (hm : s.active.length ≤ m) (b : Option (Mat V × Mat (Flt K))) : trackConsensus env [m] s b = .error .index := by
  unfold trackConsensus
  rw [hc]
  simp only
  have : c.gather (Idx.ofRuns [m] c.cols) = .error .index := by
    unfold Mat.gather
    rw [if_neg]
    intro h
    have := h 0 (by simp [Idx.ofRuns]) 0 (by simpa [Idx.ofRuns] using h2)
    simp [Idx.ofRuns] at this
    omega
  rw [this]
  rfl

/-- and for smaller numbers the recorded point belongs to another run: with runs 1 and 2 of three active, resampling run 1 records the consensus of
run 2 (row 1). -/
theorem C62_stopped_false (env : Env K V) (hf : ∀ v, Flt.lt (env.f v) .pinf = true) (s : St K V) (hM : s.M = 3) (ha : s.active = [1, 2])
    (c : Mat V) (hc : s.cons = some c) (h1 : c.rows = 2) (h2 : c.cols = 1) :
    ∃ s' bc be, trackConsensus env [1] s none = .ok (s', bc, be) ∧ bc = c ∧ be.get 1 0 = env.f (c.get 1 0) ∧ s.active[1]? = some 2 := by
  have hib : (Idx.ofRuns [1] c.cols).InBounds c.rows c.cols := ofRuns_inBounds (by rw [h1]; simp)
  have hg := Mat.gather_of_inBounds hib
  obtain ⟨be, hbe⟩ := Mat.scatter_of_shape (a := (⟨s.M, 1, fun _ _ => .pinf⟩ : Mat (Flt K))) (ix := Idx.ofRuns [1] 1)
    (ofRuns_inBounds (by rw [hM]; simp)) (v := (evalF env (fun i => [1].getD i 0) ⟨(Idx.ofRuns [1] c.cols).rows, (Idx.ofRuns [1] c.cols).cols, fun i j =>
    c.get ((Idx.ofRuns [1] c.cols).run i) ((Idx.ofRuns [1] c.cols).par i j)⟩ s).1) rfl h2
  have hs := scatter_runs (by simp) hbe rfl h2 1 0 (by omega)
  have hv : be.get 1 0 = env.f (c.get 1 0) := by
    rw [hs.1 (by simp)]
    rfl
  have ht : ∃ s', trackConsensus env [1] s none = .ok (s', c, be) := by
    unfold trackConsensus
    rw [hc]
    simp only [bind, Except.bind]
    rw [hg]
    simp only
    have e : ∀ p : Mat V, (evalF env (fun i => [1].getD i 0) p s).2.M = s.M := fun _ => rfl
    rw [e, hbe]
    exact ⟨_, rfl⟩
  obtain ⟨s', ht⟩ := ht
  exact ⟨s', c, be, ht, rfl, hv, by rw [ha]; rfl⟩

/-- C62: the hypotheses of `C62_track`, `C62_history` and `C62_charge_false` hold for the example dynamic after one and after two steps. -/
example : ∀ n ∈ [1, 2], (match execAll Example.env (cboInner Example.env) (List.replicate n .step) (Example.start [] none) with
    | .ok s => decide (s.M = 2 ∧ s.active = [0, 1] ∧ (s.cons.map fun c => (c.rows, c.cols)) = some (2, 1))
    | .error _ => false) = true := by decide +kernel

/-- C62: stopped runs as in `C62_stopped_raises` are reached: with two runs of which the first has stopped, the consensus has one row. -/
example : (match execAll { Example.env with custom := fun _ _ m => m = 0 } (cboInner Example.env) [.select, .step]
      (Example.start [.custom 0] none) with
    | .ok s => decide (s.active = [1] ∧ (s.cons.map fun c => (c.rows, c.cols)) = some (1, 1))
    | .error _ => false) = true := by decide +kernel

end Verif
