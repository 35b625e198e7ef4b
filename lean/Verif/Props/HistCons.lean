import Verif.Proofs.HistCons

/-! C79: the entries of the history belong together. -/

set_option linter.unusedSectionVars false

namespace Verif

variable {K V : Type} [Zero K] [One K] [Neg K] [Add K] [Sub K] [Mul K] [Inv K] [Div K] [NatCast K] [Pow K ℕ] [LinearOrder K] [Add V] [Sub V] [SMul K V]

/-- **C79 (energies, consensus, update norm).** Tracking every step, without batches: entry `j` of the history describes step number `j`.
`history['energy'][j]` holds the objective at `history['x'][j]` for all runs `A` that were active in that step, `history['consensus'][j]` is the
consensus of exactly these positions and energies, and `history['update_norm'][j]` is the distance of `history['x'][j+1]` and `history['x'][j]`.
Entries are taken with the values they had when they were recorded; for dynamics that work in place, entry 0 of `history['x']` is overwritten by the first
step (`C40_inplace_false`), so that for `CBO` the statement is about `j ≥ 1` in practice. -/
theorem C79_entries_partial (env : Env K V) (move : St K V → Except Err (St K V)) (hm : MoveOK move) (hpost : PostOK env) (hp : PermOK env)
    (r : List (K × Flt K × V) → V) (hmean : env.cons = .mean r) (a : Args K V) (s₀ s : St K V) (ops : List Op) (h0 : init env a = .ok s₀)
    (hs : a.saveInt = 1) (hn : a.tracks.Nodup) (hb : a.batchSize = none)
    (hx : Track.x ∈ a.tracks) (he : Track.energy ∈ a.tracks) (hu : Track.updateNorm ∈ a.tracks) (hc : Track.consensus ∈ a.tracks)
    (hr : Op.reset ∉ ops) (h : execAll env (consThen env move) ops s₀ = .ok s) (j : ℕ) (hj : j < nSteps ops) :
    ∃ (X X' : Mat V) (E : Mat (Flt K)) (u : ℕ → Flt K) (c : Mat V) (A : List ℕ) (al : ℕ → K),
      (s.hist .x)[j]? = some (.x X) ∧ (s.hist .x)[j + 1]? = some (.x X') ∧ (s.hist .energy)[j]? = some (.energy E) ∧
      (s.hist .updateNorm)[j]? = some (.updateNorm u) ∧ (s.hist .consensus)[j]? = some (.consensus (some c)) ∧
      A.Sublist (List.range a.x0.rows) ∧ (Op.select ∉ ops → A = List.range a.x0.rows) ∧
      (E.rows = a.x0.rows ∧ E.cols = a.x0.cols ∧ c.rows = A.length ∧ c.cols = 1) ∧
      (∀ m ∈ A, ∀ n < a.x0.cols, E.get m n = env.f (X.get m n)) ∧
      (∀ i < A.length, c.get i 0 = r ((List.range a.x0.cols).map fun n => (al (A.getD i 0), E.get (A.getD i 0) n, X.get (A.getD i 0) n))) ∧
      ∀ m < a.x0.rows, u m = env.normDiff ((List.range a.x0.cols).map fun n => (X'.get m n, X.get m n)) := by
  obtain ⟨l₁, l₂, q, v, hl, hlj, hq, hv, h1, h2, h3, h4, -⟩ := hist_at (consThen_frame hm) h0 hs hn hr h hj
  have hw : WF q := (execAll_induct (P := fun _ => True) hm hpost hp (fun _ _ _ _ _ _ => trivial) l₁ s₀ q (init_wf hp h0) trivial hq).1
  obtain ⟨i1, i2, i3, i4, i5⟩ := init_config h0
  obtain ⟨c1, c2, c3, c4⟩ := execAll_config hm hq
  have hM : q.M = a.x0.rows := c1.trans i1
  have hN : q.N = a.x0.cols := c2.trans i2
  have hqb : q.batched = false := c3.trans (i3 hb)
  have S := step_sum hm hpost hv
  obtain ⟨c, d1, d2, d3, d4⟩ := step_cons_mean hm hp hmean hw hqb hv
  have fresh : ∀ m ∈ q.active, ∀ n < a.x0.cols, v.energy.get m n = env.f (q.x.get m n) := fun m hm' n hn' =>
    S.fresh m n (by rw [S.cIdx]; exact (preStep_cSel_unbatched hp hw hqb m n).2 ⟨hm', by rw [hN]; exact hn'⟩)
  refine ⟨q.x, v.x, v.energy, v.updDiff, c, q.active, q.alpha, (h1 hx).1, (h1 hx).2, h2 he, h3 hu, ?_, ?_, ?_, ⟨?_, ?_, d2, d3⟩, fresh, ?_, ?_⟩
  · rw [h4 hc, d1]
  · rw [← hM]; exact hw.act
  · intro hsel
    rw [c4 (fun hc' => hsel (by rw [hl]; exact List.mem_append_left _ hc')), i4]
  · rw [S.er, hw.er, hM]
  · rw [S.ec, hw.ec, hN]
  · intro i hi
    rw [d4 i hi, hN]
    congr 1
    apply List.map_congr_left
    intro n hn'
    rw [fresh _ (getD_mem hi) n (List.mem_range.1 hn')]
  · intro m hmM
    rw [step_updDiff hm hpost hw (by rw [hM]; exact hmM) hv, hN]

/-- **C79 (drift).** For `CBO` without correction and batches, tracking every step: `history['drift'][j]` is the difference of `history['x'][j]` and
`history['consensus'][j]`, row `i` belonging to the `i`-th active run. -/
theorem C79_drift_partial (env : Env K V) (hcorr : env.corr = .none) (hns : NoiseShape env) (hpost : PostOK env) (hp : PermOK env)
    (r : List (K × Flt K × V) → V) (hmean : env.cons = .mean r) (a : Args K V) (s₀ s : St K V) (ops : List Op) (h0 : init env a = .ok s₀)
    (hs : a.saveInt = 1) (hn : a.tracks.Nodup) (hb : a.batchSize = none)
    (hx : Track.x ∈ a.tracks) (hc : Track.consensus ∈ a.tracks) (hd : Track.drift ∈ a.tracks)
    (hr : Op.reset ∉ ops) (h : execAll env (cboInner env) ops s₀ = .ok s) (j : ℕ) (hj : j < nSteps ops) :
    ∃ (X c d : Mat V) (ix : Idx) (A : List ℕ), (s.hist .x)[j]? = some (.x X) ∧ (s.hist .consensus)[j]? = some (.consensus (some c)) ∧
      (s.hist .drift)[j]? = some (.drift (some d) ix) ∧
      A.Sublist (List.range a.x0.rows) ∧ (Op.select ∉ ops → A = List.range a.x0.rows) ∧ d.rows = A.length ∧ d.cols = a.x0.cols ∧
      ∀ i < A.length, ∀ n < a.x0.cols, d.get i n = X.get (A.getD i 0) n - c.get i 0 := by
  have hm := cboMove_ok env
  rw [cboInner_eq] at h
  obtain ⟨l₁, l₂, q, v, hl, hlj, hq, hv, h1, -, -, h4, h5⟩ := hist_at (consThen_frame hm) h0 hs hn hr h hj
  have hw : WF q := (execAll_induct (P := fun _ => True) hm hpost hp (fun _ _ _ _ _ _ => trivial) l₁ s₀ q (init_wf hp h0) trivial hq).1
  obtain ⟨i1, i2, i3, i4, i5⟩ := init_config h0
  obtain ⟨c1, c2, c3, c4⟩ := execAll_config hm hq
  have hM : q.M = a.x0.rows := c1.trans i1
  have hN : q.N = a.x0.cols := c2.trans i2
  have hqb : q.batched = false := c3.trans (i3 hb)
  have f := step_frame (consThen_frame hm) hv
  obtain ⟨c, d, nz, xm, S⟩ := cboStep_facts hcorr hns hmean hp hw (by rw [cboInner_eq]; exact hv)
  obtain ⟨-, -, pi⟩ := preStep_pIdx env q hw
  have hix := preStep_idx env hp hw
  have hpc : v.pIdx.cols = a.x0.cols := by
    rw [f.pIdx, (pi hqb).1, hix.cCols, hw.unb hqb, hN]
  refine ⟨q.x, c, d, v.pIdx, q.active, (h1 hx).1, ?_, ?_, ?_, ?_, S.dr, S.dc.trans hpc, ?_⟩
  · rw [h4 hc, S.cons]
  · rw [h5 hd, S.drift]
  · rw [← hM]; exact hw.act
  · intro hsel
    rw [c4 (fun hc' => hsel (by rw [hl]; exact List.mem_append_left _ hc')), i4]
  · intro i hi n hn'
    rw [S.dget i hi n (by rw [hpc]; exact hn')]
    have e1 : v.pIdx.run i = q.active.getD i 0 := by rw [f.pIdx]; exact hix.pRun i hi
    have e2 : v.pIdx.par i n = n := by rw [f.pIdx, (pi hqb).1]; exact ((preStep_row env q).2 hqb).1 i n
    rw [e1, e2]

/-- **C79 (best energy).** Tracking every step, for every inner step and with batches: `best_energy[m]` is the smallest value in row `m` of all
recorded energies (`+inf` if there is none below), as long as no recorded energy is NaN. -/
theorem C79_best_partial (env : Env K V) (inner : St K V → Except Err (St K V)) (hi : InnerFrame inner) (a : Args K V) (s₀ s : St K V) (ops : List Op)
    (h0 : init env a = .ok s₀) (hs : a.saveInt = 1) (hn : a.tracks.Nodup) (he : Track.energy ∈ a.tracks) (hr : Op.reset ∉ ops)
    (h : execAll env inner ops s₀ = .ok s) (hnan : ∀ E, Entry.energy E ∈ s.hist .energy → ∀ m n, E.get m n ≠ .nan) (m : ℕ) :
    (∀ E, Entry.energy E ∈ s.hist .energy → ∀ n < E.cols, Flt.lt (E.get m n) (s.bestE m) = false) ∧
      (s.bestE m = .pinf ∨ ∃ E, Entry.energy E ∈ s.hist .energy ∧ ∃ n < E.cols, s.bestE m = E.get m n) := by
  have key : ∀ (ops : List Op) (q : St K V) (k : ℕ), Op.reset ∉ ops → HistInv a k q →
      (∀ E, Entry.energy E ∈ q.hist .energy → ∀ n < E.cols, Flt.lt (E.get m n) (q.bestE m) = false) →
      (q.bestE m = .pinf ∨ ∃ E, Entry.energy E ∈ q.hist .energy ∧ ∃ n < E.cols, q.bestE m = E.get m n) →
      execAll env inner ops q = .ok s →
      (∀ E, Entry.energy E ∈ s.hist .energy → ∀ n < E.cols, Flt.lt (E.get m n) (s.bestE m) = false) ∧
        (s.bestE m = .pinf ∨ ∃ E, Entry.energy E ∈ s.hist .energy ∧ ∃ n < E.cols, s.bestE m = E.get m n) := by
    intro ops
    induction ops with
    | nil =>
      intro q k _ _ h1 h2 h
      simp only [execAll] at h
      injection h with h
      subst h
      exact ⟨h1, h2⟩
    | cons o l ih =>
      intro q k hr hI h1 h2 h
      simp only [execAll, bind_ok] at h
      obtain ⟨b, hb, h⟩ := h
      simp only [List.mem_cons, not_or] at hr
      have hI' := (histInv_exec hi hn (Ne.symm hr.1) hI hb).1
      by_cases ho : o = .step
      · subst ho
        have hh := (step_hist hi hb (by rw [hI.tracks]; exact hn) .energy).1
        rw [hI.tracks, hI.saveInt, hs, if_pos ⟨Nat.mod_one _, he⟩] at hh
        have hpre := (histInv_execAll hi hn hr.2 hI' h).2 .energy
        have hmem : Entry.energy b.energy ∈ b.hist .energy := by rw [hh]; simp [trackEntry]
        have hnb := hnan _ (hpre.subset hmem)
        obtain ⟨v, hv, hps⟩ := step_split.1 hb
        have pf := postStep_facts hps
        have ve : b.energy = v.energy := by rw [pf.frame]
        have vb : v.bestE = q.bestE := by rw [hi _ _ hv]; simp only; rw [preStep_frame]
        have hcol : 0 < v.energy.cols := Nat.pos_of_ne_zero pf.ecols
        have cur : b.bestCurE m = b.energy.get m (b.fMinIdx m) := by rw [pf.bestCurE, ve]
        have hidx : b.fMinIdx m < b.energy.cols := by rw [pf.fMinIdx, ve]; exact Flt.rowArgmin_lt hcol _
        have hmin : ∀ n < b.energy.cols, Flt.lt (b.energy.get m n) (b.bestCurE m) = false := by
          intro n hn'
          rw [cur, pf.fMinIdx, ← ve]
          exact Flt.rowArgmin_min _ (fun i _ => hnb m i) n hn'
        have hbe := pf.bestE m
        rw [vb] at hbe
        have hbn : q.bestE m ≠ .nan := by
          rcases h2 with h2 | ⟨E, hE, n, -, h2⟩
          · rw [h2]; simp
          · rw [h2]
            exact hnan E (hpre.subset (by rw [hh]; exact List.mem_append_left _ hE)) m n
        refine ih b _ hr.2 hI' ?_ ?_ h
        · intro E hE n hn'
          rw [hbe]
          rw [hh] at hE
          rcases List.mem_append.1 hE with hE | hE
          · split_ifs with hg
            · have h3 := h1 E hE n hn'
              by_contra hc
              rw [Bool.not_eq_false] at hc
              rw [Flt.lt_trans hc hg] at h3
              cases h3
            · exact h1 E hE n hn'
          · simp only [trackEntry, List.mem_singleton, Entry.energy.injEq] at hE
            subst hE
            split_ifs with hg
            · exact hmin n hn'
            · rw [Bool.not_eq_true] at hg
              exact Flt.not_lt_trans (by rw [cur]; exact hnb m _) hg (hmin n hn')
        · rw [hbe]
          split_ifs with hg
          · exact Or.inr ⟨b.energy, hmem, b.fMinIdx m, hidx, cur⟩
          · rcases h2 with h2 | ⟨E, hE, n, hn', h2⟩
            · exact Or.inl h2
            · exact Or.inr ⟨E, by rw [hh]; exact List.mem_append_left _ hE, n, hn', h2⟩
      · have e : b.bestE = q.bestE ∧ b.hist = q.hist := by
          cases o with
          | step => exact absurd rfl ho
          | reset => exact absurd rfl hr.1
          | select => rw [select_frame hb]; exact ⟨rfl, rfl⟩
          | sched => rw [sched_frame hb]; exact ⟨rfl, rfl⟩
        refine ih b _ hr.2 hI' ?_ ?_ h
        · rw [e.1, e.2]; exact h1
        · rw [e.1, e.2]; exact h2
  have e0 : s₀.bestE m = .pinf ∧ s₀.hist .energy = [] := by
    unfold init at h0
    split_ifs at h0 <;> (injection h0 with h0; rw [← h0]; exact ⟨rfl, rfl⟩)
  exact key ops s₀ 0 hr (histInv_init h0 (by omega)) (fun E hE => by rw [e0.2] at hE; cases hE) (Or.inl e0.1) h

/-- The tracked run of the examples: two runs of three particles, all trackers. -/
def Example.trackArgs (saveInt : ℕ) (batch : Option ℕ) : Args ℚ ℚ :=
  { Example.args [] batch with tracks := [.x, .energy, .updateNorm, .consensus, .drift], saveInt := saveInt }

/-- The history after three steps. -/
def Example.trackRun (saveInt : ℕ) (batch : Option ℕ) : Except Err (St ℚ ℚ) := do
  let s₀ ← init Example.env (Example.trackArgs saveInt batch)
  execAll Example.env (cboInner Example.env) [.step, .sched, .select, .step, .step] s₀

/-- The hypotheses of C79 are met: the tracked example run succeeds, its history has three energy entries, no recorded energy is NaN, and
the particles move between the second and the third position entry. -/
example : (Example.trackArgs 1 none).tracks.Nodup ∧ (match Example.trackRun 1 none with
    | .ok s => (match (s.hist .x)[1]?, (s.hist .x)[2]?, (s.hist .energy)[1]? with
      | some (Entry.x X), some (Entry.x X'), some (Entry.energy E) => decide (X.get 0 0 ≠ X'.get 0 0 ∧ E.get 0 0 = Example.env.f (X.get 0 0) ∧ (s.hist .energy).length = 3)
      | _, _, _ => false)
    | .error _ => false) = true := by
  refine ⟨by decide, by decide +kernel⟩

/-- **C79 is false for `save_int > 1`**: the energies are those before the step, the positions those after it. With interval 2 the second energy entry
belongs to positions that were never recorded: it is neither the objective at the position entry with the same index nor at the next one. -/
theorem C79_interval_false : ∃ (s : St ℚ ℚ) (X X' : Mat ℚ) (E : Mat (Flt ℚ)), Example.trackRun 2 none = .ok s ∧
    (s.hist .x)[1]? = some (.x X) ∧ (s.hist .x)[2]? = some (.x X') ∧ (s.hist .energy)[1]? = some (.energy E) ∧
    E.get 0 0 ≠ Example.env.f (X.get 0 0) ∧ E.get 0 0 ≠ Example.env.f (X'.get 0 0) := by
  refine ⟨_, _, _, _, rfl, rfl, rfl, rfl, by decide +kernel, by decide +kernel⟩

/-- **C79 is false with batches**: energies of particles outside the batch are those of older positions (or `+inf` if never evaluated). -/
theorem C79_batch_false : ∃ (s : St ℚ ℚ) (X : Mat ℚ) (E : Mat (Flt ℚ)), Example.trackRun 1 (some 2) = .ok s ∧
    (s.hist .x)[0]? = some (.x X) ∧ (s.hist .energy)[0]? = some (.energy E) ∧ ∃ n < 3, E.get 0 n ≠ Example.env.f (X.get 0 n) := by
  refine ⟨_, _, _, rfl, rfl, rfl, ?_⟩
  decide +kernel

/-- **The documentation of `history['energy']` is wrong** (`docs/userguide/dynamics.rst:298`): it announces the best energy of each run, shape `(M,)`;
recorded is the whole energy array, whose row of run 0 has different entries. -/
theorem C79_energy_doc_false : ∃ (s : St ℚ ℚ) (E : Mat (Flt ℚ)), Example.trackRun 1 none = .ok s ∧ (s.hist .energy)[0]? = some (.energy E) ∧
    E.rows = 2 ∧ E.cols = 3 ∧ E.get 0 0 ≠ E.get 0 1 := by
  refine ⟨_, _, rfl, rfl, rfl, rfl, by decide +kernel⟩

end Verif
