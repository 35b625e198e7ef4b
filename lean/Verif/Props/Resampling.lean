import Verif.Proofs.Resampling

/-! Properties C45 (resampling touches exactly the selected runs), C46 (loss stagnation), C47 (consensus stagnation). -/

set_option linter.unusedSectionVars false

namespace Verif

variable {K V : Type} [Zero K] [One K] [Neg K] [Add K] [Sub K] [Mul K] [Inv K] [Div K] [NatCast K] [Pow K ℕ] [LinearOrder K] [SoundArith K] [Add V] [Sub V] [SMul K V]

/-- **C45.** A resampling call adds one row of the drawn array, scaled by `sigma_indep sqrt(dt)`, to every run selected by at least one
criterion, different runs getting different rows, increases their counter by one and leaves the ensemble and counters of the other runs and everything else
unchanged. -/
theorem C45_resample (env : Env K V) (sigma : K) (sels : List (List ℕ)) (hne : sels ≠ []) (r : ResSt K V) (s : St K V)
    (hx : s.x.rows = s.M ∧ s.x.cols = s.N) (hb : ∀ l ∈ sels, ∀ m ∈ l, m < s.M) :
    ∃ r' s', resample env sigma false sels r s = .ok (r', s') ∧ (∃ x d, s' = { s with x := x, draws := d }) ∧
      s'.x.rows = s.M ∧ s'.x.cols = s.N ∧ r'.best = r.best ∧
      (∃ row : ℕ → ℕ, (∀ m m', (∃ l ∈ sels, m ∈ l) → (∃ l ∈ sels, m' ∈ l) → row m = row m' → m = m') ∧
        ∀ m n, n < s.N → (∃ l ∈ sels, m ∈ l) →
          s'.x.get m n = s.x.get m n + (sigma * env.sqrtK s.dt) • env.sampler s.draws (row m) n) ∧
      (∀ m n, n < s.N → (¬ ∃ l ∈ sels, m ∈ l) → s'.x.get m n = s.x.get m n) ∧
      ∃ num, r'.num = some num ∧ ∀ m, ((∃ l ∈ sels, m ∈ l) → num m = (r.num.getD fun _ => 0) m + 1) ∧
        ((¬ ∃ l ∈ sels, m ∈ l) → num m = (r.num.getD fun _ => 0) m) := by
  set idx := npUnique sels.flatten with hidx
  have hmem : ∀ m, m ∈ idx ↔ ∃ l ∈ sels, m ∈ l := by
    intro m
    rw [hidx, (npUnique_spec _).2, List.mem_flatten]
  have hnd : idx.Nodup := npUnique_nodup _
  by_cases he : idx = []
  · refine ⟨⟨some (r.num.getD fun _ => 0), r.best⟩, s, ?_, ⟨s.x, s.draws, rfl⟩, hx.1, hx.2, rfl, ?_⟩
    · unfold resample
      rw [if_neg hne]
      simp only [← hidx, if_pos he]
    · refine ⟨⟨id, fun m m' _ _ h => h, ?_⟩, fun _ _ _ _ => rfl, _, rfl, ?_⟩
      · intro m n _ hm
        rw [← hmem, he] at hm
        simp at hm
      · intro m
        refine ⟨fun hm => ?_, fun _ => rfl⟩
        rw [← hmem, he] at hm
        simp at hm
  · have hbd : ∀ m ∈ idx, m < s.M := fun m hm => by
      obtain ⟨l, hl, h⟩ := (hmem m).1 hm
      exact hb l hl m h
    have hib : (Idx.ofRuns idx s.N).InBounds s.x.rows s.x.cols := by rw [hx.1, hx.2]; exact ofRuns_inBounds hbd
    obtain ⟨y, hy⟩ := Mat.scatterAdd_of_shape (v := (⟨idx.length, s.N, fun i j => (sigma * env.sqrtK s.dt) • env.sampler s.draws i j⟩ : Mat V))
      hib rfl rfl
    obtain ⟨-, y1, y2, -⟩ := Mat.scatterAdd_ok hy
    have hs := fun m n hn => scatterAdd_runs hnd hy rfl rfl m n hn
    have hbump : bumpNum s.M (some (r.num.getD fun _ => 0)) idx =
        .ok fun m => if m ∈ idx then (r.num.getD fun _ => 0) m + 1 else (r.num.getD fun _ => 0) m := by
      unfold bumpNum
      rw [if_pos hbd]
      rfl
    refine ⟨⟨some fun m => if m ∈ idx then (r.num.getD fun _ => 0) m + 1 else (r.num.getD fun _ => 0) m, r.best⟩,
      { s with x := y, draws := s.draws + 1 }, ?_, ⟨_, _, rfl⟩, y1.trans hx.1, y2.trans hx.2, rfl, ?_, ?_, ?_⟩
    · unfold resample
      rw [if_neg hne]
      simp only [← hidx, if_neg he]
      unfold applyResampling
      simp only [bind, Except.bind, pure, Except.pure]
      rw [hy]
      simp only
      rw [hbump]
      rfl
    · refine ⟨fun m => idx.idxOf m, ?_, ?_⟩
      · intro m m' hm hm' h
        rw [← hmem] at hm hm'
        exact (List.idxOf_inj hm).1 h
      · intro m n hn hm
        exact (hs m n hn).1 ((hmem m).2 hm)
    · intro m n hn hm
      exact (hs m n hn).2 fun h => hm ((hmem m).1 h)
    · refine ⟨_, rfl, fun m => ⟨fun hm => ?_, fun hm => ?_⟩⟩
      · simp only [if_pos ((hmem m).2 hm)]
      · have : m ∉ idx := fun h => hm ((hmem m).1 h)
        simp only [if_neg this]

/-- **C45, counter.** Over any sequence of resampling calls, whatever happens to the dynamic in between, `num_resampling[m]` is the number of calls
in which at least one criterion selected run `m`. -/
theorem C45_count (env : Env K V) (sigma : K) (M : ℕ) (calls : List (List (List ℕ) × St K V))
    (hc : ∀ c ∈ calls, c.1 ≠ [] ∧ c.2.M = M ∧ (c.2.x.rows = c.2.M ∧ c.2.x.cols = c.2.N) ∧ ∀ l ∈ c.1, ∀ m ∈ l, m < M) :
    ∃ r, calls.foldlM (fun r c => (resample env sigma false c.1 r c.2).map (·.1)) (⟨none, none⟩ : ResSt K V) = .ok r ∧
      ∀ m, (r.num.getD fun _ => 0) m = (calls.filter fun c => decide (∃ l ∈ c.1, m ∈ l)).length := by
  have key : ∀ (calls : List (List (List ℕ) × St K V)) (r₀ : ResSt K V),
      (∀ c ∈ calls, c.1 ≠ [] ∧ c.2.M = M ∧ (c.2.x.rows = c.2.M ∧ c.2.x.cols = c.2.N) ∧ ∀ l ∈ c.1, ∀ m ∈ l, m < M) →
      ∃ r, calls.foldlM (fun r c => (resample env sigma false c.1 r c.2).map (·.1)) r₀ = .ok r ∧
        ∀ m, (r.num.getD fun _ => 0) m = (r₀.num.getD fun _ => 0) m + (calls.filter fun c => decide (∃ l ∈ c.1, m ∈ l)).length := by
    intro calls
    induction calls with
    | nil => intro r₀ _; exact ⟨r₀, rfl, by simp⟩
    | cons c calls ih =>
      intro r₀ h
      obtain ⟨h1, h2, h3, h4⟩ := h c List.mem_cons_self
      obtain ⟨r', s', e1, -, -, -, -, -, -, num, e2, e3⟩ := C45_resample env sigma c.1 h1 r₀ c.2 h3 (by rw [h2]; exact h4)
      obtain ⟨r, i1, i2⟩ := ih r' fun c' hc' => h c' (List.mem_cons_of_mem _ hc')
      refine ⟨r, ?_, fun m => ?_⟩
      · rw [List.foldlM_cons, e1]
        exact i1
      · rw [i2, e2]
        by_cases hm : ∃ l ∈ c.1, m ∈ l
        · rw [List.filter_cons_of_pos (by simpa using hm)]
          have := (e3 m).1 hm
          simp only [Option.getD_some, List.length_cons]
          omega
        · rw [List.filter_cons_of_neg (by simpa using hm)]
          have := (e3 m).2 hm
          simp only [Option.getD_some]
          omega
  obtain ⟨r, h1, h2⟩ := key calls _ hc
  exact ⟨r, h1, fun m => by simpa using h2 m⟩

/-- C45, ensemble update criterion: exactly the runs whose last update is below the threshold; edge: without criteria the call raises. -/
theorem C45_criterion (env : Env K V) (sigma : K) (tb : Bool) (thresh : Flt K) (r : ResSt K V) (s : St K V) :
    (∀ m, m ∈ ensembleUpdate thresh s ↔ m < s.M ∧ Flt.lt (s.updDiff m) thresh = true) ∧
    resample env sigma tb [] r s = .error .value := by
  refine ⟨fun m => ?_, by unfold resample; rw [if_pos rfl]⟩
  simp only [ensembleUpdate, List.mem_filter, List.mem_range]

/-- C45: the example dynamic with two runs; two criteria both select run 1. -/
example : ∃ r' s', resample Example.env 1 false [[1], [1, 1]] ⟨none, none⟩ (Example.start [] none) = .ok (r', s') :=
  let ⟨r', s', h, _⟩ := C45_resample Example.env 1 [[1], [1, 1]] (by simp) ⟨none, none⟩ (Example.start [] none) (by decide +kernel)
    (by decide +kernel)
  ⟨r', s', h⟩

/-! ### C46 -/

/-- **C46.** `loss_update_resampling` selects run `m` at a call exactly when the number of calls since the last improvement of its best
energy (all calls if there was none) is a positive multiple of `wait_thresh`. `ss` are the states of the dynamic at all calls so far, the last one
included. -/
theorem C46_loss (thresh : ℕ) (ht : 1 ≤ thresh) (ss : List (St K V)) (s : St K V) (m : ℕ) (hm : m < s.M) (b : ℕ → Flt K)
    (hb : ∀ i (hi : i < (ss ++ [s]).length), b i = ((ss ++ [s])[i]).bestE m) :
    m ∈ (lossUpdate thresh (lossAfter thresh ss) s).1 ↔ ∃ k j, 1 ≤ j ∧ k = j * thresh ∧ Stalled b ss.length k := by
  have inv : ∀ (ss : List (St K V)), (∀ i (hi : i < ss.length), b i = (ss[i]).bestE m) →
      ((lossAfter thresh ss).getD ⟨fun _ => .pinf, fun _ => 0⟩).wait m = stallCount b ss.length % thresh ∧
      ((lossAfter thresh ss).getD ⟨fun _ => .pinf, fun _ => 0⟩).best m ≠ .nan ∧
      ∀ c : Flt K, Flt.lt c (((lossAfter thresh ss).getD ⟨fun _ => .pinf, fun _ => 0⟩).best m) = true ↔
        Flt.lt c .pinf = true ∧ ∀ r < ss.length, b r = .nan ∨ Flt.lt c (b r) = true := by
    intro ss
    induction ss using List.reverseRecOn with
    | nil => intro _; simp [lossAfter, stallCount]
    | append_singleton ss s ih =>
      intro hb
      obtain ⟨i1, i2, i3⟩ := ih fun i hi => by
        rw [hb i (by simp; omega)]
        simp [List.getElem_append_left hi]
      have hbs : b ss.length = s.bestE m := by
        rw [hb ss.length (by simp)]
        simp
      have himp : Flt.gt (((lossAfter thresh ss).getD ⟨fun _ => .pinf, fun _ => 0⟩).best m) (s.bestE m) = true ↔ Improves b ss.length := by
        unfold Flt.gt Improves
        rw [i3, hbs]
      have e : lossAfter thresh (ss ++ [s]) = some (lossUpdate thresh (lossAfter thresh ss) s).2 := by
        unfold lossAfter
        rw [List.foldl_append]
        rfl
      rw [e, List.length_append, List.length_singleton]
      simp only [Option.getD_some, lossUpdate]
      rw [if_neg (by omega : ¬ thresh = 0)]
      by_cases h : Improves b ss.length
      · rw [if_pos (himp.2 h)]
        rw [if_pos (himp.2 h)]
        refine ⟨by simp [stallCount, h], ?_, ?_⟩
        · rw [← hbs]
          exact Flt.ne_nan_of_lt_left h.1
        · intro c
          rw [← hbs]
          constructor
          · intro hc
            refine ⟨Flt.lt_trans hc h.1, fun r hr => ?_⟩
            by_cases hr' : r = ss.length
            · subst hr'; exact Or.inr hc
            · rcases h.2 r (by omega) with h' | h'
              · exact Or.inl h'
              · exact Or.inr (Flt.lt_trans hc h')
          · rintro ⟨h1, h2⟩
            rcases h2 ss.length (by omega) with h' | h'
            · exact absurd h' (Flt.ne_nan_of_lt_left h.1)
            · exact h'
      · have hn : ¬ (Flt.gt (((lossAfter thresh ss).getD ⟨fun _ => .pinf, fun _ => 0⟩).best m) (s.bestE m) = true) := fun hh => h (himp.1 hh)
        rw [if_neg hn, if_neg hn]
        refine ⟨?_, i2, ?_⟩
        · rw [i1]
          simp only [stallCount, if_neg h]
          rw [Nat.add_mod, Nat.mod_mod, ← Nat.add_mod]
        · intro c
          constructor
          · intro hc
            obtain ⟨c1, c2⟩ := (i3 c).1 hc
            refine ⟨c1, fun r hr => ?_⟩
            by_cases hr' : r = ss.length
            · subst hr'
              rw [hbs]
              by_cases hnan : s.bestE m = .nan
              · exact Or.inl hnan
              · refine Or.inr ?_
                refine Flt.lt_of_lt_of_not_lt hnan hc ?_
                simpa [Flt.gt] using hn
            · exact c2 r (by omega)
          · rintro ⟨c1, c2⟩
            exact (i3 c).2 ⟨c1, fun r hr => c2 r (by omega)⟩
  obtain ⟨i1, i2, i3⟩ := inv ss fun i hi => by
    rw [hb i (by simp; omega)]
    simp [List.getElem_append_left hi]
  have hbs : b ss.length = s.bestE m := by
    rw [hb ss.length (by simp)]
    simp
  have himp : Flt.gt (((lossAfter thresh ss).getD ⟨fun _ => .pinf, fun _ => 0⟩).best m) (s.bestE m) = true ↔ Improves b ss.length := by
    unfold Flt.gt Improves
    rw [i3, hbs]
  simp only [lossUpdate, List.mem_filter, List.mem_range, hm, true_and, decide_eq_true_eq]
  have hlt : stallCount b ss.length % thresh < thresh := Nat.mod_lt _ (by omega)
  constructor
  · intro h
    by_cases hI : Improves b ss.length
    · rw [if_pos (himp.2 hI)] at h
      omega
    · rw [if_neg (fun hh => hI (himp.1 hh)), i1] at h
      refine ⟨stallCount b (ss.length + 1), stallCount b ss.length / thresh + 1, Nat.le_add_left 1 _, ?_, (stalled_iff _ _ _).2 rfl⟩
      simp only [stallCount, if_neg hI]
      have h1 := Nat.div_add_mod (stallCount b ss.length) thresh
      have h2 : stallCount b ss.length % thresh + 1 = thresh := by omega
      have h3 : (stallCount b ss.length / thresh + 1) * thresh = thresh * (stallCount b ss.length / thresh) + thresh := by ring
      omega
  · rintro ⟨k, j, hj, rfl, hk⟩
    rw [stalled_iff] at hk
    simp only [stallCount] at hk
    have hpos : 1 ≤ j * thresh := Nat.one_le_iff_ne_zero.2 (Nat.mul_ne_zero (by omega) (by omega))
    by_cases hI : Improves b ss.length
    · rw [if_pos hI] at hk
      omega
    · rw [if_neg hI] at hk
      rw [if_neg (fun hh => hI (himp.1 hh)), i1]
      have h1 : stallCount b ss.length = (j - 1) * thresh + (thresh - 1) := by
        have : j * thresh = (j - 1) * thresh + thresh := by
          obtain ⟨j', rfl⟩ : ∃ j', j = j' + 1 := ⟨j - 1, by omega⟩
          simp only [Nat.add_sub_cancel]
          ring
        omega
      rw [h1, Nat.mul_add_mod_self_right, Nat.mod_eq_of_lt (by omega)]
      omega

/-- C46: three calls with best energies 3, 2, 2 for run 0: at the third call the last call did not improve. -/
example : Stalled (fun t => (Flt.fin (if t = 0 then 3 else 2) : Flt ℚ)) 2 1 := by
  refine ⟨by omega, ?_, fun _ => ⟨rfl, ?_⟩⟩
  · intro r h1 h2 h
    have : r = 2 := by omega
    subst this
    rcases h.2 1 (by omega) with h | h
    · cases h
    · revert h; decide +kernel
  · intro r hr
    have : r = 0 := by omega
    subst this
    exact Or.inr (by decide +kernel)

/-! ### C47 -/

/-- **C47, exact behaviour.** At call `t` (counted from 0) `consensus_stagnation` never raises and selects exactly the active runs whose consensus moved by less
than `update_thresh` between any two consecutive calls among the last `min(patience, t) + 1` ones (all calls for `patience = 0`); nothing at
the first call.

The claim asks for `patience` small moves; see `C47_full` and `C47_early_false` for the first calls. -/
theorem C47_partial [Zero V] (nd : V → V → Flt K) (patience : ℕ) (thresh : Flt K) (M : ℕ) (st : ℕ → St K V)
    (hok : ∀ t, ConsOK M (st t)) (hact : ∀ t, ∀ m ∈ (st (t + 1)).active, m ∈ (st t).active) (t : ℕ) :
    ∃ q sel q', stagAfter nd patience thresh st t = .ok q ∧ consensusStagnation nd patience thresh q (st t) = .ok (sel, q') ∧
      ∀ m, m ∈ sel ↔ m ∈ (st t).active ∧ 1 ≤ t ∧ ∀ j, j < t → (patience = 0 ∨ t ≤ j + patience) →
        Flt.lt (nd (consOf (st (j + 1)) m) (consOf (st j) m)) thresh = true := by
  have inv : ∀ t, ∃ q, stagAfter nd patience thresh st (t + 1) = .ok q ∧ ConsStagInv nd patience M st t q := by
    intro t
    induction t with
    | zero =>
      obtain ⟨q, h1, h2⟩ := stag_first nd patience thresh M st (hok 0)
      refine ⟨q, ?_, h2⟩
      simp only [stagAfter, bind, Except.bind, h1]
      rfl
    | succ t ih =>
      obtain ⟨q, h1, h2⟩ := ih
      obtain ⟨sel, q', h3, h4, -⟩ := stag_next nd patience thresh M st t q h2 (hok _) (hact t)
      refine ⟨q', ?_, h4⟩
      rw [stagAfter, h1]
      simp only [bind, Except.bind, h3]
      rfl
  cases t with
  | zero =>
    obtain ⟨q, h1, h2⟩ := stag_first nd patience thresh M st (hok 0)
    exact ⟨_, [], q, rfl, h1, fun m => by simp⟩
  | succ t =>
    obtain ⟨q, h1, h2⟩ := inv t
    obtain ⟨sel, q', h3, h4, h5⟩ := stag_next nd patience thresh M st t q h2 (hok _) (hact t)
    refine ⟨q, sel, q', h1, h3, fun m => ?_⟩
    rw [h5]
    refine and_congr_right fun _ => ?_
    constructor
    · intro h
      refine ⟨by omega, fun j hj hp => h _ ?_⟩
      rw [mem_lastK]
      exact ⟨j, by simpa using hj, by simpa using hp, by simp⟩
    · rintro ⟨-, h⟩ d hd
      rw [mem_lastK] at hd
      obtain ⟨j, hj, hp, rfl⟩ := hd
      simp only [List.length_map, List.length_range] at hj hp
      simpa using h j hj hp

/-- **C47 after enough calls.** From call `patience` on the claim holds as stated: a selected run is active and its consensus moved less than
`update_thresh` in each of the last `patience` calls. -/
theorem C47_full [Zero V] (nd : V → V → Flt K) (patience : ℕ) (thresh : Flt K) (M : ℕ) (st : ℕ → St K V)
    (hok : ∀ t, ConsOK M (st t)) (hact : ∀ t, ∀ m ∈ (st (t + 1)).active, m ∈ (st t).active) (t : ℕ) (ht : patience ≤ t)
    (q q' : StagSt K V) (sel : List ℕ) (h1 : stagAfter nd patience thresh st t = .ok q)
    (h2 : consensusStagnation nd patience thresh q (st t) = .ok (sel, q')) (m : ℕ) (hm : m ∈ sel) :
    m ∈ (st t).active ∧ ∀ i < patience, Flt.lt (nd (consOf (st (t - i)) m) (consOf (st (t - i - 1)) m)) thresh = true := by
  obtain ⟨p, sel', p', e1, e2, e3⟩ := C47_partial nd patience thresh M st hok hact t
  rw [h1] at e1
  cases e1
  rw [h2] at e2
  cases e2
  obtain ⟨a, b, c⟩ := (e3 m).1 hm
  refine ⟨a, fun i hi => ?_⟩
  have := c (t - i - 1) (by omega) (Or.inr (by omega))
  have e : t - i - 1 + 1 = t - i := by omega
  rwa [e] at this

/-- **C47 is false at the first calls.** With `patience = 5` a run whose consensus did not move between the first two calls is selected at the second call. -/
theorem C47_early_false {K V : Type} [Field K] [LinearOrder K] [IsStrictOrderedRing K] [Add V] [Sub V] [SMul K V] [Zero V] (nd : V → V → Flt K) (hnd : ∀ v, nd v v = .fin 0) (s : St K V) (hok : ConsOK s.M s) :
    ∃ q sel q', stagAfter nd 5 (.fin 1) (fun _ => s) 1 = .ok q ∧ consensusStagnation nd 5 (.fin 1) q s = .ok (sel, q') ∧
      ∀ m ∈ s.active, m ∈ sel := by
  obtain ⟨q, sel, q', h1, h2, h3⟩ := C47_partial nd 5 (.fin 1) s.M (fun _ => s) (fun _ => hok) (fun _ _ h => h) 1
  refine ⟨q, sel, q', h1, h2, fun m hm => (h3 m).2 ⟨hm, le_refl _, fun j _ _ => ?_⟩⟩
  rw [hnd]
  simp [Flt.lt]

/-- C47: the example dynamic with a consensus point for each of its two runs. -/
example : ConsOK 2 { Example.start [] none with cons := some ⟨2, 1, fun _ _ => 0⟩ } :=
  ⟨rfl, by decide +kernel, by decide +kernel, _, rfl, rfl, rfl⟩

end Verif
