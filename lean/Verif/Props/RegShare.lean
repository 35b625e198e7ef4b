import Verif.Proofs.RegShare

/-! # C121: a regularised objective used by a dynamic, its scheduler and plots -/

set_option linter.unusedSectionVars false

namespace Verif

variable {d : ℕ} (c : RegCfg) (rule : MeanRule) (f R : (Fin d → ℝ) → ℝ) (p : ℝ)

/-- **C121, the first caller fixes the shape.** A regularised objective is first called on an ensemble `x` and then used in any way: calls on ensembles of any size (by dynamics or plots), updates of a scheduler, exceptions being caught. From
then on it can be evaluated on an ensemble `y` with as many runs as `x`, or on every ensemble if `x` had one run: the values are `f + lamda R^p` with `lamda` of the run (with the one `lamda`). On a single run it returns
one row for every run of `x`, and on any other number of runs it raises `ValueError`. -/
theorem C121_shape (theta : Lam) (lam : ℝ) (k : ℕ) (x : Mat (Fin d → ℝ)) (ops : List (RegOp d)) (y : Mat (Fin d → ℝ)) :
    let s := regOps c rule f R p (theta, ⟨.num lam, k⟩) (.call x :: ops)
    (y.rows = x.rows ∨ x.rows = 1 → ∃ z, (regEval f R p s.2 y).1 = .ok z ∧ z.rows = y.rows ∧ z.cols = y.cols ∧
      ∀ m < y.rows, ∀ n, z.get m n = f (y.get m n) + s.2.lamda.at (if x.rows = 1 then 0 else m) * R (y.get m n) ^ p) ∧
    (y.rows ≠ x.rows → x.rows ≠ 1 → y.rows = 1 → ∃ z, (regEval f R p s.2 y).1 = .ok z ∧ z.rows = x.rows) ∧
    (y.rows ≠ x.rows → x.rows ≠ 1 → y.rows ≠ 1 → (regEval f R p s.2 y).1 = .error .value) := by
  intro s
  have hs : s.2.len = some x.rows := regOps_len ops (theta, (regEval f R p ⟨.num lam, k⟩ x).2) (by rw [regEval_len]; rfl)
  rw [regEval_out hs]
  rcases bcast_cases x.rows y.rows with ⟨e, h1, h2, h3⟩ | ⟨e, h1⟩ | ⟨e, h1, h2, h3⟩
  · rw [e]
    exact ⟨fun h => by omega, fun _ _ h => absurd h h3, fun _ _ _ => rfl⟩
  · rw [e]
    refine ⟨fun _ => ⟨_, rfl, rfl, rfl, fun m hm n => ?_⟩, fun h h' => by omega, fun h h' => by omega⟩
    simp only [brow_lt hm]
    rfl
  · rw [e]
    exact ⟨fun h => by omega, fun _ _ _ => ⟨_, rfl, rfl⟩, fun _ _ h => absurd h3 h⟩

/-- **C121, update.** If `theta` and `lamda` fit the number of runs (and `lamda` is a column, or the weighted rule is used, which calls the objective), the update raises nothing and does in every run what C44 says. -/
theorem C121_update (alpha : List ℝ) (x : Mat (Fin d → ℝ)) (theta : Lam) (o : RegObj) (ha : alpha.length = x.rows) (ht : theta.fits x.rows) (hl : o.lamda.fits x.rows) (hcall : o.len ≠ none ∨ rule = .weighted) :
    ∃ th o', schedLamda c rule f R p alpha x theta o = (.ok (), th, o') ∧ th.fits x.rows ∧ o'.lamda.fits x.rows ∧ o'.len ≠ none ∧
      ∀ i < x.rows, th.at i = (lamUpdate c (testedMean rule f R p alpha o.lamda.at x) ⟨theta.at, o.lamda.at⟩).theta i ∧ o'.lamda.at i = (lamUpdate c (testedMean rule f R p alpha o.lamda.at x) ⟨theta.at, o.lamda.at⟩).lamda i := by
  have hm := ruleMean_fits (rule := rule) (f := f) (R := R) (p := p) ha hl
  have hT := Lam.fits_length ht
  -- the objective after the mean
  have ho : ∃ l, (ruleMean rule f R p alpha o x).2.lamda = .col l ∧ l.length = x.rows ∧ ∀ i < x.rows, l.getD i 0 = o.lamda.at i := by
    rw [ruleMean_state]
    cases rule with
    | simple =>
      rcases hcall with h | h
      · cases hL : o.lamda with
        | num a => simp [RegObj.len, hL] at h
        | col l => exact ⟨l, rfl, by rw [hL] at hl; exact hl, fun i _ => rfl⟩
      · cases h
    | weighted =>
      rw [regEval_state]
      exact ⟨_, rfl, Lam.fits_length hl, fun i hi => Lam.broadcast_at hi⟩
  obtain ⟨l, hL, hlen, hat⟩ := ho
  unfold schedLamda
  dsimp only
  generalize hq : ruleMean rule f R p alpha o x = q at hm hL ⊢
  obtain ⟨r, o'⟩ := q
  dsimp only at hm hL
  subst hm
  simp only [List.length_map, List.length_range, hT, bcast_same, ne_eq, not_true, if_false, hL, hlen]
  refine ⟨_, _, rfl, by simp [Lam.fits], by simp [Lam.fits], by simp [RegObj.len], fun i hi => ?_⟩
  simp only [lamUpdate]
  exact ⟨by simp only [Lam.at, getD_map_range hi, brow_lt hi, Lam.broadcast_at hi]; rfl, by simp only [Lam.at, getD_map_range hi, brow_lt hi, Lam.broadcast_at hi, hat i hi]; rfl⟩

/-- **C121, one dynamic.** If an objective is used only by one dynamic of `M` runs and its scheduler, and called before the first update, no call and no update raises an exception, for any sequence of calls and updates. -/
theorem C121_alone (M : ℕ) (theta lam : ℝ) (k : ℕ) (x : Mat (Fin d → ℝ)) (hx : x.rows = M) (ops : List (RegOp d)) (hops : ∀ op ∈ ops, op.Of M) :
    let s := regOps c rule f R p (.num theta, ⟨.num lam, k⟩) (.call x :: ops)
    (∀ y : Mat (Fin d → ℝ), y.rows = M → ∃ z, (regEval f R p s.2 y).1 = .ok z ∧ z.rows = M ∧ ∀ m < M, ∀ n, z.get m n = f (y.get m n) + s.2.lamda.at m * R (y.get m n) ^ p) ∧
    ∀ (alpha : List ℝ) (y : Mat (Fin d → ℝ)), y.rows = M → alpha.length = M → (schedLamda c rule f R p alpha y s.1 s.2).1 = .ok () := by
  intro s
  have hs : s.1.fits M ∧ s.2.len = some M := by
    have key : ∀ (ops : List (RegOp d)) (s : Lam × RegObj), (∀ op ∈ ops, op.Of M) → s.1.fits M → s.2.len = some M → (regOps c rule f R p s ops).1.fits M ∧ (regOps c rule f R p s ops).2.len = some M := by
      intro ops
      induction ops with
      | nil => exact fun s _ h1 h2 => ⟨h1, h2⟩
      | cons op ops ih =>
        intro s hop h1 h2
        refine ih (regOp c rule f R p s op) (fun o ho => hop o (List.mem_cons_of_mem _ ho)) ?_ ?_
        · cases op with
          | call y => exact h1
          | update alpha y =>
            obtain ⟨e1, e2⟩ := hop _ List.mem_cons_self
            obtain ⟨l, hl, hlen⟩ := len_some h2
            obtain ⟨th, o', e, f1, -⟩ := C121_update c rule f R p alpha y s.1 s.2 (by rw [e1, e2]) (by rw [e1]; exact h1) (by rw [e1, hl]; exact hlen) (.inl (by rw [h2]; simp))
            simp only [regOp, e]
            rw [← e1]
            exact f1
        · exact regOps_len [op] s h2
    exact key ops _ hops trivial (by simp only [regOp]; rw [regEval_len]; simp [RegObj.len, hx])
  obtain ⟨l, hl, hlen⟩ := len_some hs.2
  refine ⟨fun y hy => ?_, fun alpha y hy ha => ?_⟩
  · rw [regEval_out hs.2, hy, bcast_same]
    refine ⟨_, rfl, rfl, fun m hm n => ?_⟩
    simp only [brow_lt hm]
  · obtain ⟨th, o', e, -⟩ := C121_update c rule f R p alpha y s.1 s.2 (by rw [hy, ha]) (by rw [hy]; exact hs.1) (by rw [hy, hl]; exact hlen) (.inl (by rw [hs.2]; simp))
    rw [e]

/-- **C121, wrong shape.** If `lamda` is a column of another length than the number of runs (at least one run, `theta` and `alpha` fitting), the update raises: `IndexError`, or `ValueError` if the weighted rule is used and neither number is one. The
objective keeps its `lamda`, but `theta` of the simple rule has already been changed. -/
theorem C121_mismatch_raises (alpha : List ℝ) (x : Mat (Fin d → ℝ)) (theta : Lam) (o : RegObj) (L : ℕ) (ha : alpha.length = x.rows) (ht : theta.fits x.rows) (hl : o.len = some L) (hL : L ≠ x.rows) :
    (schedLamda c rule f R p alpha x theta o).1 = .error (match rule with
      | .simple => .index
      | .weighted => if L = 1 ∨ x.rows = 1 then .index else .value) ∧
    (schedLamda c rule f R p alpha x theta o).2.2.lamda = o.lamda ∧
    (rule = .simple → ∀ i < x.rows, (schedLamda c rule f R p alpha x theta o).2.1.at i = (lamUpdate c (ruleSimple R x) ⟨theta.at, o.lamda.at⟩).theta i) := by
  obtain ⟨l, hl', rfl⟩ := len_some hl
  have hT := Lam.fits_length ht
  cases rule with
  | simple =>
    unfold schedLamda ruleMean
    simp only [List.length_map, List.length_range, hT, bcast_same, ne_eq, not_true, if_false, hl', if_pos (Ne.symm hL), true_and]
    intro _ i hi
    simp only [lamUpdate]
    simp only [Lam.at, getD_map_range hi, brow_lt hi, Lam.broadcast_at hi]
    rfl
  | weighted =>
    have herr : (schedLamda c .weighted f R p alpha x theta o).1 = .error (if l.length = 1 ∨ x.rows = 1 then .index else .value) := by
      have hout := regEval_out (f := f) (R := R) (p := p) hl x
      unfold schedLamda ruleMean
      dsimp only
      generalize hq : regEval f R p o x = q at hout ⊢
      obtain ⟨r, o'⟩ := q
      have ho' : o'.lamda = .col l := by
        have := regEval_state (f := f) (R := R) (p := p) o x
        rw [hq, hl'] at this
        dsimp only at this
        rw [this]
        rfl
      dsimp only at hout
      subst hout
      rcases bcast_cases l.length x.rows with ⟨e, h1, h2, h3⟩ | ⟨e, h1⟩ | ⟨e, h1, h2, h3⟩
      · rw [e, if_neg (by omega)]
        rfl
      · have h1 : l.length = 1 := by omega
        rw [e, if_pos (.inl h1)]
        simp only [Except.map, ha, bcast_same, bind, Except.bind, pure, Except.pure, List.length_map, List.length_range, hT, ne_eq, not_true, if_false, ho', if_pos (Ne.symm hL)]
      · rw [e, if_pos (.inr h3)]
        have b1 : bcast 1 l.length = .ok l.length := by
          rcases bcast_cases 1 l.length with ⟨_, _, h, _⟩ | ⟨h, _⟩ | ⟨_, _, h, _⟩
          · exact absurd rfl h
          · exact h
          · exact absurd rfl h
        have b2 : bcast l.length 1 = .ok l.length := by rw [← h3]; exact e
        simp only [Except.map, ha, h3, b1, b2, bind, Except.bind, pure, Except.pure, List.length_map, List.length_range, ne_eq]
        rw [h3] at hT
        simp only [hT, b2, h2, not_false_eq_true, if_true]
    refine ⟨herr, ?_, nofun⟩
    rw [schedLamda_error herr, ruleMean_state]
    dsimp only
    rw [regEval_state, hl']
    rfl

/-- **C121, update before the first call.** With the simple rule an update before the objective has been called raises `TypeError` (a number has no entries), again after `theta` has been changed. With the weighted rule it works (C121_update). -/
theorem C121_uncalled_raises (alpha : List ℝ) (x : Mat (Fin d → ℝ)) (theta : Lam) (lam : ℝ) (k : ℕ) (ht : theta.fits x.rows) :
    (schedLamda c .simple f R p alpha x theta ⟨.num lam, k⟩).1 = .error .type ∧
    ∀ i < x.rows, (schedLamda c .simple f R p alpha x theta ⟨.num lam, k⟩).2.1.at i = (lamUpdate c (ruleSimple R x) ⟨theta.at, fun _ => lam⟩).theta i := by
  have hT := Lam.fits_length ht
  unfold schedLamda ruleMean
  simp only [List.length_map, List.length_range, hT, bcast_same, ne_eq, not_true, if_false, true_and]
  intro i hi
  simp only [lamUpdate]
  simp only [Lam.at, getD_map_range hi, brow_lt hi, Lam.broadcast_at hi]
  rfl

/-- **C121, evaluations.** `num_eval` of the regularised objective counts the particles of all calls, those of plots, of updates with the weighted rule and of calls that raise an exception included. -/
theorem C121_count (s : Lam × RegObj) (ops : List (RegOp d)) : (regOps c rule f R p s ops).2.numEval = s.2.numEval + (ops.map (RegOp.evals rule)).sum := regOps_count ops s

/-- **C121, after a plot in one dimension.** If a regularised objective is drawn with `plot_1D` before it is given to a dynamic of two or more runs, all evaluations give the right values (C121_shape), but the first update of the scheduler raises
`IndexError`, for either rule, whatever calls come in between. -/
theorem C121_plot_raises (f R : (Fin 1 → ℝ) → ℝ) (pts : List ℝ) (theta lam : ℝ) (k : ℕ) (calls : List (Mat (Fin 1 → ℝ))) (alpha : List ℝ) (x : Mat (Fin 1 → ℝ)) (hx : 2 ≤ x.rows) (ha : alpha.length = x.rows) :
    let s := regOps c rule f R p (.num theta, ⟨.num lam, k⟩) (.call (plotGrid pts) :: calls.map .call)
    (schedLamda c rule f R p alpha x s.1 s.2).1 = .error .index ∧ (schedLamda c rule f R p alpha x s.1 s.2).2.2.lamda = s.2.lamda := by
  intro s
  have hs : s.2.len = some 1 := regOps_len _ (.num theta, (regEval f R p ⟨.num lam, k⟩ (plotGrid pts)).2) (by rw [regEval_len]; rfl)
  have hth : s.1 = .num theta := by
    have key : ∀ (calls : List (Mat (Fin 1 → ℝ))) (s : Lam × RegObj), (regOps c rule f R p s (calls.map .call)).1 = s.1 := by
      intro calls
      induction calls with
      | nil => exact fun _ => rfl
      | cons y ys ih => exact fun s => ih (regOp c rule f R p s (.call y))
    exact key calls _
  obtain ⟨h1, h2, -⟩ := C121_mismatch_raises c rule f R p alpha x s.1 s.2 1 ha (by rw [hth]; trivial) hs (by omega)
  refine ⟨?_, h2⟩
  rw [h1]
  cases rule with
  | simple => rfl
  | weighted => simp

/-- **C121, after a contour plot.** After `contour_2D` on a grid with `n` rows no dynamic of `M` runs with `1 < M ≠ n` can evaluate the objective: `ValueError`, whatever happened in between. -/
theorem C121_contour_raises (f R : (Fin 2 → ℝ) → ℝ) (xs ys : List ℝ) (theta : Lam) (lam : ℝ) (k : ℕ) (ops : List (RegOp 2)) (y : Mat (Fin 2 → ℝ)) (hn : ys.length ≠ 1) (hy : 1 < y.rows) (hne : y.rows ≠ ys.length) :
    (regEval f R p (regOps c rule f R p (theta, ⟨.num lam, k⟩) (.call (contourGrid xs ys) :: ops)).2 y).1 = .error .value :=
  (C121_shape c rule f R p theta lam k (contourGrid xs ys) ops y).2.2 hne hn (by omega)

/-- C121: two runs of three particles on the line, penalty `|v|`, `theta = 1`. With the default factors the first update leaves `lamda` of the run at the origin at 1 and raises the one of the run at 2 to 1.1; -/
example : ∃ th o', schedLamda ⟨100000, 1.1, 1.1, 10 ^ 15⟩ .simple (fun v : Fin 1 → ℝ => v 0 ^ 2) (fun v => |v 0|) 1 [10, 10] ⟨2, 3, fun m _ _ => 2 * m⟩ (.num 1) ⟨.col [1, 1], 6⟩ = (.ok (), th, o') ∧
    o'.lamda.at 0 = 1 ∧ o'.lamda.at 1 = 1.1 := by
  obtain ⟨th, o', e, -, -, -, h⟩ := C121_update ⟨100000, 1.1, 1.1, 10 ^ 15⟩ .simple (fun v : Fin 1 → ℝ => v 0 ^ 2) (fun v => |v 0|) 1 [10, 10] ⟨2, 3, fun m _ _ => 2 * m⟩ (.num 1) ⟨.col [1, 1], 6⟩ rfl trivial rfl (.inl (by simp [RegObj.len]))
  refine ⟨th, o', e, ?_, ?_⟩
  · rw [(h 0 (by norm_num)).2]
    simp [lamUpdate, testedMean, Lam.at]
    norm_num
  · rw [(h 1 (by norm_num)).2]
    simp [lamUpdate, testedMean, Lam.at]
    norm_num

/-- C121: the same dynamic alone never fails; after a plot on three points the update fails. -/
example : let c : RegCfg := ⟨100000, 1.1, 1.1, 10 ^ 15⟩
    let f := fun v : Fin 1 → ℝ => v 0 ^ 2
    let R := fun v : Fin 1 → ℝ => |v 0|
    let x : Mat (Fin 1 → ℝ) := ⟨2, 3, fun m _ _ => 2 * m⟩
    let s := regOps c .weighted f R 1 (.num 1, ⟨.num 1, 0⟩) [.call x, .update [10, 10] x, .call x]
    let u := regOps c .weighted f R 1 (.num 1, ⟨.num 1, 0⟩) [.call (plotGrid [-1, 0, 1]), .call x]
    (schedLamda c .weighted f R 1 [10, 10] x s.1 s.2).1 = .ok () ∧ s.2.numEval = 18 ∧ (schedLamda c .weighted f R 1 [10, 10] x u.1 u.2).1 = .error .index := by
  intro c f R x s u
  refine ⟨(C121_alone c .weighted f R 1 2 1 1 0 x rfl [.update [10, 10] x, .call x] (by simp [RegOp.Of, x])).2 [10, 10] x rfl rfl, ?_, ?_⟩
  · have := C121_count c .weighted f R 1 (.num 1, ⟨.num 1, 0⟩) [.call x, .update [10, 10] x, .call x]
    simpa [RegOp.evals, x] using this
  · exact (C121_plot_raises c .weighted 1 f R [-1, 0, 1] 1 1 0 [x] [10, 10] x (le_refl 2) rfl).1

/-- C121: an update of the same dynamic before the first call. -/
example : (schedLamda ⟨100000, 1.1, 1.1, 10 ^ 15⟩ .simple (fun v : Fin 1 → ℝ => v 0 ^ 2) (fun v => |v 0|) 1 [10, 10] ⟨2, 3, fun m _ _ => 2 * m⟩ (.num 1) ⟨.num 1, 0⟩).1 = .error .type :=
  (C121_uncalled_raises _ _ _ 1 _ _ (.num 1) _ _ trivial).1

/-- C121: a contour plot on a grid of 3 rows, then a dynamic of two runs. -/
example : (regEval (fun v : Fin 2 → ℝ => v 0 ^ 2) (fun v => |v 1|) 1 (regOps ⟨100000, 1.1, 1.1, 10 ^ 15⟩ .simple (fun v : Fin 2 → ℝ => v 0 ^ 2) (fun v => |v 1|) 1 (.num 1, ⟨.num 1, 0⟩)
    [.call (contourGrid [0, 1, 2] [0, 1, 2])]).2 ⟨2, 5, fun _ _ => 0⟩).1 = .error .value :=
  C121_contour_raises _ _ 1 _ _ _ _ _ _ _ [] _ (by simp) (by norm_num) (by simp)

end Verif
