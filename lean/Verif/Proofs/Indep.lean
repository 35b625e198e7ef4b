import Verif.Spec.Indep
import Verif.Proofs.FullMoves
import Verif.Proofs.Best
import Verif.Proofs.Count
import Verif.Proofs.Local

/-! Lemmas about the loop of the independent noise. -/

set_option linter.unusedSectionVars false

namespace Verif

variable {K V : Type} [Zero K] [One K] [Neg K] [Add K] [Sub K] [Mul K] [Inv K] [Div K] [NatCast K] [Pow K ℕ] [LinearOrder K] [Add V] [Sub V] [SMul K V]

theorem walk_shift (sc : K) (zs : ℕ → ℕ → V) (row : ℕ → V) (i j : ℕ) :
    walk sc zs row (i + 1) j = walk sc (fun l => zs (l + 1)) (fun j => row j + sc • zs 0 j) i j := by
  induction i generalizing j with
  | zero => rfl
  | succ i ih =>
    have : walk sc zs row (i + 1 + 1) j = walk sc zs row (i + 1) j + sc • zs (i + 1) j := rfl
    rw [this, ih]
    rfl

theorem walk_congr (sc : K) (zs : ℕ → ℕ → V) {row row' : ℕ → V} {j : ℕ} (h : row j = row' j) (i : ℕ) : walk sc zs row i j = walk sc zs row' i j := by
  induction i with
  | zero => exact h
  | succ i ih => simp only [walk]; rw [ih]

theorem collapsed_congr {p : IndepArgs K V} {N : ℕ} {row row' : ℕ → V} {c : V} (h : ∀ j < N, row j = row' j) : Collapsed p N row c ↔ Collapsed p N row' c := by
  unfold Collapsed variance
  have : ((List.range N).map fun j => p.normSq (row j - c)) = (List.range N).map fun j => p.normSq (row' j - c) := by
    apply List.map_congr_left
    intro j hj
    rw [h j (List.mem_range.1 hj)]
  rw [this]

/-- The test of the loop: the listed rows are the collapsed runs. -/
theorem indepIdx_mem {p : IndepArgs K V} {x c : Mat V} {v : ℕ × (ℕ → K)} (hr : c.rows = x.rows ∨ c.rows = 1) (hc : c.cols = 1)
    (h : indepVar p x c = .ok v) (m : ℕ) : m ∈ indepIdx p v ↔ m < x.rows ∧ Collapsed p x.cols (x.get m) (c.get (Mat.bpos c.rows m) 0) := by
  simp only [indepVar, bind_ok, pure_ok] at h
  obtain ⟨d, hd, rfl⟩ := h
  obtain ⟨e1, e2, e3⟩ := Mat.bin_ok hd
  have r1 : d.rows = x.rows := by
    rcases hr with hr | hr
    · rw [hr, Mat.bdim_self] at e1; injection e1 with e1; exact e1.symm
    · rw [hr, Mat.bdim_one_right] at e1; injection e1 with e1; exact e1.symm
  have r2 : d.cols = x.cols := by
    rw [hc, Mat.bdim_one_right] at e2; injection e2 with e2; exact e2.symm
  unfold indepIdx
  simp only [List.mem_filter, List.mem_range, r1, decide_eq_true_eq]
  apply and_congr_right
  intro hm
  unfold Collapsed variance Mat.row
  rw [r2]
  have : ((List.range x.cols).map fun j => d.get m j) = (List.range x.cols).map fun j => p.normSq (x.get m j - c.get (Mat.bpos c.rows m) 0) := by
    apply List.map_congr_left
    intro j hj
    rw [e3, Mat.bpos_lt hm, Mat.bpos_lt (List.mem_range.1 hj), hc]
    rfl
  rw [this]

theorem indepVar_total {p : IndepArgs K V} {x c : Mat V} (hr : c.rows = x.rows ∨ c.rows = 1) (hc : c.cols = 1) : ∃ v, indepVar p x c = .ok v := by
  have e1 : Mat.bdim x.rows c.rows = some x.rows := by
    rcases hr with hr | hr
    · rw [hr, Mat.bdim_self]
    · rw [hr, Mat.bdim_one_right]
  have e2 : Mat.bdim x.cols c.cols = some x.cols := by rw [hc, Mat.bdim_one_right]
  unfold indepVar
  rw [Mat.bin_of_dims e1 e2]
  exact ⟨_, rfl⟩

theorem indepIdx_nodup {p : IndepArgs K V} {v : ℕ × (ℕ → K)} : (indepIdx p v).Nodup := List.nodup_range.filter _

/-- One perturbation: listed runs get their row of random numbers, the others stay. -/
theorem indepPerturb_ok {p : IndepArgs K V} {root : K} {B : List ℕ} (hB : B.Nodup) {z : ℕ → ℕ → V} {x x' : Mat V} (h : indepPerturb p root B z x = .ok x') :
    x'.rows = x.rows ∧ x'.cols = x.cols ∧ (∀ m, m ∉ B → ∀ j, x'.get m j = x.get m j) ∧
    ∀ m ∈ B, ∀ j < x.cols, x'.get m j = x.get m j + (p.sigma * root) • z (B.idxOf m) j := by
  unfold indepPerturb at h
  obtain ⟨-, r1, r2, r3, r4, -, -⟩ := Mat.scatterAdd_ok h
  refine ⟨r1, r2, ?_, ?_⟩
  · intro m hm j
    refine r3 m j ?_
    rintro ⟨i, hi, j', hj', e1, -⟩
    simp only [Idx.ofRuns] at hi e1
    exact hm (e1 ▸ getD_mem hi)
  · intro m hm j hj
    have hl : B.idxOf m < B.length := List.idxOf_lt_length_of_mem hm
    have hs : (Idx.ofRuns B x.cols).Sel m j := by
      refine ⟨B.idxOf m, hl, j, hj, ?_, rfl⟩
      simp only [Idx.ofRuns]
      simp [List.getD, hl]
    obtain ⟨i, hi, j', hj', e1, e2, e3⟩ := r4 m j hs
    simp only [Idx.ofRuns] at hi hj' e1 e2
    rw [e3, Mat.bpos_lt hi, Mat.bpos_lt hj', e2]
    have : i = B.idxOf m := by
      have e4 : B.getD i 0 = B[i] := by simp [List.getD, hi]
      rw [← e1, e4]
      exact (hB.idxOf_getElem i hi).symm
    rw [this]

theorem indepPerturb_total {p : IndepArgs K V} {root : K} {B : List ℕ} {z : ℕ → ℕ → V} {x : Mat V} (hB : ∀ m ∈ B, m < x.rows) :
    ∃ x', indepPerturb p root B z x = .ok x' := by
  refine Mat.scatterAdd_of_shape ?_ rfl rfl
  intro i hi j hj
  exact ⟨hB _ (getD_mem hi), hj⟩

/-- The loop, run by run. -/
theorem indepLoop_walk {p : IndepArgs K V} {root : K} {z : ℕ → ℕ → ℕ → V} {c : Mat V} (hc : c.cols = 1) :
    ∀ (fuel k : ℕ) (x x' : Mat V), (c.rows = x.rows ∨ c.rows = 1) → indepLoop p root z c fuel k x = .ok (some x') →
    x'.rows = x.rows ∧ x'.cols = x.cols ∧ ∃ (n : ℕ → ℕ) (r : ℕ → ℕ → ℕ),
      (∀ m < x.rows, (∀ i < n m, Collapsed p x.cols (walk (p.sigma * root) (fun l => z (k + l) (r m l)) (x.get m) i) (c.get (Mat.bpos c.rows m) 0)) ∧
        ¬ Collapsed p x.cols (walk (p.sigma * root) (fun l => z (k + l) (r m l)) (x.get m) (n m)) (c.get (Mat.bpos c.rows m) 0) ∧
        ∀ j < x.cols, x'.get m j = walk (p.sigma * root) (fun l => z (k + l) (r m l)) (x.get m) (n m) j) ∧
      (∀ m < x.rows, ∀ m' < x.rows, m ≠ m' → ∀ i, i < n m → i < n m' → r m i ≠ r m' i) ∧ ∀ m < x.rows, n m ≤ fuel := by
  classical
  intro fuel
  induction fuel with
  | zero => intro k x x' _ h; simp [indepLoop] at h
  | succ fuel ih =>
    intro k x x' hr h
    simp only [indepLoop, bind_ok] at h
    obtain ⟨v, hv, h⟩ := h
    have mem := indepIdx_mem (p := p) hr hc hv
    split_ifs at h with hB
    · rw [pure_ok] at h
      injection h with h
      subst h
      refine ⟨rfl, rfl, fun _ => 0, fun _ _ => 0, ?_, ?_, ?_⟩
      · intro m hm
        refine ⟨fun i hi => absurd hi (Nat.not_lt_zero i), ?_, fun j _ => rfl⟩
        intro hcol
        have := (mem m).2 ⟨hm, hcol⟩
        rw [hB] at this
        simp at this
      · intro m _ m' _ _ i hi
        exact absurd hi (Nat.not_lt_zero i)
      · intro m _; simp
    · simp only [bind_ok] at h
      obtain ⟨x1, h1, h2⟩ := h
      obtain ⟨q1, q2, q3, q4⟩ := indepPerturb_ok indepIdx_nodup h1
      obtain ⟨w1, w2, n, r, w3, w4, w5⟩ := ih (k + 1) x1 x' (by rw [q1]; exact hr) h2
      rw [q1] at w1 w3 w4 w5
      rw [q2] at w2 w3
      set B := indepIdx p v with hBdef
      have hshift : ∀ m l, (fun l => z (k + l) (if l = 0 then B.idxOf m else r m (l - 1))) (l + 1) = z (k + 1 + l) (r m l) := by
        intro m l
        simp only [Nat.succ_ne_zero, if_false, Nat.add_sub_cancel]
        congr 1
        omega
      have hwalk : ∀ m ∈ B, ∀ i, ∀ j < x.cols, walk (p.sigma * root) (fun l => z (k + l) (if l = 0 then B.idxOf m else r m (l - 1))) (x.get m) (i + 1) j =
          walk (p.sigma * root) (fun l => z (k + 1 + l) (r m l)) (x1.get m) i j := by
        intro m hm i j hj
        rw [walk_shift]
        have e : (fun l => (fun l => z (k + l) (if l = 0 then B.idxOf m else r m (l - 1))) (l + 1)) = fun l => z (k + 1 + l) (r m l) := by
          funext l
          exact hshift m l
        rw [e]
        refine walk_congr _ _ ?_ i
        rw [q4 m hm j hj]
        rfl
      refine ⟨w1, w2, fun m => if m ∈ B then n m + 1 else 0, fun m l => if l = 0 then B.idxOf m else r m (l - 1), ?_, ?_, ?_⟩
      · intro m hm
        obtain ⟨a1, a2, a3⟩ := w3 m hm
        by_cases hmB : m ∈ B
        · simp only [if_pos hmB]
          refine ⟨?_, ?_, ?_⟩
          · intro i hi
            cases i with
            | zero => exact ((mem m).1 hmB).2
            | succ i =>
              rw [collapsed_congr (hwalk m hmB i)]
              exact a1 i (by omega)
          · rw [collapsed_congr (hwalk m hmB (n m))]
            exact a2
          · intro j hj
            rw [hwalk m hmB (n m) j hj]
            exact a3 j hj
        · simp only [if_neg hmB]
          have ncol : ¬ Collapsed p x.cols (x.get m) (c.get (Mat.bpos c.rows m) 0) := fun hcol => hmB ((mem m).2 ⟨hm, hcol⟩)
          have hrow : x1.get m = x.get m := funext (q3 m hmB)
          have n0 : n m = 0 := by
            by_contra hne
            have := a1 0 (by omega)
            rw [hrow] at this
            exact ncol this
          refine ⟨fun i hi => absurd hi (by omega), ncol, ?_⟩
          intro j hj
          rw [a3 j hj, n0, hrow]
          rfl
      · intro m hm m' hm' hne i hi hi'
        by_cases hmB : m ∈ B
        · by_cases hmB' : m' ∈ B
          · simp only [if_pos hmB, if_pos hmB'] at hi hi' ⊢
            split_ifs with h0
            · intro e
              exact hne ((List.idxOf_inj hmB).1 e)
            · exact w4 m hm m' hm' hne (i - 1) (by omega) (by omega)
          · simp [if_neg hmB'] at hi'
        · simp [if_neg hmB] at hi
      · intro m hm
        have := w5 m hm
        dsimp only
        split_ifs <;> omega

/-- The loop ends at once when no run is collapsed. -/
theorem indepLoop_calm {p : IndepArgs K V} {root : K} {z : ℕ → ℕ → ℕ → V} {c x : Mat V} (hr : c.rows = x.rows ∨ c.rows = 1) (hc : c.cols = 1)
    (h : ∀ m < x.rows, ¬ Collapsed p x.cols (x.get m) (c.get (Mat.bpos c.rows m) 0)) (fuel k : ℕ) : indepLoop p root z c (fuel + 1) k x = .ok (some x) := by
  obtain ⟨v, hv⟩ := indepVar_total (p := p) hr hc
  have : indepIdx p v = [] := by
    rw [List.eq_nil_iff_forall_not_mem]
    intro m hm
    obtain ⟨h1, h2⟩ := (indepIdx_mem hr hc hv m).1 hm
    exact h m h1 h2
  simp only [indepLoop, hv, bind, Except.bind, this, if_true]
  rfl

theorem indepInner_ok {env : Env K V} {G : ConOps K V} {eps : K} {p : IndepArgs K V} {z : ℕ → ℕ → ℕ → ℕ → V} {fuel : ℕ} {s v : St K V} :
    indepInner env G eps p z fuel s = .ok v ↔
      ∃ x', indepStep env p z fuel s = .ok (some x') ∧ consThen env (dcMove env G eps) { s with x := x' } = .ok v := by
  simp only [indepInner, bind_ok]
  constructor
  · rintro ⟨r, hr, h⟩
    cases r with
    | none => simp [dcAfter] at h
    | some x' => exact ⟨x', hr, h⟩
  · rintro ⟨x', h1, h2⟩
    exact ⟨some x', h1, h2⟩

/-- If no run is collapsed, the loop changes nothing, whatever the shapes are. -/
theorem indepLoop_same {p : IndepArgs K V} {root : K} {z : ℕ → ℕ → ℕ → V} {c x x' : Mat V} (hc : c.cols = 1)
    (hcol : ∀ m < x.rows, ¬ Collapsed p x.cols (x.get m) (c.get (Mat.bpos c.rows m) 0)) {fuel k : ℕ} (h : indepLoop p root z c fuel k x = .ok (some x')) : x' = x := by
  cases fuel with
  | zero => simp [indepLoop] at h
  | succ fuel =>
    by_cases hr : c.rows = x.rows ∨ c.rows = 1
    · rw [indepLoop_calm hr hc hcol] at h
      injection h with h
      injection h with h
      exact h.symm
    · simp only [indepLoop, bind_ok] at h
      obtain ⟨v, hv, h⟩ := h
      split_ifs at h with hB
      · rw [pure_ok] at h
        injection h with h
        exact h.symm
      · simp only [bind_ok] at h
        obtain ⟨x1, h1, -⟩ := h
        exfalso
        unfold indepPerturb at h1
        obtain ⟨hin, -⟩ := Mat.scatterAdd_ok h1
        simp only [indepVar, bind_ok, pure_ok] at hv
        obtain ⟨d, hd, rfl⟩ := hv
        obtain ⟨e1, e2, e3⟩ := Mat.bin_ok hd
        have hx1 : x.rows = 1 := by
          unfold Mat.bdim at e1
          split_ifs at e1 <;> omega
        have dcols : d.cols = x.cols := by rw [hc, Mat.bdim_one_right] at e2; injection e2 with e2; exact e2.symm
        obtain ⟨m, hm⟩ := List.exists_mem_of_ne_nil _ hB
        by_cases hcols : x.cols = 0
        · refine hcol 0 (by omega) ?_
          simp only [indepIdx, List.mem_filter, decide_eq_true_eq, Mat.row, dcols, hcols] at hm
          unfold Collapsed variance
          rw [hcols]
          simpa using hm.2
        · have h0 : ∀ m' ∈ indepIdx p (d.rows, fun i => (d.row i).sum / (d.cols : K) / p.d0), m' = 0 := by
            intro m' hm'
            obtain ⟨i, hi, e⟩ := mem_getD hm'
            have := (hin i hi 0 (by simp only [Idx.ofRuns]; omega)).1
            simp only [Idx.ofRuns] at this
            rw [e] at this
            omega
          have hm0 := h0 m hm
          subst hm0
          refine hcol 0 (by omega) ?_
          simp only [indepIdx, List.mem_filter, decide_eq_true_eq, Mat.row, dcols] at hm
          unfold Collapsed variance
          have : ((List.range x.cols).map fun j => d.get 0 j) = (List.range x.cols).map fun j => p.normSq (x.get 0 j - c.get (Mat.bpos c.rows 0) 0) := by
            apply List.map_congr_left
            intro j hj
            rw [e3, Mat.bpos_lt (by omega : 0 < x.rows), Mat.bpos_lt (List.mem_range.1 hj), hc]
            rfl
          rw [← this]
          exact hm.2

/-- If no step starts with a collapsed run, the dynamic with independent noise does the same as the one without. -/
theorem indep_never {env : Env K V} (hmean : ∃ r, env.cons = .mean r) (hpost : PostOK env) (hp : PermOK env) {G : ConOps K V} {eps : K} {p : IndepArgs K V}
    {z : ℕ → ℕ → ℕ → ℕ → V} {fuel : ℕ} : ∀ (ops : List Op) (s s' : St K V), WF s → (∀ c, s.cons = some c → c.cols = 1) →
      NeverCollapsed env (indepInner env G eps p z fuel) p ops s → execAll env (indepInner env G eps p z fuel) ops s = .ok s' →
      execAll env (consThen env (dcMove env G eps)) ops s = .ok s'
  | [], _, _, _, _, _, h => h
  | o :: l, s, s', hw, hc, hn, h => by
    simp only [execAll, bind_ok] at h ⊢
    obtain ⟨w, h1, h2⟩ := h
    have key : exec env (consThen env (dcMove env G eps)) o s = .ok w := by
      cases o with
      | step =>
        simp only [exec] at h1 ⊢
        obtain ⟨v, hv, hs⟩ := step_split.1 h1
        refine step_split.2 ⟨v, ?_, hs⟩
        obtain ⟨x', hx', hv⟩ := indepInner_ok.1 hv
        have : x' = (preStep env s).x := by
          unfold indepStep at hx'
          have hcs : (preStep env s).cons = s.cons := by rw [preStep_frame]
          have hxs : (preStep env s).x = s.x := by rw [preStep_frame]
          split_ifs at hx' with hsig
          · rw [hcs] at hx'
            cases hcc : s.cons with
            | none =>
              rw [hcc] at hx'
              simp only at hx'
              injection hx' with hx'
              injection hx' with hx'
              exact hx'.symm
            | some c =>
              rw [hcc] at hx'
              simp only at hx'
              rw [hxs] at hx' ⊢
              exact indepLoop_same (hc c hcc) (hn.1 rfl c hcc) hx'
          · injection hx' with hx'
            injection hx' with hx'
            exact hx'.symm
        subst this
        exact hv
      | select => exact h1
      | sched => exact h1
      | reset => exact h1
    refine ⟨w, key, indep_never hmean hpost hp l w s' (exec_wf (dcMove_full env G eps).ok hpost hp hw key) ?_ (hn.2 w h1) h2⟩
    intro c hcw
    cases o with
    | step =>
      simp only [exec] at key
      obtain ⟨v, hv, hs⟩ := step_split.1 key
      simp only [consThen, bind_ok] at hv
      obtain ⟨u, hu, hv⟩ := hv
      have i1 := (preStep_idx env hp hw).cRows
      have i2 : (preStep env s).active = s.active := by rw [preStep_frame]
      obtain ⟨c', e1, -, e3⟩ := computeConsensus_cons hu (by rw [i1, i2])
      obtain ⟨r, hr⟩ := hmean
      have f1 := (dcMove_full env G eps).ok.frame u v hv
      have f2 := (postStep_facts hs).frame
      rw [f2] at hcw
      simp only at hcw
      rw [f1] at hcw
      simp only at hcw
      rw [e1] at hcw
      injection hcw with hcw
      rw [← hcw]
      exact e3 r hr
    | select =>
      rw [select_frame key] at hcw
      exact hc c hcw
    | sched =>
      simp only [exec] at key
      rw [sched_frame key] at hcw
      exact hc c hcw
    | reset =>
      simp only [exec] at key
      injection key with key
      subst key
      exact hc c hcw

/-- Test whether a step may start: no run is collapsed. -/
def calmTest (p : IndepArgs K V) (s : St K V) : Bool :=
  match s.cons with
  | none => true
  | some c => (List.range s.x.rows).all fun m => decide (¬ Collapsed p s.x.cols (s.x.get m) (c.get (Mat.bpos c.rows m) 0))

/-- Executable version of `NeverCollapsed`. -/
def neverTest (env : Env K V) (inner : St K V → Except Err (St K V)) (p : IndepArgs K V) : List Op → St K V → Bool
  | [], _ => true
  | o :: l, s => calmTest p s && match exec env inner o s with
    | .ok s' => neverTest env inner p l s'
    | .error _ => true

theorem neverTest_sound {env : Env K V} {inner : St K V → Except Err (St K V)} {p : IndepArgs K V} : ∀ (l : List Op) (s : St K V),
    neverTest env inner p l s = true → NeverCollapsed env inner p l s
  | [], _, _ => trivial
  | o :: l, s, h => by
    simp only [neverTest, Bool.and_eq_true] at h
    refine ⟨fun _ c hc m hm => ?_, fun s' hs' => ?_⟩
    · have := h.1
      unfold calmTest at this
      rw [hc] at this
      simp only [List.all_eq_true, decide_eq_true_eq] at this
      exact this m (List.mem_range.2 hm)
    · have := h.2
      rw [hs'] at this
      exact neverTest_sound l s' this

end Verif
