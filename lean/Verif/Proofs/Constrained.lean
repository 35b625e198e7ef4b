import Mathlib.Tactic.Module
import Verif.Model.Constraints
import Verif.Proofs.FullMoves
import Verif.Proofs.Sim
import Verif.Spec.Constrained

/-! Helper lemmas for `Props/Constrained.lean`. -/

namespace Verif

section general

variable {K V : Type} [Zero K] [One K] [Neg K] [Add K] [Sub K] [Mul K] [Inv K] [Div K] [NatCast K] [Pow K ℕ] [LinearOrder K] [Add V] [Sub V] [SMul K V]

theorem sample_congr {env : Env K V} {s t : St K V} {i : ℕ} (hs : WF s) (ht : WF t) (hp : PermOK env) (bs : s.batched = false)
    (bt : t.batched = false) (as : s.active.length = s.M) (at' : t.active.length = t.M) (hi : i < s.M) (hi' : i < t.M)
    (h : SameData i s t) :
    sampleOf env { t with cIdx := (preStep env t).cIdx } i = sampleOf env { s with cIdx := (preStep env s).cIdx } i := by
  have idx : ∀ q : St K V, q.batched = false → q.active.length = q.M → (preStep env q).cIdx = Idx.all q.M q.N := by
    intro q b a
    simp only [preStep, setBatch, setBatchUnbatched, b, a]
    simp
  unfold sampleOf
  rw [idx s bs as, idx t bt at']
  simp only [Idx.all]
  rw [h.N, hs.act_full as, ht.act_full at']
  apply List.map_congr_left
  intro j hj
  have hj := List.mem_range.1 hj
  have e1 : (List.range s.M).getD i 0 = i := by simp [List.getD, hi]
  have e2 : (List.range t.M).getD i 0 = i := by simp [List.getD, hi']
  simp only [id, e1, e2, h.x j hj, h.alpha]

end general

section empty

variable {K V : Type} [Field K] [LinearOrder K] [AddCommGroup V] [Module K V]

/-- `MultiConstraint` of an empty list is `noCon`. -/
theorem ops_nil {ι : Type} [Fintype ι] [DecidableEq ι] : Con.ops ([] : List (Con.Constraint ι)) = noCon := rfl

theorem lastPos_all {M N m n : ℕ} (hm : m < M) (hn : n < N) : (Idx.all M N).lastPos m n = some (m, n) := by
  obtain ⟨p, hp⟩ := Idx.lastPos_of_sel (ix := Idx.all M N) (m := m) (n := n) ⟨m, hm, n, hn, rfl, rfl⟩
  obtain ⟨-, -, e1, e2⟩ := Idx.lastPos_some hp
  rw [hp]
  have e1 : p.1 = m := e1
  have e2 : p.2 = n := e2
  rw [← e1, ← e2]

/-- Without constraints the update of `RegCombinationCBO` is the one of `CBO`, if all particles of all runs are selected. -/
theorem regMove_noCon {env : Env K V} (hcorr : env.corr = .none) (hn : NoiseOK env) {eps : K} (heps : eps ≠ 0) {s : St K V} {c : Mat V}
    (hc : s.cons = some c) (c1 : c.rows = s.x.rows) (c2 : c.cols = 1) (hix : s.pIdx = Idx.all s.x.rows s.x.cols) :
    regMove env noCon eps s = cboMove env s := by
  have hg : s.x.gather s.pIdx = .ok s.x := by
    rw [hix, Mat.gather_of_inBounds]
    · rfl
    · intro i hi j hj; exact ⟨hi, hj⟩
  obtain ⟨d, hd⟩ := Mat.bin_col_total (fun a b : V => a - b) (a := s.x) (b := c) c1 c2
  obtain ⟨d1, d2, d3⟩ := Mat.bin_col hd c1 c2
  obtain ⟨n, hnn, n1, n2⟩ := hn { s with drift := some d } d rfl
  obtain ⟨a, ha⟩ := Mat.bin_same_total (fun x d : V => x - (s.lamda * s.dt) • d) (a := s.x) (b := d) d1 d2
  obtain ⟨a1, a2, a3⟩ := Mat.bin_same ha d1 d2
  obtain ⟨xt, hxt⟩ := Mat.bin_same_total (fun a n : V => a + s.sigma • n) (a := a) (b := n) (by omega) (by omega)
  obtain ⟨t1, t2, t3⟩ := Mat.bin_same hxt (by omega) (by omega)
  obtain ⟨u, hu⟩ := Mat.bin_same_total (cboUpdate (V := V) s.lamda s.dt s.sigma) (a := d) (b := n) (by omega) (by omega)
  obtain ⟨u1, u2, u3⟩ := Mat.bin_same hu (by omega) (by omega)
  have hx : ∀ z : Mat V, z.rows = s.x.rows → z.cols = s.x.cols → (∀ i < s.x.rows, ∀ j < s.x.cols, z.get i j = xt.get i j) →
      s.x.rebind z = s.x.scatterAdd s.pIdx u := by
    intro z z1 z2 z3
    unfold Mat.rebind Mat.scatterAdd
    rw [if_pos ⟨z1, z2⟩, hg]
    obtain ⟨v', hv', v1, v2, v3⟩ := Mat.bto_same (b := u) (r := s.x.rows) (c := s.x.cols) (by omega) (by omega)
    simp only [hv']
    rw [hix]
    unfold Mat.scatter
    rw [if_pos (by intro i hi j hj; exact ⟨hi, hj⟩)]
    obtain ⟨w, hw, w1, w2, w3⟩ := Mat.bto_same (b := (⟨s.x.rows, s.x.cols, fun i j => s.x.get i j + v'.get i j⟩ : Mat V))
      (r := (Idx.all s.x.rows s.x.cols).rows) (c := (Idx.all s.x.rows s.x.cols).cols) rfl rfl
    simp only [hw]
    congr 2
    funext i j
    by_cases hij : i < s.x.rows ∧ j < s.x.cols
    · rw [if_pos hij, lastPos_all hij.1 hij.2]
      simp only
      rw [w3 i hij.1 j hij.2, z3 i hij.1 j hij.2, t3 i (by omega) j (by omega), a3 i hij.1 j hij.2]
      simp only
      rw [v3 i hij.1 j hij.2, u3 i (by omega) j (by omega)]
      unfold cboUpdate
      module
    · rw [if_neg hij, Idx.lastPos_none.2]
      rintro ⟨i', hi', j', hj', e1, e2⟩
      have e1 : i' = i := e1
      have e2 : j' = j := e2
      subst e1; subst e2
      exact hij ⟨hi', hj'⟩
  obtain ⟨x, hxs⟩ := Mat.scatterAdd_of_shape (a := s.x) (v := u) (ix := s.pIdx) (by rw [hix]; intro i hi j hj; exact ⟨hi, hj⟩)
    (by rw [hix]; show u.rows = s.x.rows; omega) (by rw [hix]; show u.cols = s.x.cols; omega)
  unfold regMove cboMove
  rw [hc]
  have hnn' := hnn
  simp only [hc] at hnn
  simp only [hg, hd, hnn, hnn', ha, hxt, hu, correction, hcorr, bind, Except.bind, pure, Except.pure]
  by_cases he : eps < ((10 ^ 15 : ℕ) : K)
  · obtain ⟨z, hz⟩ := Mat.bin_same_total (fun x t : V => (noCon (K := K) (V := V)).solvePlus (s.dt / eps) x t) (a := s.x) (b := xt)
      (by omega) (by omega)
    obtain ⟨y1, y2, y3⟩ := Mat.bin_same hz (by omega) (by omega)
    obtain ⟨z', hz'⟩ := Mat.allOk_of (fb := s.x) (m := z) (by
      intro i hi j hj
      exact ⟨_, y3 i (by omega) j (by omega)⟩)
    obtain ⟨w1, w2, w3⟩ := Mat.allOk_ok hz'
    simp only [if_pos he, divEps, if_neg heps, hz, hz']
    rw [hx z' (by omega) (by omega)]
    · simp only [hxs, hc]
    · intro i hi j hj
      have := w3 i (by omega) j (by omega)
      rw [y3 i hi j hj] at this
      injection this with this
      exact this.symm
  · simp only [if_neg he]
    rw [hx xt (by omega) (by omega) (fun _ _ _ _ => rfl)]
    simp only [hxs, hc]

theorem regStep_noCon {env : Env K V} (hcorr : env.corr = .none) (hmean : ∃ r, env.cons = .mean r) (hn : NoiseOK env) (hp : PermOK env)
    {eps : K} (heps : eps ≠ 0) {s : St K V} (hw : WF s) (hb : s.batched = false) (hall : s.active.length = s.M) :
    step env (consThen env (regMove env noCon eps)) s = step env (cboInner env) s := by
  have hix := preStep_idx env hp hw
  have p1 := preStep_frame env s
  have pact : (preStep env s).active = s.active := by rw [p1]
  have px : (preStep env s).x = s.x := by rw [p1]
  have hpI : (preStep env s).pIdx = Idx.all s.M s.N := by
    simp only [preStep, setBatch, setBatchUnbatched, hb, hall]
    simp
  obtain ⟨r, hr⟩ := hmean
  rw [cboInner_eq]
  unfold step consThen
  cases hcc : computeConsensus env (preStep env s) with
  | error e => rfl
  | ok c =>
    have cf := computeConsensus_frame hcc
    obtain ⟨cm, hcm, cm1, cm2, -⟩ := computeConsensus_mean hr (by rw [pact]; exact hix.cRows) hcc
    have cx : c.x = s.x := by rw [cf]; exact px
    have := regMove_noCon hcorr hn heps (s := c) hcm (by rw [cm1, pact, cx, hw.xr, hall]) cm2
      (by rw [cx, hw.xr, hw.xc, ← hpI, cf])
    simp only [bind, Except.bind]
    rw [this]

theorem exec_quiet {env : Env K V} {inner : St K V → Except Err (St K V)} (hi : InnerFrame inner) {o : Op} {s s' : St K V}
    (h : exec env inner o s = .ok s') :
    s'.batched = s.batched ∧ s'.M = s.M ∧ (o ≠ .select → s'.active = s.active) := by
  cases o with
  | step => have f := step_frame hi h; exact ⟨f.batched, f.M, fun _ => f.active⟩
  | select => have f := select_frame h; rw [f]; exact ⟨rfl, rfl, fun h => absurd rfl h⟩
  | sched => have f := sched_frame h; rw [f]; exact ⟨rfl, rfl, fun _ => rfl⟩
  | reset =>
    simp only [exec] at h
    injection h with h
    subst h
    exact ⟨rfl, rfl, fun _ => rfl⟩

theorem dcMove_noCon {env : Env K V} {eps : K} {s s' : St K V} (h : dcMove env noCon eps s = .ok s') :
    s'.x.rows = s.x.rows ∧ s'.x.cols = s.x.cols ∧ ∀ i < s.x.rows, ∀ j < s.x.cols, s'.x.get i j = s.x.get i j := by
  unfold dcMove at h
  cases hc : s.cons with
  | none => simp [hc] at h
  | some c =>
    simp only [hc, bind_ok, pure_ok] at h
    obtain ⟨d, hd, n, hn, q, hq, a, ha, xt, hxt, z, hz, z1, hz1, z2, hz2, rfl⟩ := h
    refine ⟨rfl, rfl, fun i hi j hj => ?_⟩
    obtain ⟨-, -, e1, e2, e3⟩ := Mat.bto_ok hz2
    obtain ⟨w1, w2, w3⟩ := Mat.allOk_ok hz1
    obtain ⟨-, -, y3⟩ := Mat.bin_ok hz
    simp only [hi, hj, and_self, if_true]
    have b1 : Mat.bpos z1.rows i < z.rows := by unfold Mat.bpos; split_ifs <;> omega
    have b2 : Mat.bpos z1.cols j < z.cols := by unfold Mat.bpos; split_ifs <;> omega
    have := w3 _ b1 _ b2
    rw [y3] at this
    have h0 : (0 : V) = z1.get (Mat.bpos z1.rows i) (Mat.bpos z1.cols j) := by injection this
    rw [e3, ← h0, sub_zero]

end empty

end Verif
