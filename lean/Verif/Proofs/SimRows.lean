import Verif.Proofs.Adam
import Verif.Proofs.MirrorDyn
import Verif.Proofs.RunBasics

/-! Row by row comparison of the moves of a multi-run dynamic with those of a single run. Helper lemmas. -/

set_option linter.unusedSectionVars false

namespace Verif

/-- Row `i` of the index `ix` addresses run `r` (and is the only such row); `ix1` has this row only. -/
structure IdxCorr (r i : ℕ) (ix ix1 : Idx) : Prop where
  il : i < ix.rows
  uniq : ∀ i' < ix.rows, ix.run i' = r → i' = i
  run : ix.run i = r
  rows1 : ix1.rows = 1
  run1 : ix1.run 0 = 0
  cols : ix1.cols = ix.cols
  par : ∀ j, ix1.par 0 j = ix.par i j

theorem IdxCorr.sel {r i : ℕ} {ix ix1 : Idx} (h : IdxCorr r i ix ix1) (k : ℕ) : ix1.Sel 0 k ↔ ix.Sel r k := by
  constructor
  · rintro ⟨i', hi', j, hj, e1, e2⟩
    have : i' = 0 := by have := h.rows1; omega
    subst this
    exact ⟨i, h.il, j, by rw [← h.cols]; exact hj, h.run, by rw [← h.par]; exact e2⟩
  · rintro ⟨i', hi', j, hj, e1, e2⟩
    have : i' = i := h.uniq i' hi' e1
    subst this
    exact ⟨0, by rw [h.rows1]; omega, j, by rw [h.cols]; exact hj, h.run1, by rw [h.par]; exact e2⟩

/-- The last slot that addresses a particle is the same. -/
theorem IdxCorr.last {r i : ℕ} {ix ix1 : Idx} (h : IdxCorr r i ix ix1) {k : ℕ} {p p1 : ℕ × ℕ} (hp : ix.lastPos r k = some p)
    (hp1 : ix1.lastPos 0 k = some p1) : p.1 = i ∧ p1.1 = 0 ∧ p1.2 = p.2 ∧ p.2 < ix.cols := by
  obtain ⟨a1, a2, a3, a4⟩ := Idx.lastPos_some hp
  obtain ⟨b1, b2, b3, b4⟩ := Idx.lastPos_some hp1
  have e1 : p.1 = i := h.uniq _ a1 a3
  have e2 : p1.1 = 0 := by rw [h.rows1] at b1; omega
  have am := Idx.lastPos_max hp
  have bm := Idx.lastPos_max hp1
  have hc := h.cols
  refine ⟨e1, e2, ?_, a2⟩
  rw [e1] at a4 am
  rw [e2] at b4 bm
  rcases lt_trichotomy p.2 p1.2 with hlt | heq | hlt
  · exact absurd (by rw [← h.par]; exact b4) (am p1.2 hlt (by omega))
  · exact heq.symm
  · exact absurd (by rw [h.par]; exact a4) (bm p.2 hlt (by omega))

/-- Two arrays of the shapes of `ix` and `ix1` whose row `i` and row `0` agree. -/
structure RowMat {α : Type} (i : ℕ) (ix ix1 : Idx) (A A1 : Mat α) : Prop where
  rows : A.rows = ix.rows
  cols : A.cols = ix.cols
  rows1 : A1.rows = ix1.rows
  cols1 : A1.cols = ix1.cols
  get : ∀ j < ix.cols, A1.get 0 j = A.get i j

section
variable {α β γ : Type} {r i : ℕ} {ix ix1 : Idx}

theorem row_gather (h : IdxCorr r i ix ix1) {a a1 g g1 : Mat α} (ha : a1.get 0 = a.get r) (hg : a.gather ix = .ok g) (hg1 : a1.gather ix1 = .ok g1) :
    RowMat i ix ix1 g g1 := by
  obtain ⟨-, b1, b2, b3⟩ := Mat.gather_ok hg
  obtain ⟨-, c1, c2, c3⟩ := Mat.gather_ok hg1
  exact ⟨b1, b2, c1, c2, fun j _ => by rw [b3, c3, h.run, h.run1, h.par, ha]⟩

theorem row_map {A A1 : Mat α} (f : α → β) (h : RowMat i ix ix1 A A1) : RowMat i ix ix1 (A.map f) (A1.map f) :=
  ⟨h.rows, h.cols, h.rows1, h.cols1, fun j hj => by simp only [Mat.map, h.get j hj]⟩

theorem row_bin (h : IdxCorr r i ix ix1) {f : α → β → γ} {A A1 : Mat α} {B B1 : Mat β} {C C1 : Mat γ} (hA : RowMat i ix ix1 A A1) (hB : RowMat i ix ix1 B B1)
    (hC : Mat.bin f A B = .ok C) (hC1 : Mat.bin f A1 B1 = .ok C1) : RowMat i ix ix1 C C1 := by
  obtain ⟨b1, b2, b3⟩ := Mat.bin_ok hC
  obtain ⟨c1, c2, c3⟩ := Mat.bin_ok hC1
  rw [hA.rows, hB.rows, Mat.bdim_self] at b1
  rw [hA.cols, hB.cols, Mat.bdim_self] at b2
  rw [hA.rows1, hB.rows1, Mat.bdim_self] at c1
  rw [hA.cols1, hB.cols1, Mat.bdim_self] at c2
  simp only [Option.some.injEq] at b1 b2 c1 c2
  refine ⟨b1.symm, b2.symm, c1.symm, c2.symm, fun j hj => ?_⟩
  have hi := h.il
  have h1 := h.rows1
  have hj1 : j < ix1.cols := by rw [h.cols]; exact hj
  rw [b3, c3, hA.rows, hA.cols, hB.rows, hB.cols, hA.rows1, hA.cols1, hB.rows1, hB.cols1, Mat.bpos_lt hi, Mat.bpos_lt hj, Mat.bpos_lt hj1,
    Mat.bpos_lt (show 0 < ix1.rows by omega), hA.get j hj, hB.get j hj]

/-- Combination with one value per row (the consensus). -/
theorem row_bin_col (h : IdxCorr r i ix ix1) {f : α → β → γ} {A A1 : Mat α} {c c1 : Mat β} {C C1 : Mat γ} (hA : RowMat i ix ix1 A A1)
    (hr : c.rows = ix.rows) (hc : c.cols = 1) (hr1 : c1.rows = 1) (hc1 : c1.cols = 1) (he : c1.get 0 0 = c.get i 0)
    (hC : Mat.bin f A c = .ok C) (hC1 : Mat.bin f A1 c1 = .ok C1) : RowMat i ix ix1 C C1 := by
  obtain ⟨b1, b2, b3⟩ := Mat.bin_ok hC
  obtain ⟨d1, d2, d3⟩ := Mat.bin_ok hC1
  rw [hA.rows, hr, Mat.bdim_self] at b1
  rw [hA.cols, hc, Mat.bdim_one_right] at b2
  rw [hA.rows1, hr1, h.rows1, Mat.bdim_self] at d1
  rw [hA.cols1, hc1, Mat.bdim_one_right] at d2
  simp only [Option.some.injEq] at b1 b2 d1 d2
  refine ⟨b1.symm, b2.symm, by rw [h.rows1]; exact d1.symm, d2.symm, fun j hj => ?_⟩
  have hi := h.il
  have h1 := h.rows1
  have hj1 : j < ix1.cols := by rw [h.cols]; exact hj
  rw [b3, d3, hA.rows, hA.cols, hr, hc, hA.rows1, hA.cols1, hr1, hc1, Mat.bpos_lt hi, Mat.bpos_lt hj, Mat.bpos_lt hj1,
    Mat.bpos_lt (show 0 < ix1.rows by omega), hA.get j hj]
  have e : ∀ q, Mat.bpos 1 q = 0 := fun q => by simp [Mat.bpos]
  simp only [e, he]

theorem row_scatter (h : IdxCorr r i ix ix1) {a a1 v v1 s s1 : Mat α} (ha : a1.get 0 = a.get r) (hv : RowMat i ix ix1 v v1)
    (hs : a.scatter ix v = .ok s) (hs1 : a1.scatter ix1 v1 = .ok s1) : s1.get 0 = s.get r := by
  funext k
  by_cases hk : ix.Sel r k
  · obtain ⟨p, hp⟩ := Idx.lastPos_of_sel hk
    obtain ⟨p1, hp1⟩ := Idx.lastPos_of_sel ((h.sel k).2 hk)
    obtain ⟨e1, e2, e3, e4⟩ := h.last hp hp1
    rw [Mat.scatter_last hs hv.rows hv.cols r k hp, Mat.scatter_last hs1 hv.rows1 hv.cols1 0 k hp1, e1, e2, e3, hv.get _ e4]
  · rw [(Mat.scatter_ok hs).2.2.2.1 r k hk, (Mat.scatter_ok hs1).2.2.2.1 0 k (fun hc => hk ((h.sel k).1 hc)), ha]

theorem row_scatterAdd [Add α] (h : IdxCorr r i ix ix1) {a a1 v v1 s s1 : Mat α} (ha : a1.get 0 = a.get r) (hv : RowMat i ix ix1 v v1)
    (hs : a.scatterAdd ix v = .ok s) (hs1 : a1.scatterAdd ix1 v1 = .ok s1) : s1.get 0 = s.get r := by
  funext k
  by_cases hk : ix.Sel r k
  · obtain ⟨i', hi', j, hj, e1, e2, emax, e3⟩ := Mat.scatterAdd_slot hs r k hk
    obtain ⟨i1, hi1, j1, hj1, f1, f2, fmax, f3⟩ := Mat.scatterAdd_slot hs1 0 k ((h.sel k).2 hk)
    have hc := h.cols
    have h1 := h.rows1
    have : i1 = 0 := by omega
    subst this
    have : i' = i := h.uniq i' hi' e1
    subst this
    have hjj : j = j1 := by
      rcases lt_trichotomy j j1 with hlt | heq | hlt
      · exact absurd (by rw [← h.par]; exact f2) (emax j1 hlt (by omega))
      · exact heq
      · exact absurd (by rw [h.par]; exact e2) (fmax j hlt (by omega))
    subst hjj
    rw [e3, f3, ha, hv.rows, hv.cols, hv.rows1, hv.cols1, Mat.bpos_lt hi', Mat.bpos_lt hj, Mat.bpos_lt hi1, Mat.bpos_lt hj1, hv.get j hj]
  · rw [(Mat.scatterAdd_ok hs).2.2.2.1 r k hk, (Mat.scatterAdd_ok hs1).2.2.2.1 0 k (fun hc => hk ((h.sel k).1 hc)), ha]

end

section
variable {α β γ : Type} {r i : ℕ} {ix ix1 : Idx}

/-- `A` can be broadcast to the shape of the slots `ix`. -/
def Fits (ix : Idx) (A : Mat α) : Prop := (A.rows = ix.rows ∨ A.rows = 1) ∧ (A.cols = ix.cols ∨ A.cols = 1)

theorem fits_of_bin {f : α → β → γ} {A : Mat α} {B : Mat β} {C : Mat γ} (h : Mat.bin f A B = .ok C) (hC : Fits ix C) : Fits ix A ∧ Fits ix B := by
  obtain ⟨b1, b2, -⟩ := Mat.bin_ok h
  obtain ⟨h1, h2⟩ := Mat.bdim_eq_some b1
  obtain ⟨h3, h4⟩ := Mat.bdim_eq_some b2
  obtain ⟨c1, c2⟩ := hC
  refine ⟨⟨?_, ?_⟩, ?_, ?_⟩ <;> omega

theorem fits_of_scatterAdd [Add α] {a v x : Mat α} (h : a.scatterAdd ix v = .ok x) : Fits ix v :=
  ⟨(Mat.scatterAdd_ok h).2.2.2.2.2.1, (Mat.scatterAdd_ok h).2.2.2.2.2.2⟩

theorem ex_row_gather (h : IdxCorr r i ix ix1) {a a1 g : Mat α} (ha : a1.get 0 = a.get r) (hg : a.gather ix = .ok g)
    (hin : ix1.InBounds a1.rows a1.cols) : ∃ g1, a1.gather ix1 = .ok g1 ∧ RowMat i ix ix1 g g1 :=
  ⟨_, Mat.gather_of_inBounds hin, row_gather h ha hg (Mat.gather_of_inBounds hin)⟩

theorem ex_row_bin (h : IdxCorr r i ix ix1) {f : α → β → γ} {A A1 : Mat α} {B B1 : Mat β} {C : Mat γ} (hA : RowMat i ix ix1 A A1) (hB : RowMat i ix ix1 B B1)
    (hC : Mat.bin f A B = .ok C) : ∃ C1, Mat.bin f A1 B1 = .ok C1 ∧ RowMat i ix ix1 C C1 := by
  obtain ⟨C1, h1, -, -⟩ := Mat.bin_shape f hA.rows1 hB.rows1 hA.cols1 hB.cols1
  exact ⟨C1, h1, row_bin h hA hB hC h1⟩

theorem ex_row_bin_col (h : IdxCorr r i ix ix1) {f : α → β → γ} {A A1 : Mat α} {c c1 : Mat β} {C : Mat γ} (hA : RowMat i ix ix1 A A1)
    (hr : c.rows = ix.rows) (hc : c.cols = 1) (hr1 : c1.rows = 1) (hc1 : c1.cols = 1) (he : c1.get 0 0 = c.get i 0)
    (hC : Mat.bin f A c = .ok C) : ∃ C1, Mat.bin f A1 c1 = .ok C1 ∧ RowMat i ix ix1 C C1 := by
  have h1 := Mat.bin_of_dims (f := f) (a := A1) (b := c1) (r := ix1.rows) (c := ix1.cols)
    (by rw [hA.rows1, hr1, h.rows1]; exact Mat.bdim_self _) (by rw [hA.cols1, hc1]; exact Mat.bdim_one_right _)
  exact ⟨_, h1, row_bin_col h hA hr hc hr1 hc1 he hC h1⟩

theorem ex_row_scatter (h : IdxCorr r i ix ix1) {a a1 v v1 s : Mat α} (ha : a1.get 0 = a.get r) (hv : RowMat i ix ix1 v v1)
    (hs : a.scatter ix v = .ok s) (hin : ix1.InBounds a1.rows a1.cols) :
    ∃ s1, a1.scatter ix1 v1 = .ok s1 ∧ s1.get 0 = s.get r ∧ s1.rows = a1.rows ∧ s1.cols = a1.cols := by
  obtain ⟨s1, h1⟩ := Mat.scatter_of_shape hin hv.rows1 hv.cols1
  exact ⟨s1, h1, row_scatter h ha hv hs h1, (Mat.scatter_ok h1).2.1, (Mat.scatter_ok h1).2.2.1⟩

theorem ex_row_scatterAdd [Add α] (h : IdxCorr r i ix ix1) {a a1 v v1 s : Mat α} (ha : a1.get 0 = a.get r) (hv : RowMat i ix ix1 v v1)
    (hs : a.scatterAdd ix v = .ok s) (hin : ix1.InBounds a1.rows a1.cols) :
    ∃ s1, a1.scatterAdd ix1 v1 = .ok s1 ∧ s1.get 0 = s.get r ∧ s1.rows = a1.rows ∧ s1.cols = a1.cols := by
  obtain ⟨s1, h1⟩ := Mat.scatterAdd_of_shape hin hv.rows1 hv.cols1
  exact ⟨s1, h1, row_scatterAdd h ha hv hs h1, (Mat.scatterAdd_ok h1).2.1, (Mat.scatterAdd_ok h1).2.2.1⟩

end

section
variable {K V : Type} [Zero K] [One K] [Neg K] [Add K] [Sub K] [Mul K] [Inv K] [Div K] [NatCast K] [Pow K ℕ] [LinearOrder K] [Add V] [Sub V] [SMul K V]

/-- The states in which the moves of all runs and of run `r` alone start. -/
structure RowCorr (r i : ℕ) (s s1 : St K V) : Prop where
  ix : IdxCorr r i s.pIdx s1.pIdx
  cons : ∃ c c1, s.cons = some c ∧ s1.cons = some c1 ∧ c.rows = s.pIdx.rows ∧ c.cols = 1 ∧ c1.rows = 1 ∧ c1.cols = 1 ∧ c1.get 0 0 = c.get i 0
  x : s1.x.get 0 = s.x.get r
  aux1 : s1.aux1.get 0 = s.aux1.get r
  aux2 : s1.aux2.get 0 = s.aux2.get r
  lamda : s1.lamda = s.lamda
  sigma : s1.sigma = s.sigma
  dt : s1.dt = s.dt
  it : s1.it = s.it
  draws : s1.draws = s.draws
  M1 : s1.M = 1
  rows_le : s.pIdx.rows ≤ s.M
  full : s.pIdx.rows = s.M → i = r
  alpha : s1.alpha 0 = s.alpha r
  energy : s1.energy.get 0 = s.energy.get r
  er : s.energy.rows = s.M
  er1 : s1.energy.rows = s1.M
  ec1 : s1.energy.cols = s.energy.cols
  pin1 : s1.pIdx.InBounds s1.M s1.N
  xs1 : s1.x.rows = s1.M ∧ s1.x.cols = s1.N
  as1 : s1.aux1.rows = s1.M ∧ s1.aux1.cols = s1.N
  bs1 : s1.aux2.rows = s1.M ∧ s1.aux2.cols = s1.N

/-- The noise of run `r` is that of the run alone, if in draw `c ≥ c₀` row `pos c` belongs to it. -/
def NoiseSim (r : ℕ) (pos : ℕ → ℕ) (c₀ : ℕ) (env env1 : Env K V) : Prop :=
  ∀ w w1 d d1 n, RowCorr r (pos w.draws) w w1 → c₀ ≤ w.draws → w.drift = some d → w1.drift = some d1 →
    RowMat (pos w.draws) w.pIdx w1.pIdx d d1 → env.noise w = .ok n → Fits w.pIdx n →
    ∃ n1, env1.noise w1 = .ok n1 ∧ RowMat (pos w.draws) w.pIdx w1.pIdx n n1

/-- The correction of run `r` is that of the run alone. -/
def CorrSim (r : ℕ) (env env1 : Env K V) : Prop :=
  ∀ i w w1 d d1 d' t, RowCorr r i w w1 → RowMat i w.pIdx w1.pIdx d d1 → correction env d w = .ok (d', t) → Fits w.pIdx d' →
    ∃ (d1' : Mat V) (k : ℕ → ℕ) (L : List (Site × ℕ × V)), correction env1 d1 w1 = .ok (d1', { w1 with nEval := k, log := L }) ∧
      RowMat i w.pIdx w1.pIdx d' d1'

/-- The surroundings `env1` of a single run agree with the surroundings `env` of all runs, as far as run `r` is concerned:
same objective, consensus rule, post processing, norm and scheduler; corresponding noise and correction; the random permutations are those of
run `r`. If `cnt` holds, no correction counts evaluations. -/
structure SimEnv (cnt : Prop) (r : ℕ) (pos : ℕ → ℕ) (c₀ : ℕ) (p : V → V) (env env1 : Env K V) : Prop where
  f : env1.f = env.f
  cons : ∃ g, env.cons = .mean g ∧ env1.cons = .mean g
  corr : CorrSim r env env1
  noHeavi : cnt → (∀ g, env.corr ≠ .heavi g) ∧ ∀ g, env1.corr ≠ .heavi g
  noise : NoiseSim r pos c₀ env env1
  post : PostMap env p
  post1 : PostMap env1 p
  norm : env1.normDiff = env.normDiff
  empty : env1.emptyRaises = env.emptyRaises
  perm : ∀ N c j, env1.perm N c 0 j = env.perm N c r j
  sched : ∃ ga gl gs gd, SchedLocal env ga gl gs gd ∧ SchedLocal env1 ga gl gs gd

/-- Noise that acts row by row. -/
theorem noiseSim_rows {r : ℕ} {pos : ℕ → ℕ} {c₀ : ℕ} {ν ν1 : ℕ → K → ℕ → ℕ → V → V} {env env1 : Env K V} (hν : NoiseRows env ν) (hν1 : NoiseRows env1 ν1)
    (hνν : ∀ c, c₀ ≤ c → ∀ dt j v, ν1 c dt 0 j v = ν c dt (pos c) j v) : NoiseSim r pos c₀ env env1 := by
  intro w w1 d d1 n R hc hd hd1 hr hn _
  obtain ⟨n', e1, e2, e3, e4⟩ := hν w d hd
  obtain ⟨n1, f1, f2, f3, f4⟩ := hν1 w1 d1 hd1
  rw [hn] at e1
  injection e1 with e1
  subst e1
  refine ⟨n1, f1, by rw [e2, hr.rows], by rw [e3, hr.cols], by rw [f2, hr.rows1], by rw [f3, hr.cols1], fun j hj => ?_⟩
  rw [e4, f4, R.draws, R.dt, hνν _ hc, hr.get j hj]

theorem corrSim_none {r : ℕ} {env env1 : Env K V} (h : env.corr = .none) (h1 : env1.corr = .none) : CorrSim r env env1 := by
  intro i w w1 d d1 d' t R hr hc _
  simp only [correction, h, pure_ok] at hc
  cases hc
  exact ⟨d1, w1.nEval, w1.log, by simp only [correction, h1]; rfl, hr⟩

/-- The moves agree on run `r`, if in draw `c ≥ c₀` row `pos c` belongs to it. -/
def MoveSim (r : ℕ) (pos : ℕ → ℕ) (c₀ : ℕ) (move move1 : St K V → Except Err (St K V)) : Prop :=
  ∀ s s1 v, RowCorr r (pos s.draws) s s1 → c₀ ≤ s.draws → move s = .ok v → ∃ v1, move1 s1 = .ok v1 ∧
    v1.x.get 0 = v.x.get r ∧ v1.aux1.get 0 = v.aux1.get r ∧ v1.aux2.get 0 = v.aux2.get r ∧ v.draws = s.draws + 1 ∧ v1.draws = s1.draws + 1 ∧
    (v1.aux1.rows = s1.aux1.rows ∧ v1.aux1.cols = s1.aux1.cols) ∧ v1.aux2.rows = s1.aux2.rows ∧ v1.aux2.cols = s1.aux2.cols

theorem cboMove_sim {cnt : Prop} {r : ℕ} {pos : ℕ → ℕ} {c₀ : ℕ} {p : V → V} {env env1 : Env K V} (he : SimEnv cnt r pos c₀ p env env1) :
    MoveSim r pos c₀ (cboMove env) (cboMove env1) := by
  intro s s1 v R hc h
  obtain ⟨c, c1, k1, k2, k3, k4, k5, k6, k7⟩ := R.cons
  unfold cboMove at h
  rw [k1] at h
  simp only [bind_ok, pure_ok] at h
  obtain ⟨xp, e1, d, e2, ⟨d', t⟩, ec, n, e3, u, e4, x, e5, rfl⟩ := h
  obtain ⟨k, L, rfl⟩ : ∃ (k : ℕ → ℕ) (L : List (Site × ℕ × V)), t = { s with nEval := k, log := L } := ⟨_, _, (correction_facts ec).1⟩
  simp only at e3 e4 e5
  have hin : s1.pIdx.InBounds s1.x.rows s1.x.cols := by rw [R.xs1.1, R.xs1.2]; exact R.pin1
  obtain ⟨xp1, f1, r1⟩ := ex_row_gather R.ix R.x e1 hin
  obtain ⟨d1, f2, r2⟩ := ex_row_bin_col R.ix r1 k3 k4 k5 k6 k7 e2
  have fu := fits_of_scatterAdd e5
  obtain ⟨fd, fn⟩ := fits_of_bin e4 fu
  obtain ⟨d1', k1', L1, fc, rc⟩ := he.corr _ _ _ _ _ _ _ R r2 ec fd
  have Rw : RowCorr r (pos s.draws) { s with nEval := k, log := L, drift := some d' }
      { s1 with nEval := k1', log := L1, drift := some d1' } := { R with }
  obtain ⟨n1, f3, r3⟩ := he.noise { s with nEval := k, log := L, drift := some d' } { s1 with nEval := k1', log := L1, drift := some d1' } d' d1' n Rw hc
    rfl rfl rc e3 fn
  obtain ⟨u1, f4, r4⟩ := ex_row_bin R.ix rc r3 e4
  obtain ⟨x1, f5, r5, -⟩ := ex_row_scatterAdd R.ix R.x r4 e5 hin
  rw [← R.lamda, ← R.dt, ← R.sigma] at f4
  refine ⟨{ s1 with nEval := k1', log := L1, drift := some d1', draws := s1.draws + 1, x := x1 }, ?_, r5, ?_⟩
  · unfold cboMove
    rw [k2] at fc f3 ⊢
    simp only [f1, f2, fc, f3, f4, f5, bind, Except.bind, pure, Except.pure]
  · exact ⟨R.aux1, R.aux2, rfl, rfl, ⟨rfl, rfl⟩, rfl, rfl⟩

theorem mirrorMove_sim {cnt : Prop} {r : ℕ} {pos : ℕ → ℕ} {c₀ : ℕ} {p : V → V} {env env1 : Env K V} (he : SimEnv cnt r pos c₀ p env env1) (gc : V → V) :
    MoveSim r pos c₀ (mirrorMove env gc) (mirrorMove env1 gc) := by
  intro s s1 v R hc h
  obtain ⟨c, c1, k1, k2, k3, k4, k5, k6, k7⟩ := R.cons
  unfold mirrorMove at h
  rw [k1] at h
  simp only [bind_ok, pure_ok] at h
  obtain ⟨xp, e1, d, e2, ⟨d', t⟩, ec, n, e3, u, e4, x, e5, rfl⟩ := h
  obtain ⟨k, L, rfl⟩ : ∃ (k : ℕ → ℕ) (L : List (Site × ℕ × V)), t = { s with nEval := k, log := L } := ⟨_, _, (correction_facts ec).1⟩
  simp only at e3 e4 e5
  have hin : s1.pIdx.InBounds s1.x.rows s1.x.cols := by rw [R.xs1.1, R.xs1.2]; exact R.pin1
  have hin' : s1.pIdx.InBounds s1.aux1.rows s1.aux1.cols := by rw [R.as1.1, R.as1.2]; exact R.pin1
  obtain ⟨xp1, f1, r1⟩ := ex_row_gather R.ix R.x e1 hin
  obtain ⟨d1, f2, r2⟩ := ex_row_bin_col R.ix r1 k3 k4 k5 k6 k7 e2
  have fu := fits_of_scatterAdd e5
  obtain ⟨fd, fn⟩ := fits_of_bin e4 fu
  obtain ⟨d1', k1', L1, fc, rc⟩ := he.corr _ _ _ _ _ _ _ R r2 ec fd
  have Rw : RowCorr r (pos s.draws) { s with nEval := k, log := L, drift := some d' }
      { s1 with nEval := k1', log := L1, drift := some d1' } := { R with }
  obtain ⟨n1, f3, r3⟩ := he.noise { s with nEval := k, log := L, drift := some d' } { s1 with nEval := k1', log := L1, drift := some d1' } d' d1' n Rw hc
    rfl rfl rc e3 fn
  obtain ⟨u1, f4, r4⟩ := ex_row_bin R.ix rc r3 e4
  obtain ⟨x1, f5, r5, r6, r7⟩ := ex_row_scatterAdd R.ix R.aux1 r4 e5 hin'
  rw [← R.lamda, ← R.dt, ← R.sigma] at f4
  refine ⟨{ s1 with nEval := k1', log := L1, drift := some d1', draws := s1.draws + 1, aux1 := x1, x := ⟨s1.x.rows, s1.x.cols, fun i j => gc (x1.get i j)⟩ }, ?_, ?_, r5, ?_⟩
  · unfold mirrorMove
    rw [k2] at fc f3 ⊢
    simp only [f1, f2, fc, f3, f4, f5, bind, Except.bind, pure, Except.pure]
  · funext k
    simp only [r5]
  · exact ⟨R.aux2, rfl, rfl, ⟨r6, r7⟩, rfl, rfl⟩

theorem ex_row_moment {r i : ℕ} {ix ix1 : Idx} (h : IdxCorr r i ix ix1) (β : K) {a a1 d d1 q : Mat V} (ha : a1.get 0 = a.get r) (hd : RowMat i ix ix1 d d1)
    (hq : momentUpdate β a ix d = .ok q) (hin : ix1.InBounds a1.rows a1.cols) :
    ∃ q1, momentUpdate β a1 ix1 d1 = .ok q1 ∧ q1.get 0 = q.get r ∧ q1.rows = a1.rows ∧ q1.cols = a1.cols := by
  simp only [momentUpdate, bind_ok] at hq
  obtain ⟨g, e1, v, e2, e3⟩ := hq
  obtain ⟨g1, f1, r1⟩ := ex_row_gather h ha e1 hin
  obtain ⟨v1, f2, r2⟩ := ex_row_bin h r1 hd e2
  obtain ⟨q1, f3, r3⟩ := ex_row_scatter h ha r2 e3 hin
  exact ⟨q1, by simp only [momentUpdate, f1, f2, f3, bind, Except.bind], r3⟩

theorem adamMove_sim {cnt : Prop} {r : ℕ} {pos : ℕ → ℕ} {c₀ : ℕ} {p : V → V} {env env1 : Env K V} (he : SimEnv cnt r pos c₀ p env env1)
    (A : AdamOps V) (β1 β2 : K) : MoveSim r pos c₀ (adamMove env A β1 β2) (adamMove env1 A β1 β2) := by
  intro s s1 v R hc h
  obtain ⟨c, c1, k1, k2, k3, k4, k5, k6, k7⟩ := R.cons
  unfold adamMove at h
  rw [k1] at h
  simp only [bind_ok, pure_ok] at h
  obtain ⟨xp, e1, d, e2, m, e3, v, e4, mf, e5, vf, e6, mp, e7, vp, e8, q, e9, n, e10, u, e11, x, e12, rfl⟩ := h
  have hin : s1.pIdx.InBounds s1.x.rows s1.x.cols := by rw [R.xs1.1, R.xs1.2]; exact R.pin1
  have hinm : s1.pIdx.InBounds s1.aux1.rows s1.aux1.cols := by rw [R.as1.1, R.as1.2]; exact R.pin1
  have hinv : s1.pIdx.InBounds s1.aux2.rows s1.aux2.cols := by rw [R.bs1.1, R.bs1.2]; exact R.pin1
  obtain ⟨xp1, f1, r1⟩ := ex_row_gather R.ix R.x e1 hin
  obtain ⟨d1, f2, r2⟩ := ex_row_bin_col R.ix r1 k3 k4 k5 k6 k7 e2
  obtain ⟨m1, f3, rm, m2, m3⟩ := ex_row_moment R.ix β1 R.aux1 r2 e3 hinm
  obtain ⟨v1, f4, rv, v2, v3⟩ := ex_row_moment R.ix β2 R.aux2 (row_map A.sq r2) e4 hinv
  rw [← R.it] at e5 e6
  obtain ⟨mp1, f7, r7⟩ := ex_row_gather R.ix rm e7 (by rw [m2, m3]; exact hinm)
  obtain ⟨vp1, f8, r8⟩ := ex_row_gather R.ix rv e8 (by rw [v2, v3]; exact hinv)
  obtain ⟨q1, f9, r9⟩ := ex_row_bin R.ix r7 r8 e9
  obtain ⟨-, fn⟩ := fits_of_bin e11 (fits_of_scatterAdd e12)
  have Rw : RowCorr r (pos s.draws) { s with drift := some d, aux1 := m, aux2 := v }
      { s1 with drift := some d1, aux1 := m1, aux2 := v1 } := { R with
    aux1 := rm, aux2 := rv, as1 := ⟨m2.trans R.as1.1, m3.trans R.as1.2⟩, bs1 := ⟨v2.trans R.bs1.1, v3.trans R.bs1.2⟩ }
  obtain ⟨n1, f10, r10⟩ := he.noise { s with drift := some d, aux1 := m, aux2 := v } { s1 with drift := some d1, aux1 := m1, aux2 := v1 } d d1 n Rw hc
    rfl rfl r2 (by simp only [k1]; exact e10) fn
  obtain ⟨u1, f11, r11⟩ := ex_row_bin R.ix r9 r10 e11
  obtain ⟨x1, f12, r12, -⟩ := ex_row_scatterAdd R.ix R.x r11 e12 hin
  rw [← R.lamda, ← R.sigma] at f11
  refine ⟨{ s1 with drift := some d1, aux1 := m1, aux2 := v1, draws := s1.draws + 1, x := x1 }, ?_, r12, rm, rv, rfl, rfl, ⟨m2, m3⟩, v2, v3⟩
  unfold adamMove
  rw [k2] at f10 ⊢
  simp only [f1, f2, f3, f4, e5, e6, f7, f8, f9, f10, f11, f12, bind, Except.bind, pure, Except.pure]

/-- All that the simulation needs from a pair of moves. -/
structure MoveKit (cnt : Prop) (r : ℕ) (pos : ℕ → ℕ) (c₀ : ℕ) (move move1 : St K V → Except Err (St K V)) : Prop where
  ok : MoveOK move
  ok1 : MoveOK move1
  quiet : cnt → MoveQuiet move
  quiet1 : cnt → MoveQuiet move1
  sim : MoveSim r pos c₀ move move1

theorem cboMove_kit {cnt : Prop} {r : ℕ} {pos : ℕ → ℕ} {c₀ : ℕ} {p : V → V} {env env1 : Env K V} (he : SimEnv cnt r pos c₀ p env env1) :
    MoveKit cnt r pos c₀ (cboMove env) (cboMove env1) where
  ok := cboMove_ok env
  ok1 := cboMove_ok env1
  quiet := fun hc => cboMove_quiet (he.noHeavi hc).1
  quiet1 := fun hc => cboMove_quiet (he.noHeavi hc).2
  sim := cboMove_sim he

theorem mirrorMove_quiet {env : Env K V} (hc : ∀ g, env.corr ≠ .heavi g) (gc : V → V) : MoveQuiet (mirrorMove env gc) := by
  intro s s' h
  unfold mirrorMove at h
  split at h
  · simp at h
  · simp only [bind_ok, pure_ok] at h
    obtain ⟨xp, _, d, _, ⟨d', s1⟩, hcc, n, _, u, _, x, hx, rfl⟩ := h
    unfold correction at hcc
    split at hcc
    · rw [pure_ok] at hcc; cases hcc; exact ⟨rfl, rfl⟩
    · simp only [bind_ok, pure_ok] at hcc
      obtain ⟨_, _, hcc⟩ := hcc
      cases hcc; exact ⟨rfl, rfl⟩
    · rename_i g hg; exact absurd hg (hc g)

theorem mirrorMove_kit {cnt : Prop} {r : ℕ} {pos : ℕ → ℕ} {c₀ : ℕ} {p : V → V} {env env1 : Env K V} (he : SimEnv cnt r pos c₀ p env env1) (gc : V → V) :
    MoveKit cnt r pos c₀ (mirrorMove env gc) (mirrorMove env1 gc) where
  ok := mirrorMove_ok env gc
  ok1 := mirrorMove_ok env1 gc
  quiet := fun hc => mirrorMove_quiet (he.noHeavi hc).1 gc
  quiet1 := fun hc => mirrorMove_quiet (he.noHeavi hc).2 gc
  sim := mirrorMove_sim he gc

theorem adamMove_kit {cnt : Prop} {r : ℕ} {pos : ℕ → ℕ} {c₀ : ℕ} {p : V → V} {env env1 : Env K V} (he : SimEnv cnt r pos c₀ p env env1)
    (A : AdamOps V) (β1 β2 : K) : MoveKit cnt r pos c₀ (adamMove env A β1 β2) (adamMove env1 A β1 β2) where
  ok := adamMove_ok env A β1 β2
  ok1 := adamMove_ok env1 A β1 β2
  quiet := fun _ _ _ h => ⟨(adamMove_facts h).2.2.2.1, (adamMove_facts h).2.2.1⟩
  quiet1 := fun _ _ _ h => ⟨(adamMove_facts h).2.2.2.1, (adamMove_facts h).2.2.1⟩
  sim := adamMove_sim he A β1 β2

end

variable {K V : Type} [Zero K] [One K] [Neg K] [Add K] [Sub K] [Mul K] [Inv K] [Div K] [NatCast K] [Pow K ℕ] [LinearOrder K] [Add V] [Sub V] [SMul K V]

/-- A stopped run of `MirrorCBO` keeps its positions as long as they are the images of its dual variable. -/
theorem keeps_mirror {env : Env K V} {gc p : V → V} (hpm : PostMap env p) (hp : PermOK env) :
    Keeps env (mirrorMove env gc) fun m s => ∀ n < s.N, s.x.get m n = p (gc (s.aux1.get m n)) := by
  refine ⟨?_, ?_⟩
  · intro s s' m hw _ hna hJ h
    have f := step_frame (consThen_frame (mirrorMove_ok env gc)) h
    obtain ⟨f1, -, f3, -⟩ := mirrorStep_facts hpm h
    have ha : ∀ n, s'.aux1.get m n = s.aux1.get m n := fun n => f3 m n fun hsel => hna (by
      rw [f.pIdx] at hsel
      exact (pSel_active hp hw hsel).1)
    exact ⟨fun n hn => by rw [f1, ha, hJ n hn], fun n hn => f1 m n⟩
  · intro s s' m e1 e2 e3 h n hn
    rw [e1, e2]
    exact h n (e3 ▸ hn)

end Verif
