import Verif.Spec.MemRun
import Verif.Proofs.MemTotal
import Verif.Proofs.Sim

/-! Helper lemmas: a step of `CBOMemory` or `PSO` with all runs active, run by run. -/

set_option linter.unusedSectionVars false

namespace Verif

section
variable {K V : Type} [Zero K] [One K] [Neg K] [Add K] [Sub K] [Mul K] [Inv K] [Div K] [NatCast K] [Pow K ℕ] [LinearOrder K] [Add V] [Sub V] [SMul K V]

theorem scatterAdd_all {a v r : Mat V} {M N : ℕ} (h : a.scatterAdd (Idx.all M N) v = .ok r) (hv : v.rows = M) (hc : v.cols = N) :
    ∀ m < M, ∀ n < N, r.get m n = a.get m n + v.get m n := by
  obtain ⟨-, -, -, -, z, -, -⟩ := Mat.scatterAdd_ok h
  intro m hm n hn
  obtain ⟨i, hi, j, hj, rfl, rfl, e⟩ := z m n (sel_all hm hn)
  rw [e, hv, hc]
  simp only [Idx.all] at *
  rw [Mat.bpos_lt hi, Mat.bpos_lt hj]
  rfl

theorem noise_rows {env : Env K V} {ν : ℕ → K → ℕ → ℕ → V → V} (hν : NoiseRows env ν) {q : St K V} {d n : Mat V} (hd : q.drift = some d)
    (h : env.noise q = .ok n) : n.rows = d.rows ∧ n.cols = d.cols ∧ ∀ i j, n.get i j = ν q.draws q.dt i j (d.get i j) := by
  obtain ⟨n', h1, h2⟩ := hν q d hd
  rw [h] at h1
  injection h1 with h1
  subst h1
  exact h2

/-- The weighted particles, row by row, when all runs are active. -/
theorem weighted_rows {s : St K V} {y : Mat V} {e : Mat (Flt K)} {w : Mat (K × Flt K)} {wx : Mat (K × Flt K × V)} {g : List (K × Flt K × V) → V}
    (hact : s.active = List.range s.M) (er : e.rows = s.M) (ec : e.cols = s.N) (yr : y.rows = s.M) (yc : y.cols = s.N)
    (hw : Mat.bin (fun a e => (a, e)) (alphaActive s) e = .ok w) (hwx : Mat.bin (fun (p : K × Flt K) (v : V) => (p.1, p.2, v)) w y = .ok wx) :
    ((Cons.mean g).apply wx).rows = s.M ∧ ((Cons.mean g).apply wx).cols = 1 ∧
      ∀ m < s.M, ((Cons.mean g).apply wx).get m 0 = g ((List.range s.N).map fun j => (s.alpha m, e.get m j, y.get m j)) := by
  have hl : s.active.length = s.M := by rw [hact, List.length_range]
  obtain ⟨b1, b2, b3⟩ := Mat.bin_ok hw
  simp only [alphaActive] at b1 b2 b3
  rw [er, hl, Mat.bdim_self] at b1
  rw [ec, Mat.bdim_one_left] at b2
  injection b1 with b1
  injection b2 with b2
  obtain ⟨c1, c2, c3⟩ := bin_full hwx b1.symm b2.symm yr yc
  refine ⟨c1, rfl, fun m hm => ?_⟩
  simp only [Cons.apply, Mat.row, c2]
  congr 1
  apply List.map_congr_left
  intro j hj
  have hj' := List.mem_range.1 hj
  rw [c3 m hm j hj', b3, hl, er, ec, Mat.bpos_lt hm, Mat.bpos_lt hj', hact]
  simp [hm]

/-- Facts about the inner step of one of the two dynamics; `next m` is the specified step of run `m`. -/
structure InnerRuns (s s' : St K V) (next : ℕ → MemRun K V) : Prop where
  draws : s'.draws = s.draws + 2
  x : ∀ m < s.M, ∀ n < s.N, s'.x.get m n = (next m).x n
  y : ∀ m < s.M, ∀ n < s.N, s'.aux1.get m n = (next m).y n
  v : ∀ m < s.M, ∀ n < s.N, s'.aux2.get m n = (next m).v n
  e : ∀ m < s.M, ∀ n < s.N, s'.energy.get m n = (next m).e n

theorem AllIdx.act_eq {s : St K V} (w : AllIdx s) : s.active = List.range s.M :=
  w.act.eq_of_length (by rw [w.full, List.length_range])

theorem AllIdx.mid {s : St K V} (w : AllIdx s) : MidShape s :=
  ⟨w.xr, w.xc, w.er, w.ec, w.yr, w.yc, w.act, by rw [w.pIdx, w.act_eq]; exact sweep_all⟩

theorem memInner_runs {env : Env K V} (hcorr : env.corr = .none) {g : List (K × Flt K × V) → V} (hg : env.cons = .mean g)
    {ν : ℕ → K → ℕ → ℕ → V → V} (hν : NoiseRows env ν) {lm sm : K} {s v : St K V} (w : AllIdx s) (hM : 0 < s.M) (h : memInner env lm sm s = .ok v) :
    InnerRuns s v fun m => (s.runPar env g ν m).memNext lm sm (s.memRun m) := by
  simp only [memInner, bind_ok] at h
  obtain ⟨q1, h1, q2, h2, q3, h3, h4⟩ := h
  have f1 := memConsensus_frame h1
  have f3 := (memoryStep_frame h3).1
  have f4 := memUpdate_frame h4
  -- consensus
  simp only [memConsensus, bind_ok, pure_ok, w.cIdx] at h1
  obtain ⟨yb, hyb, ww, hww, wx, hwx, rfl⟩ := h1
  have e1 := gather_all hyb w.yr w.yc
  subst e1
  rw [hg] at h2 f1
  obtain ⟨c1, c2, c3⟩ := weighted_rows (g := g) w.act_eq w.er w.ec w.yr w.yc hww hwx
  -- the CBO step
  simp only [cboMove, bind_ok, pure_ok, correction, hcorr, w.pIdx] at h2
  obtain ⟨xp, hxp, d, hd, -, rfl, n, hn, u, hu, x, hx, rfl⟩ := h2
  have e2 := gather_all hxp w.xr w.xc
  subst e2
  obtain ⟨d1, d2, d3⟩ := bin_one hd w.xr w.xc c1 c2
  obtain ⟨n1, n2, n3⟩ := noise_rows hν rfl hn
  obtain ⟨u1, u2, u3⟩ := bin_full hu d1 d2 (n1.trans d1) (n2.trans d2)
  have hx' := scatterAdd_all hx u1 u2
  obtain ⟨-, xr, xc, -⟩ := Mat.scatterAdd_ok hx
  -- the memory step
  simp only [memoryStep, bind_ok, pure_ok] at h3
  obtain ⟨xp', hxp', yp, hyp, d', hd', n', hn', u', hu', x', hx'', rfl⟩ := h3
  have e3 := gather_all hxp' (xr.trans w.xr) (xc.trans w.xc)
  have e4 := gather_all hyp w.yr w.yc
  subst e3 e4
  obtain ⟨d1', d2', d3'⟩ := bin_full hd' (xr.trans w.xr) (xc.trans w.xc) w.yr w.yc
  obtain ⟨n1', n2', n3'⟩ := noise_rows hν rfl hn'
  obtain ⟨u1', u2', u3'⟩ := bin_full hu' d1' d2' (n1'.trans d1') (n2'.trans d2')
  have hx3 := scatterAdd_all hx'' u1' u2'
  obtain ⟨-, xr', xc', -⟩ := Mat.scatterAdd_ok hx''
  have hX : ∀ m < s.M, ∀ n < s.N, x'.get m n = ((s.runPar env g ν m).memNext lm sm (s.memRun m)).x n := by
    intro m hm n hn
    rw [hx3 m hm n hn, u3' m hm n hn, n3', d3' m hm n hn, hx' m hm n hn, u3 m hm n hn, n3, d3 m hm n hn, c3 m hm]
    rfl
  have rm := memUpdate_remember (env := env) (s' := v) (by exact ⟨xr'.trans (xr.trans w.xr), xc'.trans (xc.trans w.xc), w.er, w.ec, w.yr, w.yc, w.act, by rw [w.act_eq]; exact sweep_all⟩)
    (by rw [← List.length_pos_iff_ne_nil]; exact w.full ▸ hM) h4
  refine ⟨by rw [f4], ?_, ?_, ?_, ?_⟩
  · intro m hm n hn
    rw [rm.x]
    exact hX m hm n hn
  · intro m hm n hn
    rw [rm.y m hm n hn]
    simp only
    rw [hX m hm n hn]
    rfl
  · intro m hm n hn
    rw [f4]
    rfl
  · intro m hm n hn
    rw [rm.e m hm n hn]
    simp only
    rw [hX m hm n hn]
    rfl

theorem psoInner_runs {env : Env K V} (hcorr : env.corr = .none) {g : List (K × Flt K × V) → V} (hg : env.cons = .mean g)
    {ν : ℕ → K → ℕ → ℕ → V → V} (hν : NoiseRows env ν) {p : PsoPar K} {s v : St K V} (w : AllIdx s) (hv : VShape s) (hM : 0 < s.M) (h : psoInner env p s = .ok v) :
    p.m + p.gamma * s.dt ≠ 0 ∧ InnerRuns s v fun m => (s.runPar env g ν m).psoNext p (s.memRun m) := by
  simp only [psoInner, bind_ok] at h
  obtain ⟨q1, hq1, q2, hq2, hq3⟩ := h
  have f3 := psoUpdate_frame hq3
  simp only [psoVelocity, bind_ok] at hq1
  obtain ⟨yb, hyb, eb, heb, ww, hww, wx, hwx, xp, hxp, dc, hdc, yp, hyp, dm, hdm, n1, hn1, n2, hn2, hq1⟩ := hq1
  split_ifs at hq1 with hz
  simp only [bind_ok, pure_ok, correction, hcorr] at hq1
  obtain ⟨vp, hvp, a0, rfl, a1, ha1, a2, ha2, a3, ha3, a4, ha4, u, hu, rfl⟩ := hq1
  simp only [w.pIdx, w.cIdx] at hyb heb hxp hyp hvp hu
  have e1 := gather_all hyb w.yr w.yc
  have e2 := gather_all heb w.er w.ec
  have e3 := gather_all hxp w.xr w.xc
  have e4 := gather_all hyp w.yr w.yc
  have e5 := gather_all hvp hv.1 hv.2
  subst e1 e2 e3 e4 e5
  rw [hg] at *
  obtain ⟨c1, c2, c3⟩ := weighted_rows (g := g) w.act_eq w.er w.ec w.yr w.yc hww hwx
  obtain ⟨d1, d2, d3⟩ := bin_one hdc w.xr w.xc c1 c2
  obtain ⟨m1, m2, m3⟩ := bin_full hdm w.xr w.xc w.yr w.yc
  obtain ⟨g1, g2, g5⟩ := noise_rows hν rfl hn1
  obtain ⟨g3, g4, g6⟩ := noise_rows hν rfl hn2
  obtain ⟨r1, k1, x1⟩ := bin_full ha1 hv.1 hv.2 (by simpa [Mat.map] using d1) (by simpa [Mat.map] using d2)
  obtain ⟨r2, k2, x2⟩ := bin_full ha2 r1 k1 m1 m2
  obtain ⟨r3, k3, x3⟩ := bin_full ha3 r2 k2 (g1.trans d1) (g2.trans d2)
  obtain ⟨r4, k4, x4⟩ := bin_full ha4 r3 k3 (g3.trans m1) (g4.trans m2)
  have hu' := scatter_all hu (by simpa [Mat.map] using r4) (by simpa [Mat.map] using k4)
  obtain ⟨-, v1, v2, -⟩ := Mat.scatter_ok hu
  have hV : ∀ m < s.M, ∀ n < s.N, u.get m n = ((s.runPar env g ν m).psoNext p (s.memRun m)).v n := by
    intro m hm n hn
    rw [hu' m hm n hn]
    simp only [Mat.map]
    rw [x4 m hm n hn, x3 m hm n hn, x2 m hm n hn, x1 m hm n hn, g5, g6]
    simp only [Mat.map]
    rw [d3 m hm n hn, m3 m hm n hn, c3 m hm]
    rfl
  simp only [psoPosition, bind_ok, pure_ok] at hq2
  obtain ⟨xp', hxp', vp', hvp', xn, hxn, xs, hxs, rfl⟩ := hq2
  simp only [w.pIdx] at hxp' hvp' hxs
  have e6 := gather_all hxp' w.xr w.xc
  have e7 := gather_all hvp' (v1.trans hv.1) (v2.trans hv.2)
  subst e6 e7
  obtain ⟨r5, k5, x5⟩ := bin_full hxn w.xr w.xc (v1.trans hv.1) (v2.trans hv.2)
  have hxs' := scatter_all hxs r5 k5
  obtain ⟨-, xr, xc, -⟩ := Mat.scatter_ok hxs
  have hX : ∀ m < s.M, ∀ n < s.N, xs.get m n = ((s.runPar env g ν m).psoNext p (s.memRun m)).x n := by
    intro m hm n hn
    rw [hxs' m hm n hn, x5 m hm n hn, hV m hm n hn]
    rfl
  have rm := psoUpdate_remember (env := env) (s' := v) (by exact ⟨xr.trans w.xr, xc.trans w.xc, w.er, w.ec, w.yr, w.yc, w.act, w.mid.sweep⟩)
    (by rw [← List.length_pos_iff_ne_nil]; exact w.full ▸ hM) hq3
  refine ⟨hz, by rw [f3], ?_, ?_, ?_, ?_⟩
  · intro m hm n hn
    rw [rm.x]
    exact hX m hm n hn
  · intro m hm n hn
    rw [rm.y m hm n hn]
    simp only
    rw [hX m hm n hn]
    rfl
  · intro m hm n hn
    rw [f3]
    exact hV m hm n hn
  · intro m hm n hn
    rw [rm.e m hm n hn]
    simp only
    rw [hX m hm n hn]
    rfl

/-! ### Whole steps -/

theorem rowArgmin_congr {n : ℕ} (hn : 0 < n) {g g' : ℕ → Flt K} (h : ∀ i < n, g i = g' i) : Flt.rowArgmin n g = Flt.rowArgmin n g' := by
  have key : ∀ k, k < n → Flt.rowArgmin (k + 1) g = Flt.rowArgmin (k + 1) g' := by
    intro k
    induction k with
    | zero => intro _; rfl
    | succ k ih =>
      intro hk
      have e1 := ih (by omega)
      have e2 := Flt.rowArgmin_lt (n := k + 1) (by omega) g'
      simp only [Flt.rowArgmin, Nat.add_sub_cancel] at e1 e2 ⊢
      rw [List.range_succ, List.foldl_append, List.foldl_append, e1]
      simp only [List.foldl_cons, List.foldl_nil]
      rw [h _ (show _ < n by omega), h (k + 1) hk]
  obtain ⟨k, rfl⟩ : ∃ k, n = k + 1 := ⟨n - 1, by omega⟩
  exact key k (by omega)

/-- Facts about a whole step; `new` tells whether the current best particle is taken from the new or from the old positions. -/
structure StepRuns (env : Env K V) (p : V → V) (new : Bool) (s s' : St K V) (next : ℕ → MemRun K V) : Prop where
  frame : StepFrame env s s'
  shape : MemPlain s'
  vshape : VShape s → VShape s'
  draws : s'.draws = s.draws + 2
  runs : ∀ m < s.M, RunIs p s' m (next m)
  nEval : ∀ m < s.M, s'.nEval m = s.nEval m + s.N
  fMin : ∀ m, s'.fMin m = Flt.rowMin s'.energy.cols (s'.energy.get m)
  fMinIdx : ∀ m, s'.fMinIdx m = Flt.rowArgmin s'.energy.cols (s'.energy.get m)
  bestE : ∀ m, s'.bestE m = if Flt.gt (s.bestE m) (s'.energy.get m (s'.fMinIdx m)) then s'.energy.get m (s'.fMinIdx m) else s.bestE m
  bestP : ∀ m, s'.bestP m = if Flt.gt (s.bestE m) (s'.energy.get m (s'.fMinIdx m)) then (if new then s'.x else s.x).get m (s'.fMinIdx m) else s.bestP m
  updDiff : ∀ m < s.M, s'.updDiff m = env.normDiff ((List.range s.N).map fun j => (s'.x.get m j, s.x.get m j))

theorem memPostStep_more {env : Env K V} {s s' : St K V} (h : memPostStep env s = .ok s') :
    (∀ m, s'.fMin m = Flt.rowMin s.energy.cols (s.energy.get m)) ∧
      ∀ o, s.xOld = some o → ∃ p, Mat.bin (fun a b => (a, b)) s'.x o = .ok p ∧ s'.updDiff = fun m => env.normDiff (p.row m) := by
  simp only [memPostStep, bind_ok] at h
  obtain ⟨x, hx, s1, h1, s2, h2, s3, h3, h4⟩ := h
  rw [pure_ok] at h4
  unfold memBestCur at h2
  split_ifs at h2 with hc
  rw [pure_ok] at h2
  have f1 := updateDiff_frame h1
  have f3 := track_frame h3
  rw [← h2] at f3
  rw [f3] at h4
  rw [← h4]
  refine ⟨fun m => by simp only [updateBest]; rw [f1], fun o ho => ?_⟩
  unfold updateDiff at h1
  simp only [ho, bind_ok, pure_ok] at h1
  obtain ⟨p, hp, rfl⟩ := h1
  exact ⟨p, hp, rfl⟩

theorem updDiff_rows {x o : Mat V} {p : Mat (V × V)} {M N m : ℕ} (h : Mat.bin (fun a b => (a, b)) x o = .ok p) (h1 : x.rows = M) (h2 : x.cols = N)
    (h3 : o.rows = M) (h4 : o.cols = N) (hm : m < M) : p.row m = (List.range N).map fun j => (x.get m j, o.get m j) := by
  obtain ⟨_, e2, e3⟩ := bin_full h h1 h2 h3 h4
  simp only [Mat.row]
  rw [e2]
  apply List.map_congr_left
  intro j hj
  exact e3 m hm j (List.mem_range.1 hj)

theorem RunIs.of_inner {env : Env K V} {p : V → V} (hpm : PostMap env p) {s v s' : St K V} {next : ℕ → MemRun K V} (hi : InnerRuns s v next)
    (hb : BestFacts env v s') (hN : v.N = s.N) {m : ℕ} (hm : m < s.M) : RunIs p s' m (next m) := by
  have hx : s'.x = v.x.map p := by
    have := hb.post
    rw [hpm] at this
    injection this with this
    exact this.symm
  have eN : s'.N = s.N := by rw [hb.frame]; exact hN
  refine ⟨fun n hn => ?_, fun n hn => ?_, fun n hn => ?_, fun n hn => ?_⟩ <;> rw [eN] at hn
  · rw [hx]
    simp only [Mat.map]
    rw [hi.x m hm n hn]
  · rw [hb.frame]; exact hi.y m hm n hn
  · rw [hb.frame]; exact hi.v m hm n hn
  · rw [hb.frame]; exact hi.e m hm n hn

theorem memStep_runs {env : Env K V} (hcorr : env.corr = .none) {g : List (K × Flt K × V) → V} (hg : env.cons = .mean g)
    {ν : ℕ → K → ℕ → ℕ → V → V} (hν : NoiseRows env ν) {p : V → V} (hpm : PostMap env p) {lm sm : K} {s s' : St K V} (w : MemPlain s)
    (ha : s.active ≠ []) (h : memStep env lm sm s = .ok s') :
    StepRuns env p true s s' fun m => (s.runPar env g ν m).memNext lm sm (s.memRun m) := by
  obtain ⟨X, hX⟩ := mem_histStep_plain hpm.ok w ha h
  obtain ⟨X', hX'⟩ := mem_charge_plain (fun g => by rw [hcorr]; exact fun h => (nomatch h)) w ha h
  have full := hX.full
  have hM : 0 < s.M := by rw [← full]; exact List.length_pos_iff_ne_nil.2 ha
  have fr := memStep_frame h
  have bp := memStep_bestP h
  simp only [memStep, bind_ok] at h
  obtain ⟨v, hv, hps⟩ := h
  have pf := preStep_frame env s
  have hi := memInner_runs hcorr hg hν (allIdx_pre (env := env) w full) (by rw [pf]; exact hM) hv
  have vf := memInner_frame env lm sm _ _ hv
  have hb := memPostStep_best hps
  obtain ⟨mf, mu⟩ := memPostStep_more hps
  have eM : (preStep env s).M = s.M := by rw [pf]
  have eN : (preStep env s).N = s.N := by rw [pf]
  have ve : s'.energy = v.energy := by rw [hb.frame]
  exact {
    frame := fr
    shape := ⟨hX.shape, by rw [fr.batched]; exact w.nob⟩
    vshape := fun hs => by
      have : v.aux2 = s.aux2 := by
        have h := hv
        simp only [memInner, bind_ok] at h
        obtain ⟨q1, h1, q2, h2, q3, h3, h4⟩ := h
        rw [memUpdate_frame h4]
        simp only
        rw [(memoryStep_frame h3).1]
        simp only
        have f1 := memConsensus_frame h1
        have : q2.aux2 = q1.aux2 := by
          unfold cboMove at h2
          split at h2
          · exact nomatch h2
          · simp only [bind_ok, pure_ok, correction, hcorr] at h2
            obtain ⟨_, _, _, _, _, rfl, _, _, _, _, _, _, rfl⟩ := h2
            rfl
        rw [this, f1]
        simp only
        rw [pf]
      have e : s'.aux2 = s.aux2 := by rw [hb.frame]; exact this
      unfold VShape
      rw [e, fr.M, fr.N]
      exact hs
    draws := by rw [hb.frame]; simp only; rw [hi.draws, pf]
    runs := fun m hm => by
      have := RunIs.of_inner hpm hi hb (by rw [vf]) (m := m) (by rw [eM]; exact hm)
      rw [pf] at this
      exact this
    nEval := hX'.nEval
    fMin := fun m => by rw [mf, ve]
    fMinIdx := hX.fMinIdx
    bestE := hX.bestE
    bestP := fun m => by rw [bp m]; rfl
    updDiff := fun m hm => by
      obtain ⟨q, hq, e⟩ := mu s.x (by rw [vf]; simp only; rw [pf])
      rw [e]
      simp only
      rw [updDiff_rows hq (M := s.M) (N := s.N) (by rw [hX.shape.xr, fr.M]) (by rw [hX.shape.xc, fr.N]) w.xr w.xc hm] }

theorem psoStep_runs {env : Env K V} (hcorr : env.corr = .none) {g : List (K × Flt K × V) → V} (hg : env.cons = .mean g)
    {ν : ℕ → K → ℕ → ℕ → V → V} (hν : NoiseRows env ν) {p : V → V} (hpm : PostMap env p) {pp : PsoPar K} {s s' : St K V} (w : MemPlain s) (hvs : VShape s)
    (ha : s.active ≠ []) (h : psoStep env pp s = .ok s') :
    pp.m + pp.gamma * s.dt ≠ 0 ∧ StepRuns env p false s s' fun m => (s.runPar env g ν m).psoNext pp (s.memRun m) := by
  obtain ⟨X, hX⟩ := pso_histStep_plain hpm.ok w ha h
  obtain ⟨X', hX'⟩ := pso_charge_plain (fun g => by rw [hcorr]; exact fun h => (nomatch h)) w ha h
  have full := hX.full
  have hM : 0 < s.M := by rw [← full]; exact List.length_pos_iff_ne_nil.2 ha
  have fr := psoStep_frame h
  obtain ⟨v, hv, hps⟩ := step_split.1 h
  have pf := preStep_frame env s
  have wa := allIdx_pre (env := env) w full
  obtain ⟨hz, hi⟩ := psoInner_runs hcorr hg hν wa (by rw [pf]; exact hvs) (by rw [pf]; exact hM) hv
  have vf := psoInner_frame env pp _ _ hv
  have hb := postStep_best hps
  have pff := postStep_facts hps
  have eM : (preStep env s).M = s.M := by rw [pf]
  have ve : s'.energy = v.energy := by rw [hb.frame]
  have xo : v.xOld = some s.x := by rw [vf]; simp only; rw [pf]
  refine ⟨by rw [pf] at hz; exact hz, ?_⟩
  exact {
    frame := fr
    shape := ⟨hX.shape, by rw [fr.batched]; exact w.nob⟩
    vshape := fun _ => by
      have : v.aux2.rows = s.M ∧ v.aux2.cols = s.N := by
        have h := hv
        simp only [psoInner, bind_ok] at h
        obtain ⟨q1, h1, q2, h2, h3⟩ := h
        rw [psoUpdate_frame h3]
        simp only
        rw [(psoPosition_frame h2).1]
        simp only
        simp only [psoVelocity, bind_ok] at h1
        obtain ⟨_, _, _, _, _, _, _, _, _, _, _, _, _, _, _, _, _, _, _, _, h1⟩ := h1
        split_ifs at h1 with hz
        simp only [bind_ok, pure_ok, correction, hcorr] at h1
        obtain ⟨_, _, _, rfl, _, _, _, _, _, _, _, _, u, hu, rfl⟩ := h1
        obtain ⟨-, v1, v2, -⟩ := Mat.scatter_ok hu
        rw [v1, v2, pf]
        exact hvs
      unfold VShape
      rw [fr.M, fr.N, hb.frame]
      exact this
    draws := by rw [hb.frame]; simp only; rw [hi.draws, pf]
    runs := fun m hm => by
      have := RunIs.of_inner hpm hi hb (by rw [vf]) (m := m) (by rw [eM]; exact hm)
      rw [pf] at this
      exact this
    nEval := hX'.nEval
    fMin := fun m => by rw [pff.fMin, ve]
    fMinIdx := hX.fMinIdx
    bestE := hX.bestE
    bestP := fun m => by
      rw [pff.bestP, pff.bestCurE, pff.bestCurP m _ xo, ve, vf]
      simp only
      rw [pf]
      rfl
    updDiff := fun m hm => by
      obtain ⟨q, hq, e⟩ := pff.updDiff s.x xo
      rw [e]
      simp only
      rw [updDiff_rows hq (M := s.M) (N := s.N) (by rw [hX.shape.xr, fr.M]) (by rw [hX.shape.xc, fr.N]) w.xr w.xc hm] }

/-! ### A run compared with a dynamic of its own -/

/-- Run `r` of `s` and the only run of `s1` are in the same state. -/
structure MemSim (r : ℕ) (s s1 : St K V) : Prop where
  M1 : s1.M = 1
  N : s1.N = s.N
  x : ∀ n < s.N, s1.x.get 0 n = s.x.get r n
  y : ∀ n < s.N, s1.aux1.get 0 n = s.aux1.get r n
  v : ∀ n < s.N, s1.aux2.get 0 n = s.aux2.get r n
  e : ∀ n < s.N, s1.energy.get 0 n = s.energy.get r n
  bestE : s1.bestE 0 = s.bestE r
  bestP : s1.bestP 0 = s.bestP r
  fMin : s1.fMin 0 = s.fMin r
  updDiff : s1.updDiff 0 = s.updDiff r
  nEval : s1.nEval 0 = s.nEval r
  alpha : s1.alpha 0 = s.alpha r
  lamda : s1.lamda = s.lamda
  sigma : s1.sigma = s.sigma
  dt : s1.dt = s.dt
  t : s1.t = s.t
  it : s1.it = s.it
  terms : s1.terms = s.terms
  batchSize : s1.batchSize = s.batchSize
  draws : s1.draws = s.draws
  saveInt : s1.saveInt = s.saveInt

theorem memSim_step {env env1 : Env K V} {p : V → V} {new : Bool} {r : ℕ} {s s' s1 s1' : St K V} {next next1 : ℕ → MemRun K V}
    (hn : env1.normDiff = env.normDiff) (hr : r < s.M) (hpos : 0 < s.N) (h : StepRuns env p new s s' next) (h1 : StepRuns env1 p new s1 s1' next1)
    (hs : MemSim r s s1) (hx : ∀ n < s.N, (next1 0).x n = (next r).x n) (hy : ∀ n < s.N, (next1 0).y n = (next r).y n)
    (hv : ∀ n < s.N, (next1 0).v n = (next r).v n) (he : ∀ n < s.N, (next1 0).e n = (next r).e n) : MemSim r s' s1' := by
  have h0 : 0 < s1.M := by rw [hs.M1]; omega
  have R := h.runs r hr
  have R1 := h1.runs 0 h0
  have eN : s'.N = s.N := h.frame.N
  have eN1 : s1'.N = s.N := by rw [h1.frame.N, hs.N]
  have ec : s'.energy.cols = s.N := by rw [h.shape.ec, eN]
  have ec1 : s1'.energy.cols = s.N := by rw [h1.shape.ec, eN1]
  have X : ∀ n < s.N, s1'.x.get 0 n = s'.x.get r n := fun n hn => by
    rw [R.x n (by rw [eN]; exact hn), R1.x n (by rw [eN1]; exact hn), hx n hn]
  have E : ∀ n < s.N, s1'.energy.get 0 n = s'.energy.get r n := fun n hn => by
    rw [R.e n (by rw [eN]; exact hn), R1.e n (by rw [eN1]; exact hn), he n hn]
  have I : s1'.fMinIdx 0 = s'.fMinIdx r := by rw [h1.fMinIdx, h.fMinIdx, ec, ec1]; exact rowArgmin_congr hpos E
  have hI : s'.fMinIdx r < s.N := by rw [h.fMinIdx, ec]; exact Flt.rowArgmin_lt hpos _
  exact {
    M1 := by rw [h1.frame.M, hs.M1]
    N := by rw [eN, eN1]
    x := fun n hn => X n (by rw [← eN]; exact hn)
    y := fun n hn => by
      rw [eN] at hn
      rw [R.y n (by rw [eN]; exact hn), R1.y n (by rw [eN1]; exact hn), hy n hn]
    v := fun n hn => by
      rw [eN] at hn
      rw [R.v n (by rw [eN]; exact hn), R1.v n (by rw [eN1]; exact hn), hv n hn]
    e := fun n hn => E n (by rw [← eN]; exact hn)
    bestE := by rw [h1.bestE, h.bestE, I, E _ hI, hs.bestE]
    bestP := by
      rw [h1.bestP, h.bestP, I, E _ hI, hs.bestE, hs.bestP]
      cases new
      · simp only [Bool.false_eq_true, if_false]; rw [hs.x _ hI]
      · simp only [if_true]; rw [X _ hI]
    fMin := by rw [h1.fMin, h.fMin, Flt.rowMin_eq, Flt.rowMin_eq, ← h1.fMinIdx, ← h.fMinIdx, I, E _ hI]
    updDiff := by
      rw [h1.updDiff 0 h0, h.updDiff r hr, hn, hs.N]
      congr 1
      apply List.map_congr_left
      intro j hj
      have hj' := List.mem_range.1 hj
      rw [X j hj', hs.x j hj']
    nEval := by rw [h1.nEval 0 h0, h.nEval r hr, hs.nEval, hs.N]
    alpha := by rw [h1.frame.alpha, h.frame.alpha, hs.alpha]
    lamda := by rw [h1.frame.lamda, h.frame.lamda, hs.lamda]
    sigma := by rw [h1.frame.sigma, h.frame.sigma, hs.sigma]
    dt := by rw [h1.frame.dt, h.frame.dt, hs.dt]
    t := by rw [h1.frame.t, h.frame.t, hs.t, hs.dt]
    it := by rw [h1.frame.it, h.frame.it, hs.it]
    terms := by rw [h1.frame.terms, h.frame.terms, hs.terms]
    batchSize := by rw [h1.frame.batchSize, h.frame.batchSize, hs.batchSize]
    draws := by rw [h1.draws, h.draws, hs.draws]
    saveInt := by rw [h1.frame.saveInt, h.frame.saveInt, hs.saveInt] }

theorem memSim_par {env env1 : Env K V} {g : List (K × Flt K × V) → V} {ν ν1 : ℕ → K → ℕ → ℕ → V → V} {r : ℕ} {s s1 : St K V} (hf : env1.f = env.f)
    (hν : ∀ c dt, ν1 c dt 0 = ν c dt r) (hs : MemSim r s s1) : s1.runPar env1 g ν1 0 = s.runPar env g ν r := by
  simp only [St.runPar, hf, hs.N, hs.alpha, hs.lamda, hs.sigma, hs.dt, hs.draws, hν]

theorem memSim_point {q : RunPar K V} {r : ℕ} {s s1 : St K V} (hN : q.N = s.N) (hs : MemSim r s s1) : q.point (s1.memRun 0) = q.point (s.memRun r) := by
  unfold RunPar.point
  congr 1
  apply List.map_congr_left
  intro j hj
  rw [hN] at hj
  have hj' := List.mem_range.1 hj
  simp only [St.memRun]
  rw [hs.e j hj', hs.y j hj']

theorem memNext_sim {q : RunPar K V} {lm sm : K} {r : ℕ} {s s1 : St K V} (hN : q.N = s.N) (hs : MemSim r s s1) (n : ℕ) (hn : n < s.N) :
    (q.memNext lm sm (s1.memRun 0)).x n = (q.memNext lm sm (s.memRun r)).x n ∧ (q.memNext lm sm (s1.memRun 0)).y n = (q.memNext lm sm (s.memRun r)).y n ∧
    (q.memNext lm sm (s1.memRun 0)).v n = (q.memNext lm sm (s.memRun r)).v n ∧ (q.memNext lm sm (s1.memRun 0)).e n = (q.memNext lm sm (s.memRun r)).e n := by
  have e1 := hs.x n hn
  have e2 := hs.y n hn
  have e3 := hs.v n hn
  have e4 := hs.e n hn
  have e5 := memSim_point hN hs
  simp only [RunPar.memNext, RunPar.remember, RunPar.memMove, e5]
  simp only [St.memRun, e1, e2, e3, e4]
  trivial

theorem psoNext_sim {q : RunPar K V} {p : PsoPar K} {r : ℕ} {s s1 : St K V} (hN : q.N = s.N) (hs : MemSim r s s1) (n : ℕ) (hn : n < s.N) :
    (q.psoNext p (s1.memRun 0)).x n = (q.psoNext p (s.memRun r)).x n ∧ (q.psoNext p (s1.memRun 0)).y n = (q.psoNext p (s.memRun r)).y n ∧
    (q.psoNext p (s1.memRun 0)).v n = (q.psoNext p (s.memRun r)).v n ∧ (q.psoNext p (s1.memRun 0)).e n = (q.psoNext p (s.memRun r)).e n := by
  have e1 := hs.x n hn
  have e2 := hs.y n hn
  have e3 := hs.v n hn
  have e4 := hs.e n hn
  have e5 := memSim_point hN hs
  simp only [RunPar.psoNext, RunPar.remember, RunPar.psoVel, e5]
  simp only [St.memRun, e1, e2, e3, e4]
  trivial

theorem memSim_fires {env env1 : Env K V} {r : ℕ} {s s1 : St K V} (hs : MemSim r s s1) {tm : Term K} (hb : BuiltIn tm) :
    Fires env1 s1 0 tm ↔ Fires env s r tm := by
  cases tm with
  | energyTol tol => simp only [Fires, hs.fMin]
  | diffTol tol => simp only [Fires, hs.updDiff]
  | maxEval n => simp only [Fires, hs.nEval, hs.batchSize]
  | maxIt o => simp only [Fires, hs.it]
  | maxTime T => simp only [Fires, hs.t]
  | energyStag _ _ _ => simp [BuiltIn] at hb
  | custom _ => simp [BuiltIn] at hb

theorem memSim_select {env env1 : Env K V} {r : ℕ} {s s' s1 : St K V} (hs : MemSim r s s1)
    (hb : ∀ tm ∈ s.terms, BuiltIn tm) (hr : r < s.M) (h : selectActive env s = .ok s') :
    ∃ s1', selectActive env1 s1 = .ok s1' ∧ MemSim r s' s1' ∧ (0 ∈ s1'.active ↔ r ∈ s'.active) := by
  obtain ⟨q, e, es, hact, -⟩ := select_stateless (env := env) (fun tm htm => (hb tm htm).stateless)
  rw [h] at e
  injection e with e
  subst e
  have hb1 : ∀ tm ∈ s1.terms, BuiltIn tm := by rw [hs.terms]; exact hb
  obtain ⟨q1, e1, es1, hact1, -⟩ := select_stateless (env := env1) (fun tm htm => (hb1 tm htm).stateless)
  refine ⟨q1, e1, ?_, ?_⟩
  · have key : MemSim r { s with active := s'.active, reason := s'.reason }
        { s1 with active := q1.active, reason := q1.reason } := { hs with }
    rw [es, es1]
    exact key
  · rw [hact, hact1, hs.M1, hs.terms]
    constructor
    · rintro ⟨-, h2⟩
      exact ⟨hr, fun tm htm hf => h2 tm htm ((memSim_fires hs (hb tm htm)).2 hf)⟩
    · rintro ⟨-, h2⟩
      exact ⟨by omega, fun tm htm hf => h2 tm htm ((memSim_fires hs (hb tm htm)).1 hf)⟩

theorem memSim_sched {env env1 : Env K V} {r : ℕ} {ga gl gs gd : K → K} (h : SchedLocal env ga gl gs gd)
    (h1 : SchedLocal env1 ga gl gs gd) {s s' s1 : St K V} (hs : MemSim r s s1) (hc : schedUpdate env s = .ok s') :
    ∃ s1', schedUpdate env1 s1 = .ok s1' ∧ MemSim r s' s1' := by
  simp only [schedUpdate, bind_ok, pure_ok, h s] at hc
  obtain ⟨q, hq, rfl⟩ := hc
  injection hq with hq
  subst hq
  refine ⟨{ s1 with alpha := fun m => ga (s1.alpha m), lamda := gl s1.lamda, sigma := gs s1.sigma, dt := gd s1.dt },
    by simp only [schedUpdate, h1 s1]; rfl, ?_⟩
  exact { hs with
    alpha := by simp only [hs.alpha], lamda := by simp only [hs.lamda], sigma := by simp only [hs.sigma]
    dt := by simp only [hs.dt] }

theorem memSim_init {env env1 : Env K V} {a : Args K V} {r : ℕ} {s : St K V} (hf : env1.f = env.f)
    (hperm : ∀ N c j, env1.perm N c 0 j = env.perm N c r j) (h : memInit env a = .ok s) :
    ∃ s1, memInit env1 (a.single r) = .ok s1 ∧ MemSim r s s1 := by
  simp only [memInit, bind_ok, pure_ok] at h
  obtain ⟨q, h0, rfl⟩ := h
  obtain ⟨q1, h1, hs⟩ := init_sim (cnt := True) (env1 := env1) hperm h0
  refine ⟨_, by simp only [memInit, h1, bind, Except.bind, pure, Except.pure]; rfl, ?_⟩
  exact {
    M1 := hs.M1, N := hs.N, x := fun n _ => congrFun hs.x n, y := fun n _ => congrFun hs.aux1 n, v := fun n _ => congrFun hs.aux2 n
    e := fun n _ => by simp only [callF, Mat.map]; rw [hf, hs.x]
    bestE := hs.bestE, bestP := hs.bestP, fMin := hs.fMin, updDiff := hs.updDiff
    nEval := by simp only [callF]; rw [hs.nEval trivial, hs.N]
    alpha := hs.alpha, lamda := hs.lamda, sigma := hs.sigma, dt := hs.dt, t := hs.t, it := hs.it, terms := hs.terms
    batchSize := hs.batchSize, draws := hs.draws, saveInt := hs.saveInt }

/-- What is known of a step of the run alone, given a step of all runs. -/
def StepSim (env env1 : Env K V) (r : ℕ) (stp stp1 : St K V → Except Err (St K V)) : Prop :=
  ∀ s s' s1, MemPlain s → VShape s → s.active ≠ [] → r < s.M → s.saveInt ≠ 0 → stp s = .ok s' → MemSim r s s1 → MemPlain s1 → VShape s1 → s1.active = [0] →
    StepFrame env s s' ∧ MemPlain s' ∧ VShape s' ∧
      ∃ s1', stp1 s1 = .ok s1' ∧ MemSim r s' s1' ∧ MemPlain s1' ∧ VShape s1' ∧ StepFrame env1 s1 s1'

theorem vshape_select {env : Env K V} {s s' : St K V} (w : VShape s) (h : selectActive env s = .ok s') : VShape s' := by
  rw [select_frame h]; exact w

theorem vshape_sched {env : Env K V} {s s' : St K V} (w : VShape s) (h : schedUpdate env s = .ok s') : VShape s' := by
  rw [sched_frame h]; exact w

theorem optimizeBy_sim {env env1 : Env K V} {r : ℕ} {stp stp1 : St K V → Except Err (St K V)} (hst : StepSim env env1 r stp stp1)
    (hfull : ∀ s s', MemPlain s → s.active ≠ [] → stp s = .ok s' → s.active.length = s.M)
    {ga gl gs gd : K → K} (hl : SchedLocal env ga gl gs gd) (hl1 : SchedLocal env1 ga gl gs gd) :
    ∀ (fuel : ℕ) (s s' s1 : St K V), MemPlain s → VShape s → (∀ tm ∈ s.terms, BuiltIn tm) → r < s.M → s.saveInt ≠ 0 → MemSim r s s1 →
      MemPlain s1 → VShape s1 → optimizeBy env stp fuel s = .done s' → ∃ s1', optimizeBy env1 stp1 fuel s1 = .done s1' ∧ MemSim r s' s1' := by
  intro fuel
  induction fuel with
  | zero => intro s s' s1 _ _ _ _ _ _ _ _ h; exact nomatch h
  | succ fuel ih =>
    intro s s' s1 w wv hb hr hsi hs w1 wv1 h
    simp only [optimizeBy] at h ⊢
    cases h1 : selectActive env s with
    | error e => simp [h1] at h
    | ok a =>
      simp only [h1] at h
      obtain ⟨q', e', es, -⟩ := select_stateless (env := env) (fun tm htm => (hb tm htm).stateless)
      rw [h1] at e'
      injection e' with e'
      subst e'
      obtain ⟨a1, g1, hsa, hra⟩ := memSim_select (env1 := env1) hs hb hr h1
      have wa := memPlain_select w h1
      have wa1 := memPlain_select w1 g1
      have aM : a.M = s.M := by rw [es]
      simp only [g1]
      by_cases h0 : a.active.length = 0
      · rw [if_pos h0] at h
        injection h with h
        subst h
        have : a1.active.length = 0 := by
          rw [List.length_eq_zero_iff, List.eq_nil_iff_forall_not_mem]
          intro m hm
          have hm0 : m = 0 := by
            have := wa1.act.subset hm
            rw [List.mem_range, hsa.M1] at this
            omega
          subst hm0
          have := hra.1 hm
          rw [List.length_eq_zero_iff.1 h0] at this
          simp at this
        rw [if_pos this]
        exact ⟨a1, rfl, hsa⟩
      · rw [if_neg h0] at h
        cases h2 : stp a with
        | error e => simp [h2] at h
        | ok b =>
          simp only [h2] at h
          cases h3 : schedUpdate env b with
          | error e => simp [h3] at h
          | ok c =>
            simp only [h3] at h
            have hne : a.active ≠ [] := fun hc => h0 (by rw [hc]; rfl)
            -- all runs are active, as the step has not raised
            have hm : r ∈ a.active := by
              rw [wa.act.eq_of_length (by rw [hfull a b wa hne h2, List.length_range]), List.mem_range, aM]
              exact hr
            have h01 := hra.2 hm
            have hact1 : a1.active = [0] := by
              have hsub := wa1.act
              rw [hsa.M1] at hsub
              have hle : a1.active.length ≤ 1 := by simpa using hsub.length_le
              match hl : a1.active with
              | [] => rw [hl] at h01; simp at h01
              | [z] => rw [hl] at h01; simp at h01; simp [h01]
              | z :: z' :: l => rw [hl] at hle; simp at hle
            obtain ⟨fb, wb, wvb, b1, k1, k2, k3, k4, k5⟩ := hst a b a1 wa (vshape_select wv h1) hne (by rw [aM]; exact hr) (by rw [es]; exact hsi) h2 hsa wa1
              (vshape_select wv1 g1) hact1
            obtain ⟨c1, k6, k7⟩ := memSim_sched hl hl1 k2 h3
            have fc := sched_frame h3
            obtain ⟨s1', k8, k9⟩ := ih c s' c1 (memPlain_sched wb h3) (vshape_sched wvb h3) (by rw [fc]; simp only; rw [fb.terms, es]; exact hb)
              (by rw [fc]; simp only; rw [fb.M, aM]; exact hr) (by rw [fc]; simp only; rw [fb.saveInt, es]; exact hsi) k7 (memPlain_sched k3 k6) (vshape_sched k4 k6) h
            rw [if_neg (by rw [hact1]; simp)]
            simp only [k1, k6]
            exact ⟨s1', k8, k9⟩

/-- Noise of the run alone. -/
theorem alone_rows (env : Env K V) (r : ℕ) (pos : ℕ → ℕ) (ν : ℕ → K → ℕ → ℕ → V → V) :
    NoiseRows (env.alone r pos ν) (fun c dt _ j => ν c dt (pos c) j) := by
  intro s d hd
  refine ⟨⟨d.rows, d.cols, fun i j => ν s.draws s.dt (pos s.draws) j (d.get i j)⟩, ?_, rfl, rfl, fun i j => rfl⟩
  simp only [Env.alone, hd]

theorem memStep_sim {env : Env K V} (hcorr : env.corr = .none) {g : List (K × Flt K × V) → V} (hg : env.cons = .mean g)
    {ν : ℕ → K → ℕ → ℕ → V → V} (hν : NoiseRows env ν) {p : V → V} (hpm : PostMap env p) (hsc : ∀ s, ∃ q, env.sched s = .ok q) (lm sm : K) (r : ℕ) :
    StepSim env (env.alone r (fun _ => r) ν) r (memStep env lm sm) (memStep (env.alone r (fun _ => r) ν) lm sm) := by
  intro s s' s1 w wv ha hr hsi h hs w1 wv1 hact
  have q := memStep_runs hcorr hg hν hpm w ha h
  have hν1 := alone_rows env r (fun _ => r) ν
  obtain ⟨s1', h1⟩ := memStep_total (env := env.alone r (fun _ => r) ν)
    ⟨hcorr, ⟨g, hg⟩, hν1.ok, fun s => ⟨_, hpm s, rfl, rfl⟩, hsc⟩ lm sm w1 (by rw [hact, hs.M1]; rfl) (by rw [hs.saveInt]; exact hsi)
  have q1 := memStep_runs (env := env.alone r (fun _ => r) ν) hcorr hg hν1 hpm w1 (by rw [hact]; simp) h1
  have par := memSim_par (env := env) (env1 := env.alone r (fun _ => r) ν) (g := g) (ν := ν) (ν1 := fun c dt _ j => ν c dt r j) rfl (fun _ _ => rfl) hs
  have nx := memNext_sim (q := s.runPar env g ν r) (lm := lm) (sm := sm) rfl hs
  refine ⟨q.frame, q.shape, q.vshape wv, s1', h1, ?_, q1.shape, q1.vshape wv1, q1.frame⟩
  refine memSim_step (by rfl) hr w.pos q q1 hs (fun n hn => ?_) (fun n hn => ?_) (fun n hn => ?_) (fun n hn => ?_) <;> simp only [par]
  exacts [(nx n hn).1, (nx n hn).2.1, (nx n hn).2.2.1, (nx n hn).2.2.2]

theorem psoStep_sim {env : Env K V} (hcorr : env.corr = .none) {g : List (K × Flt K × V) → V} (hg : env.cons = .mean g)
    {ν : ℕ → K → ℕ → ℕ → V → V} (hν : NoiseRows env ν) {p : V → V} (hpm : PostMap env p) (hsc : ∀ s, ∃ q, env.sched s = .ok q) (pp : PsoPar K) (r : ℕ) :
    StepSim env (env.alone r (fun _ => r) ν) r (psoStep env pp) (psoStep (env.alone r (fun _ => r) ν) pp) := by
  intro s s' s1 w wv ha hr hsi h hs w1 wv1 hact
  obtain ⟨hz, q⟩ := psoStep_runs hcorr hg hν hpm w wv ha h
  have hν1 := alone_rows env r (fun _ => r) ν
  obtain ⟨s1', h1, -⟩ := psoStep_total (env := env.alone r (fun _ => r) ν)
    ⟨hcorr, ⟨g, hg⟩, hν1.ok, fun s => ⟨_, hpm s, rfl, rfl⟩, hsc⟩ pp w1 wv1 (by rw [hact, hs.M1]; rfl) (by rw [hs.saveInt]; exact hsi) (by rw [hs.dt]; exact hz)
  have q1 := (psoStep_runs (env := env.alone r (fun _ => r) ν) hcorr hg hν1 hpm w1 wv1 (by rw [hact]; simp) h1).2
  have par := memSim_par (env := env) (env1 := env.alone r (fun _ => r) ν) (g := g) (ν := ν) (ν1 := fun c dt _ j => ν c dt r j) rfl (fun _ _ => rfl) hs
  have nx := psoNext_sim (q := s.runPar env g ν r) (p := pp) rfl hs
  refine ⟨q.frame, q.shape, q.vshape wv, s1', h1, ?_, q1.shape, q1.vshape wv1, q1.frame⟩
  refine memSim_step (by rfl) hr w.pos q q1 hs (fun n hn => ?_) (fun n hn => ?_) (fun n hn => ?_) (fun n hn => ?_) <;> simp only [par]
  exacts [(nx n hn).1, (nx n hn).2.1, (nx n hn).2.2.1, (nx n hn).2.2.2]

theorem MemSim.result {r : ℕ} {s s1 : St K V} (h : MemSim r s s1) : SameResult r s s1 :=
  ⟨⟨h.x, h.e, h.bestE, h.bestP, h.fMin⟩, h.nEval⟩

end
end Verif
