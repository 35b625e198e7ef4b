import Verif.Proofs.Best
import Verif.Proofs.Constrained
import Verif.Proofs.Local
import Verif.Proofs.Arrays
import Verif.Spec.Memory

/-! Lemmas about `CBOMemory` and `PSO`. -/

set_option linter.unusedSectionVars false

namespace Verif

section
variable {K V : Type} [Zero K] [One K] [Neg K] [Add K] [Sub K] [Mul K] [Inv K] [Div K] [NatCast K] [Pow K ℕ] [LinearOrder K] [Add V] [Sub V] [SMul K V]

/-! ### Frames -/

theorem memConsensus_frame {env : Env K V} {s s' : St K V} (h : memConsensus env s = .ok s') : s' = { s with cons := s'.cons } := by
  simp only [memConsensus, bind_ok, pure_ok] at h
  obtain ⟨_, _, _, _, _, _, rfl⟩ := h
  rfl

theorem memoryStep_frame {env : Env K V} {lm sm : K} {s s' : St K V} (h : memoryStep env lm sm s = .ok s') :
    s' = { s with drift := s'.drift, draws := s'.draws, x := s'.x } ∧ s'.x.rows = s.x.rows ∧ s'.x.cols = s.x.cols := by
  simp only [memoryStep, bind_ok, pure_ok] at h
  obtain ⟨_, _, _, _, _, _, _, _, _, _, x, hx, rfl⟩ := h
  obtain ⟨-, e1, e2, -⟩ := Mat.scatterAdd_ok hx
  exact ⟨rfl, e1, e2⟩

theorem memUpdate_frame {env : Env K V} {s s' : St K V} (h : memUpdate env s = .ok s') :
    s' = { s with aux1 := s'.aux1, energy := s'.energy, nEval := s'.nEval, log := s'.log } := by
  simp only [memUpdate, bind_ok, pure_ok, evalF, callF] at h
  obtain ⟨_, _, _, _, _, _, _, _, _, _, _, _, _, _, rfl⟩ := h
  rfl

theorem memInner_frame (env : Env K V) (lm sm : K) : InnerFrame (memInner env lm sm) := by
  intro s s' h
  simp only [memInner, bind_ok] at h
  obtain ⟨a, ha, b, hb, c, hc, hd⟩ := h
  have h1 := memConsensus_frame ha
  have h2 := (cboMove_ok env).frame _ _ hb
  have h3 := (memoryStep_frame hc).1
  have h4 := memUpdate_frame hd
  unfold MoveFrame at h2
  rw [h4, h3, h2, h1]

theorem psoVelocity_frame {env : Env K V} {p : PsoPar K} {s s' : St K V} (h : psoVelocity env p s = .ok s') :
    s' = { s with cons := s'.cons, drift := s'.drift, draws := s'.draws, aux2 := s'.aux2, nEval := s'.nEval, log := s'.log } ∧
      ∃ l, s'.log = s.log ++ l ∧ ∀ q ∈ l, q.1 ≠ Site.energy := by
  simp only [psoVelocity, bind_ok] at h
  obtain ⟨_, _, _, _, _, _, _, _, _, _, _, _, _, _, _, _, _, _, _, _, h⟩ := h
  split_ifs at h with hz
  simp only [bind_ok, pure_ok] at h
  obtain ⟨_, _, r, hr, _, _, _, _, _, _, _, _, _, _, rfl⟩ := h
  obtain ⟨e, l, hl, hl'⟩ := correction_facts hr
  refine ⟨?_, l, ?_, hl'⟩
  · simp only
    rw [e]
  · simpa using hl

theorem psoPosition_frame {s s' : St K V} (h : psoPosition s = .ok s') :
    s' = { s with x := s'.x } ∧ s'.x.rows = s.x.rows ∧ s'.x.cols = s.x.cols := by
  simp only [psoPosition, bind_ok, pure_ok] at h
  obtain ⟨_, _, _, _, _, _, x, hx, rfl⟩ := h
  obtain ⟨-, e1, e2, -⟩ := Mat.scatter_ok hx
  exact ⟨rfl, e1, e2⟩

theorem psoUpdate_frame {env : Env K V} {s s' : St K V} (h : psoUpdate env s = .ok s') :
    s' = { s with aux1 := s'.aux1, energy := s'.energy, nEval := s'.nEval, log := s'.log } := by
  simp only [psoUpdate, bind_ok, pure_ok, callF] at h
  obtain ⟨_, _, _, _, _, _, _, _, _, _, _, _, _, _, _, _, rfl⟩ := h
  rfl

theorem psoInner_frame (env : Env K V) (p : PsoPar K) : InnerFrame (psoInner env p) := by
  intro s s' h
  simp only [psoInner, bind_ok] at h
  obtain ⟨a, ha, b, hb, hc⟩ := h
  rw [psoUpdate_frame hc, (psoPosition_frame hb).1, (psoVelocity_frame ha).1]

/-! ### Post step -/

/-- What both post steps do, as far as the energies are concerned. -/
structure BestFacts (env : Env K V) (s s' : St K V) : Prop where
  frame : s' = { s with
    x := s'.x, updDiff := s'.updDiff, fMin := s'.fMin, fMinIdx := s'.fMinIdx, bestCurP := s'.bestCurP
    bestCurE := s'.bestCurE, bestE := s'.bestE, bestP := s'.bestP, hist := s'.hist
    trackIt := s'.trackIt, t := s.t + s.dt, it := s.it + 1 }
  post : env.post s = .ok s'.x
  ecols : s.energy.cols ≠ 0
  fMinIdx : ∀ m, s'.fMinIdx m = Flt.rowArgmin s.energy.cols (s.energy.get m)
  bestE : ∀ m, s'.bestE m = if Flt.gt (s.bestE m) (s.energy.get m (s'.fMinIdx m)) then s.energy.get m (s'.fMinIdx m) else s.bestE m

theorem postStep_best {env : Env K V} {s s' : St K V} (h : postStep env s = .ok s') : BestFacts env s s' := by
  have f := postStep_facts h
  refine ⟨f.frame, f.post, f.ecols, f.fMinIdx, fun m => ?_⟩
  rw [f.bestE m, f.bestCurE m]

theorem updateDiff_frame {env : Env K V} {s s' : St K V} (h : updateDiff env s = .ok s') : s' = { s with updDiff := s'.updDiff } := by
  unfold updateDiff at h
  split at h
  · rw [pure_ok] at h; subst h; rfl
  · simp only [bind_ok, pure_ok] at h
    obtain ⟨_, _, rfl⟩ := h
    rfl

theorem track_frame {s s' : St K V} (h : track s = .ok s') : s' = { s with hist := s'.hist, trackIt := s'.trackIt } := by
  unfold track at h
  split_ifs at h
  · rw [pure_ok] at h; subst h; rfl
  · rw [pure_ok] at h; subst h; rfl

theorem memPostStep_best {env : Env K V} {s s' : St K V} (h : memPostStep env s = .ok s') : BestFacts env s s' := by
  simp only [memPostStep, bind_ok] at h
  obtain ⟨x, hx, s1, h1, s2, h2, s3, h3, h4⟩ := h
  rw [pure_ok] at h4
  unfold memBestCur at h2
  split_ifs at h2 with hc
  rw [pure_ok] at h2
  have f1 := updateDiff_frame h1
  have f3 := track_frame h3
  rw [f1] at h2 hc
  rw [← h2] at f3
  rw [f3] at h4
  rw [← h4]
  exact ⟨rfl, hx, hc, fun _ => rfl, fun _ => rfl⟩

theorem memPostStep_bestP {env : Env K V} {s s' : St K V} (h : memPostStep env s = .ok s') (m : ℕ) :
    s'.bestP m = if Flt.gt (s.bestE m) (s'.energy.get m (s'.fMinIdx m)) then s'.x.get m (s'.fMinIdx m) else s.bestP m := by
  simp only [memPostStep, bind_ok] at h
  obtain ⟨x, hx, s1, h1, s2, h2, s3, h3, h4⟩ := h
  rw [pure_ok] at h4
  unfold memBestCur at h2
  split_ifs at h2 with hc
  rw [pure_ok] at h2
  have f1 := updateDiff_frame h1
  have f3 := track_frame h3
  rw [f1] at h2 hc
  rw [← h2] at f3
  rw [f3] at h4
  rw [← h4]
  rfl

theorem memStep_bestP {env : Env K V} {lm sm : K} {s s' : St K V} (h : memStep env lm sm s = .ok s') (m : ℕ) :
    s'.bestP m = if Flt.gt (s.bestE m) (s'.energy.get m (s'.fMinIdx m)) then s'.x.get m (s'.fMinIdx m) else s.bestP m := by
  simp only [memStep, bind_ok] at h
  obtain ⟨v, h1, h2⟩ := h
  rw [memPostStep_bestP h2 m, memInner_frame env lm sm _ _ h1, preStep_frame]

/-! ### Steps -/

/-- A step made of `preStep`, an inner step and a post step as above. -/
structure StepShape (env : Env K V) (inner : St K V → Except Err (St K V)) (s s' : St K V) : Prop where
  split : ∃ v, inner (preStep env s) = .ok v ∧ BestFacts env v s'

theorem memStep_shape {env : Env K V} {lm sm : K} {s s' : St K V} (h : memStep env lm sm s = .ok s') :
    StepShape env (memInner env lm sm) s s' := by
  simp only [memStep, bind_ok] at h
  obtain ⟨v, h1, h2⟩ := h
  exact ⟨v, h1, memPostStep_best h2⟩

theorem psoStep_shape {env : Env K V} {p : PsoPar K} {s s' : St K V} (h : psoStep env p s = .ok s') :
    StepShape env (psoInner env p) s s' := by
  obtain ⟨v, h1, h2⟩ := step_split.1 h
  exact ⟨v, h1, postStep_best h2⟩

end

section
variable {K V : Type} [Zero K] [One K] [Neg K] [Add K] [Sub K] [Mul K] [Inv K] [Div K] [NatCast K] [Pow K ℕ] [LinearOrder K] [Add V] [Sub V] [SMul K V]

theorem add_maskMul [MaskExact K V] (b : Bool) (x y : V) : y + maskMul (K := K) b (x - y) = if b then x else y := by
  unfold maskMul
  cases b <;> simp [MaskExact.take, MaskExact.keep]

theorem gatherIdx_total {M N : ℕ} {α : Type} {a : Mat α} {ix : Idx} (h1 : a.rows = M) (h2 : a.cols = N) (h : ix.InBounds M N) :
    ∃ r : Mat α, a.gather ix = .ok r ∧ r.rows = ix.rows ∧ r.cols = ix.cols :=
  ⟨_, Mat.gather_of_inBounds (by rw [h1, h2]; exact h), rfl, rfl⟩

theorem bin_cols_error {α β γ : Type} (f : α → β → γ) {a : Mat α} {b : Mat β} (h1 : a.cols ≠ b.cols) (h2 : a.cols ≠ 1) (h3 : b.cols ≠ 1) :
    Mat.bin f a b = .error .value := by
  unfold Mat.bin
  have : Mat.bdim a.cols b.cols = none := by simp [Mat.bdim, h1, h2, h3]
  rw [this]
  cases Mat.bdim a.rows b.rows <;> rfl

/-- A batch of more than one and fewer than all particles: the consensus raises. -/
theorem memConsensus_batch_error {env : Env K V} {s : St K V} (er : s.energy.rows = s.M) (ec : s.energy.cols = s.N) (yr : s.aux1.rows = s.M)
    (yc : s.aux1.cols = s.N) (hin : s.cIdx.InBounds s.M s.N) (h1 : s.cIdx.cols ≠ 1) (h2 : s.cIdx.cols ≠ s.N) (h3 : s.N ≠ 1) :
    memConsensus env s = .error .value := by
  obtain ⟨yb, e1, a1, a2⟩ := gatherIdx_total yr yc hin
  simp only [memConsensus, e1, bind, Except.bind]
  cases hq : Mat.bin (fun (a : K) (e : Flt K) => (a, e)) (alphaActive s) s.energy with
  | error e =>
    simp only
    unfold Mat.bin at hq
    split at hq
    · cases hq
    · injection hq with hq
      rw [← hq]
  | ok q =>
    have hc : q.cols = s.N := by
      unfold Mat.bin at hq
      split at hq
      · rename_i r c hr hc
        injection hq with hq
        subst hq
        have : Mat.bdim 1 s.energy.cols = some c := hc
        rw [Mat.bdim_one_left, ec] at this
        simpa using this.symm
      · cases hq
    simp only
    rw [bin_cols_error _ (by rw [hc, a2]; exact fun h => h2 h.symm) (by rw [hc]; exact h3) (by rw [a2]; exact h1)]

/-- A batch of fewer than all particles: the step raises unless the batch has one particle. -/
theorem memStep_batch_error {env : Env K V} (hp : PermOK env) (lm sm : K) {s : St K V} (hw : WF s) (yr : s.aux1.rows = s.M)
    (yc : s.aux1.cols = s.N) (hb : s.batched = true) (h1 : 1 < s.batchSize) : memStep env lm sm s = .error .value := by
  have pf := preStep_frame env s
  have ix := preStep_idx env hp hw
  have hlt := (hw.bat hb).1
  have hM : (preStep env s).M = s.M := by rw [pf]
  have hN : (preStep env s).N = s.N := by rw [pf]
  have := memConsensus_batch_error (env := env) (s := preStep env s) (by rw [hM, ← hw.er, pf]) (by rw [hN, ← hw.ec, pf]) (by rw [hM, ← yr, pf])
    (by rw [hN, ← yc, pf]) (by rw [hM, hN]; exact ix.cIn) (by rw [ix.cCols]; omega) (by rw [ix.cCols, hN]; omega) (by rw [hN]; omega)
  simp only [memStep, memInner, this, bind, Except.bind]

/-- The update of the historical best positions raises if one particle of at least two is moved. -/
theorem memUpdate_one_error {env : Env K V} {s : St K V} (ec : s.energy.cols = s.N) (h1 : s.pIdx.cols = 1) (h2 : s.N ≠ 1) (s' : St K V) :
    memUpdate env s ≠ .ok s' := by
  intro h
  simp only [memUpdate, evalF, callF, bind_ok, pure_ok] at h
  obtain ⟨xp, hx, b, hbn, yp, hy, d, hd, u, hu, y, hs, -⟩ := h
  have x1 : xp.cols = 1 := by
    unfold Mat.gather at hx
    split_ifs at hx
    injection hx with hx
    rw [← hx]; exact h1
  have y1 : yp.cols = 1 := by
    unfold Mat.gather at hy
    split_ifs at hy
    injection hy with hy
    rw [← hy]; exact h1
  have hcols : ∀ {α β γ : Type} {f : α → β → γ} {p : Mat α} {q : Mat β} {r : Mat γ}, Mat.bin f p q = .ok r → q.cols = 1 → r.cols = p.cols := by
    intro α β γ f p q r h hq
    unfold Mat.bin at h
    split at h
    · rename_i r' c hr hc
      injection h with h
      subst h
      rw [hq, Mat.bdim_one_right] at hc
      simpa using hc.symm
    · cases h
  have b1 : b.cols = s.N := by rw [← ec]; exact hcols hbn x1
  have d1 : d.cols = 1 := (hcols hd y1).trans x1
  have u1 : u.cols = s.N := (hcols hu d1).trans b1
  unfold Mat.scatterAdd at hs
  split at hs
  · cases hs
  · rename_i g hg
    have g1 : g.cols = 1 := by
      unfold Mat.gather at hg
      split_ifs at hg
      injection hg with hg
      rw [← hg]; exact h1
    have : Mat.bto g.rows g.cols u = .error .value := by
      unfold Mat.bto
      rw [if_neg]
      rw [g1, u1]
      rintro ⟨-, h | h⟩ <;> exact h2 h
    rw [this] at hs
    cases hs

theorem memStep_partial_error {env : Env K V} (hp : PermOK env) (lm sm : K) {s : St K V} (hw : WF s) (hb : s.batched = true)
    (hpa : s.batchPartial = true) (h1 : s.batchSize = 1) (s' : St K V) : memStep env lm sm s ≠ .ok s' := by
  intro h
  simp only [memStep, memInner, bind_ok] at h
  obtain ⟨v, ⟨a, ha, b, hb', c, hc, hv⟩, -⟩ := h
  have pf := preStep_frame env s
  have ix := preStep_idx env hp hw
  have af := memConsensus_frame ha
  have bf := (cboMove_ok env).frame _ _ hb'
  unfold MoveFrame at bf
  have cf := (memoryStep_frame hc).1
  have hlt := (hw.bat hb).1
  refine memUpdate_one_error (s := c) ?_ ?_ ?_ _ hv
  · rw [cf]; simp only; rw [bf]; simp only; rw [af]; simp only; rw [pf]; exact hw.ec
  · have : c.pIdx = (preStep env s).pIdx := by rw [cf]; simp only; rw [bf]; simp only; rw [af]
    rw [this, (preStep_pIdx env s hw).1 hb hpa, ix.cCols, h1]
  · have : c.N = s.N := by rw [cf]; simp only; rw [bf]; simp only; rw [af]; simp only; rw [pf]
    rw [this]; omega

/-- The last part of a step of `PSO` raises if fewer than all particles are moved. -/
theorem psoUpdate_partial_error {env : Env K V} {s : St K V} (ec : s.energy.cols = s.N) (h1 : s.pIdx.cols < s.N) (h0 : s.pIdx.cols ≠ 0) (s' : St K V) :
    psoUpdate env s ≠ .ok s' := by
  intro h
  simp only [psoUpdate, callF, bind_ok, pure_ok] at h
  obtain ⟨xp, hx, yp, hy, b, hbn, d, hd, u, hu, y, hy', z, hz, -⟩ := h
  have gc : ∀ {α : Type} {a r : Mat α}, a.gather s.pIdx = .ok r → r.cols = s.pIdx.cols := by
    intro α a r h
    unfold Mat.gather at h
    split_ifs at h
    injection h with h
    rw [← h]
  have x1 := gc hx
  have y1 := gc hy
  by_cases hc : s.pIdx.cols = 1
  · have hcols : ∀ {α β γ : Type} {f : α → β → γ} {p : Mat α} {q : Mat β} {r : Mat γ}, Mat.bin f p q = .ok r → q.cols = 1 → r.cols = p.cols := by
      intro α β γ f p q r h hq
      unfold Mat.bin at h
      split at h
      · rename_i r' c hr hc
        injection h with h
        subst h
        rw [hq, Mat.bdim_one_right] at hc
        simpa using hc.symm
      · cases h
    have b1 : b.cols = s.N := by rw [← ec]; exact hcols hbn (x1.trans hc)
    have d1 : d.cols = 1 := (hcols hd (y1.trans hc)).trans (x1.trans hc)
    have u1 : u.cols = s.N := (hcols hu d1).trans b1
    have w1 : y.cols = s.N := by
      unfold Mat.bin at hy'
      split at hy'
      · rename_i r' c hr hc'
        injection hy' with hy'
        subst hy'
        rw [y1, hc, Mat.bdim_one_left, u1] at hc'
        simpa using hc'.symm
      · cases hy'
    unfold Mat.scatter at hz
    split_ifs at hz
    have : Mat.bto s.pIdx.rows s.pIdx.cols y = .error .value := by
      unfold Mat.bto
      rw [if_neg]
      rw [w1, hc]
      rintro ⟨-, h | h⟩ <;> omega
    rw [this] at hz
    cases hz
  · rw [bin_cols_error _ (by rw [ec]; show s.N ≠ xp.cols; omega) (by rw [ec]; omega) (by show xp.cols ≠ 1; omega)] at hbn
    cases hbn

theorem psoStep_partial_error {env : Env K V} (hp : PermOK env) (p : PsoPar K) {s : St K V} (hw : WF s) (hb : s.batched = true)
    (hpa : s.batchPartial = true) (h1 : 1 ≤ s.batchSize) (s' : St K V) : psoStep env p s ≠ .ok s' := by
  intro h
  obtain ⟨v, hv, -⟩ := step_split.1 h
  simp only [psoInner, bind_ok] at hv
  obtain ⟨a, ha, b, hb', hv⟩ := hv
  have pf := preStep_frame env s
  have ix := preStep_idx env hp hw
  have af := (psoVelocity_frame ha).1
  have bf := (psoPosition_frame hb').1
  have hlt := (hw.bat hb).1
  have e1 : b.pIdx = (preStep env s).pIdx := by rw [bf]; simp only; rw [af]
  have e2 : b.N = s.N := by rw [bf]; simp only; rw [af]; simp only; rw [pf]
  have e3 : b.pIdx.cols = s.batchSize := by rw [e1, (preStep_pIdx env s hw).1 hb hpa, ix.cCols]
  refine psoUpdate_partial_error (s := b) ?_ ?_ ?_ _ hv
  · rw [e2, bf]; simp only; rw [af]; simp only; rw [pf]; exact hw.ec
  · rw [e3, e2]; exact hlt
  · rw [e3]; omega

/-! ### Which particles are moved -/

theorem MemShape.wf {s : St K V} (w : MemShape s) : WF s :=
  ⟨w.xr, w.xc, w.er, w.ec, w.pos, w.act, w.pool.1, fun h => (w.pool.2 h).2⟩

/-- An index array that selects all particles of the listed runs. -/
structure Sweep (ix : Idx) (act : List ℕ) (N : ℕ) : Prop where
  rows : ix.rows = act.length
  cols : ix.cols = N
  run : ∀ i < act.length, ix.run i = act.getD i 0
  par : ∀ i j, ix.par i j = j

theorem sweep_pre {env : Env K V} {s : St K V} (hw : WF s) (hm : s.batched = false ∨ s.batchPartial = false) :
    Sweep (preStep env s).pIdx s.active s.N := by
  obtain ⟨-, h2, h3⟩ := preStep_pIdx env s hw
  cases hb : s.batched with
  | false =>
    obtain ⟨-, a, b, c, d⟩ := h3 hb
    exact ⟨a, b, c, d⟩
  | true =>
    rw [h2 hb (hm.resolve_left (by simp [hb]))]
    exact ⟨rfl, rfl, fun _ _ => rfl, fun _ _ => rfl⟩

theorem sweep_all {M N : ℕ} : Sweep (Idx.all M N) (List.range M) N :=
  ⟨by simp [Idx.all], rfl, fun i hi => by rw [List.length_range] at hi; simp [Idx.all, hi], fun _ _ => rfl⟩

/-- A step of `CBOMemory` that does not raise moves all particles. -/
theorem mem_moves {env : Env K V} (hp : PermOK env) {lm sm : K} {s s' : St K V} (w : MemShape s) (h : memStep env lm sm s = .ok s') :
    s.batched = false ∨ s.batchPartial = false := by
  by_contra hc
  push Not at hc
  have hb : s.batched = true := by simpa using hc.1
  have h0 := (w.pool.2 hb).1
  rcases Nat.lt_or_ge 1 s.batchSize with h1 | h1
  · rw [memStep_batch_error hp lm sm w.wf w.yr w.yc hb h1] at h
    cases h
  · exact memStep_partial_error hp lm sm w.wf hb (by simpa using hc.2) (by omega) s' h

/-- A step of `PSO` that does not raise moves all particles. -/
theorem pso_moves {env : Env K V} (hp : PermOK env) {p : PsoPar K} {s s' : St K V} (w : MemShape s) (h : psoStep env p s = .ok s') :
    s.batched = false ∨ s.batchPartial = false := by
  by_contra hc
  push Not at hc
  have hb : s.batched = true := by simpa using hc.1
  exact psoStep_partial_error hp p w.wf hb (by simpa using hc.2) (w.pool.2 hb).1 s' h

/-- The pool after a step. -/
theorem poolOK_step {env : Env K V} {s s' : St K V} (hp : PermOK env ∨ s.batched = false) (w : MemShape s) (fr : StepFrame env s s') : PoolOK s' := by
  refine ⟨fun h => ?_, fun h => ?_⟩
  · rw [fr.batched] at h
    rw [fr.batchSize, fr.N]; exact w.pool.1 h
  · rw [fr.batched] at h
    obtain ⟨i1, i2⟩ := preStep_pool env (hp.resolve_right (by simp [h])) w.wf h
    rw [fr.batchSize, fr.N, fr.M, fr.indices]
    exact ⟨(w.pool.2 h).1, (w.pool.2 h).2.1, i1, i2⟩

theorem entries_congr {α : Type} {a b : Mat α} {r r' : ℕ → ℕ} (h1 : a.rows = b.rows) (h2 : a.cols = b.cols) (h3 : ∀ i < b.rows, r i = r' i)
    (h4 : ∀ i < b.rows, ∀ j < b.cols, a.get i j = b.get i j) : a.entries r = b.entries r' := by
  unfold Mat.entries
  rw [h1, h2]
  refine List.flatMap_congr fun i hi => List.map_congr_left fun j hj => ?_
  rw [List.mem_range] at hi hj
  rw [h3 i hi, h4 i hi j hj]

/-- What the end of the inner step does to the historical bests, given the shapes. -/
structure Remember (env : Env K V) (s s' : St K V) : Prop where
  full : s.active.length = s.M
  yr : s'.aux1.rows = s.aux1.rows
  yc : s'.aux1.cols = s.aux1.cols
  er : s'.energy.rows = s.M
  ec : s'.energy.cols = s.N
  y : ∀ m < s.M, ∀ n < s.N, s'.aux1.get m n =
    s.aux1.get m n + maskMul (K := K) (Flt.gt (s.energy.get m n) (env.f (s.x.get m n))) (s.x.get m n - s.aux1.get m n)
  e : ∀ m < s.M, ∀ n < s.N, s'.energy.get m n = Flt.minimum (s.energy.get m n) (env.f (s.x.get m n))
  log : s'.log = s.log ++ (s.x.entries id).map fun q => (Site.energy, q.1, q.2)
  x : s'.x = s.x

theorem Remember.exact [MaskExact K V] {env : Env K V} {s s' : St K V} (h : Remember env s s') : ∀ m < s.M, ∀ n < s.N, s'.aux1.get m n =
    if Flt.gt (s.energy.get m n) (env.f (s.x.get m n)) then s.x.get m n else s.aux1.get m n := fun m hm n hn => by
  rw [h.y m hm n hn, add_maskMul]

theorem rows_full {M k r u : ℕ} (hk : k ≠ 0) (hkM : k ≤ M) (h1 : Mat.bdim M k = some r) (h2 : Mat.bdim r k = some u)
    (h3 : u = k ∨ u = 1) : k = M := by
  rcases Nat.eq_or_lt_of_le hkM with h | h
  · exact h
  · exfalso
    have h1' : k = 1 ∧ r = M := by
      unfold Mat.bdim at h1
      split_ifs at h1 with a b c
      · omega
      · omega
      · exact ⟨c, by injection h1 with h1; exact h1.symm⟩
    obtain ⟨rfl, rfl⟩ := h1'
    rw [Mat.bdim_one_right] at h2
    injection h2 with h2
    omega

theorem gather_all {α : Type} {a r : Mat α} {M N : ℕ} (h : a.gather (Idx.all M N) = .ok r) (hr : a.rows = M) (hc : a.cols = N) : r = a := by
  obtain ⟨-, e1, e2, e3⟩ := Mat.gather_ok h
  cases a with
  | mk ar ac ag =>
    cases r with
    | mk rr rc rg =>
      simp only [Idx.all] at *
      subst hr hc e1 e2
      congr
      funext i j
      exact e3 i j

/-- The state between the move and the memory update. -/
structure MidShape (s : St K V) : Prop where
  xr : s.x.rows = s.M
  xc : s.x.cols = s.N
  er : s.energy.rows = s.M
  ec : s.energy.cols = s.N
  yr : s.aux1.rows = s.M
  yc : s.aux1.cols = s.N
  act : s.active.Sublist (List.range s.M)
  sweep : Sweep s.pIdx s.active s.N

theorem MidShape.le {s : St K V} (h : MidShape s) : s.active.length ≤ s.M := by
  simpa using h.act.length_le

theorem MidShape.run {s : St K V} (w : MidShape s) (full : s.active.length = s.M) {i : ℕ} (hi : i < s.M) : s.pIdx.run i = i := by
  rw [w.sweep.run i (by rw [full]; exact hi), w.act.eq_of_length (by rw [List.length_range, full])]
  simp [hi]

theorem MidShape.sel {s : St K V} (w : MidShape s) (full : s.active.length = s.M) {m n : ℕ} (hm : m < s.M) (hn : n < s.N) : s.pIdx.Sel m n :=
  ⟨m, by rw [w.sweep.rows, full]; exact hm, n, by rw [w.sweep.cols]; exact hn, w.run full hm, w.sweep.par m n⟩

theorem MidShape.gather {s : St K V} (w : MidShape s) (full : s.active.length = s.M) {α : Type} {a r : Mat α} (h : a.gather s.pIdx = .ok r) :
    r.rows = s.M ∧ r.cols = s.N ∧ ∀ i < s.M, ∀ j, r.get i j = a.get i j := by
  obtain ⟨-, e1, e2, e3⟩ := Mat.gather_ok h
  refine ⟨by rw [e1, w.sweep.rows, full], by rw [e2, w.sweep.cols], fun i hi j => ?_⟩
  rw [e3, w.run full hi, w.sweep.par]

theorem sel_all {M N m n : ℕ} (hm : m < M) (hn : n < N) : (Idx.all M N).Sel m n := ⟨m, hm, n, hn, rfl, rfl⟩

theorem memUpdate_remember {env : Env K V} {s s' : St K V} (w : MidShape s) (ha : s.active ≠ []) (h : memUpdate env s = .ok s') :
    Remember env s s' := by
  have hk : s.active.length ≠ 0 := by simpa using ha
  simp only [memUpdate, bind_ok, pure_ok, evalF, callF] at h
  obtain ⟨xp, hxp, b, hb, yp, hyp, d, hd, u, hu, y, hy, en, hen, rfl⟩ := h
  have hpr := w.sweep.rows
  have full : s.active.length = s.M := by
    obtain ⟨-, x1, x2, x3⟩ := Mat.gather_ok hxp
    obtain ⟨-, y1, y2, y3⟩ := Mat.gather_ok hyp
    obtain ⟨b1, -, -⟩ := Mat.bin_ok hb
    obtain ⟨d1, -, -⟩ := Mat.bin_ok hd
    obtain ⟨u1, -, -⟩ := Mat.bin_ok hu
    obtain ⟨-, -, -, -, -, z1, -⟩ := Mat.scatterAdd_ok hy
    simp only [Mat.map] at b1
    rw [w.er, x1, hpr] at b1
    rw [x1, y1, Mat.bdim_self, hpr] at d1
    injection d1 with d1
    rw [← d1] at u1
    rw [hpr] at z1
    exact rows_full hk w.le b1 u1 z1
  obtain ⟨xr, xc, xg⟩ := w.gather full hxp
  obtain ⟨yr, yc, yg⟩ := w.gather full hyp
  have hrows : s.pIdx.rows = s.M := by rw [hpr, full]
  obtain ⟨b1, b2, b3⟩ := Mat.bin_ok hb
  obtain ⟨d1, d2, d3⟩ := Mat.bin_ok hd
  obtain ⟨u1, u2, u3⟩ := Mat.bin_ok hu
  obtain ⟨-, z1, z2, -, z3, -, -⟩ := Mat.scatterAdd_ok hy
  obtain ⟨e1, e2, e3⟩ := Mat.bin_ok hen
  simp only [Mat.map] at b1 b2 b3 e1 e2 e3
  rw [w.er, xr, Mat.bdim_self] at b1 e1
  rw [w.ec, xc, Mat.bdim_self] at b2 e2
  rw [xr, yr, Mat.bdim_self] at d1
  rw [xc, yc, Mat.bdim_self] at d2
  injection b1 with b1; injection b2 with b2; injection d1 with d1; injection d2 with d2
  injection e1 with e1; injection e2 with e2
  rw [← b1, ← d1, Mat.bdim_self] at u1
  rw [← b2, ← d2, Mat.bdim_self] at u2
  injection u1 with u1; injection u2 with u2
  refine ⟨full, z1, z2, e1.symm, e2.symm, ?_, ?_, ?_, rfl⟩
  · intro m hm n hn
    obtain ⟨i, hi, j, hj, hri, hpj, hg⟩ := z3 m n (w.sel full hm hn)
    rw [hrows] at hi
    rw [w.sweep.cols] at hj
    rw [w.run full hi] at hri
    rw [w.sweep.par] at hpj
    subst hri hpj
    simp only
    rw [hg, ← u1, ← u2, Mat.bpos_lt hi, Mat.bpos_lt hj, u3, ← b1, ← b2, ← d1, ← d2, Mat.bpos_lt hi, Mat.bpos_lt hj, b3, d3, xr, xc,
      yr, yc, w.er, w.ec, Mat.bpos_lt hi, Mat.bpos_lt hj, yg i hi, xg i hi]
  · intro m hm n hn
    simp only
    rw [e3, xr, xc, w.er, w.ec, Mat.bpos_lt hm, Mat.bpos_lt hn, xg m hm]
  · simp only
    rw [entries_congr (a := xp) (b := s.x) (r := s.pIdx.run) (r' := id) (by rw [xr, w.xr]) (by rw [xc, w.xc]) (fun i hi => w.run full (by rw [← w.xr]; exact hi))
      (fun i hi j _ => xg i (by rw [← w.xr]; exact hi) j)]

theorem psoUpdate_remember {env : Env K V} {s s' : St K V} (w : MidShape s) (ha : s.active ≠ []) (h : psoUpdate env s = .ok s') :
    Remember env s s' := by
  have hk : s.active.length ≠ 0 := by simpa using ha
  simp only [psoUpdate, bind_ok, pure_ok, callF] at h
  obtain ⟨xp, hxp, yp, hyp, b, hb, d, hd, u, hu, t, ht, y, hy, en, hen, rfl⟩ := h
  have hpr := w.sweep.rows
  have full : s.active.length = s.M := by
    obtain ⟨-, x1, x2, x3⟩ := Mat.gather_ok hxp
    obtain ⟨-, y1, y2, y3⟩ := Mat.gather_ok hyp
    obtain ⟨b1, -, -⟩ := Mat.bin_ok hb
    obtain ⟨d1, -, -⟩ := Mat.bin_ok hd
    obtain ⟨u1, -, -⟩ := Mat.bin_ok hu
    obtain ⟨t1, -, -⟩ := Mat.bin_ok ht
    obtain ⟨-, -, -, -, -, z1, -⟩ := Mat.scatter_ok hy
    simp only [Mat.map] at b1
    rw [w.er, x1, hpr] at b1
    rw [x1, y1, Mat.bdim_self, hpr] at d1
    injection d1 with d1
    rw [← d1] at u1
    rw [hpr] at z1
    rw [y1, hpr] at t1
    have u1' := u1
    by_contra hne
    have hlt : s.active.length < s.M := lt_of_le_of_ne w.le hne
    have h1 : s.active.length = 1 ∧ b.rows = s.M := by
      unfold Mat.bdim at b1
      split_ifs at b1 with a b c
      · omega
      · omega
      · exact ⟨c, by injection b1 with b1; exact b1.symm⟩
    rw [h1.1, Mat.bdim_one_right] at u1
    injection u1 with u1
    rw [h1.1, Mat.bdim_one_left] at t1
    injection t1 with t1
    omega
  obtain ⟨xr, xc, xg⟩ := w.gather full hxp
  obtain ⟨yr, yc, yg⟩ := w.gather full hyp
  have hrows : s.pIdx.rows = s.M := by rw [hpr, full]
  obtain ⟨b1, b2, b3⟩ := Mat.bin_ok hb
  obtain ⟨d1, d2, d3⟩ := Mat.bin_ok hd
  obtain ⟨u1, u2, u3⟩ := Mat.bin_ok hu
  obtain ⟨t1, t2, t3⟩ := Mat.bin_ok ht
  obtain ⟨-, z1, z2, -, z3, -, -⟩ := Mat.scatter_ok hy
  obtain ⟨e1, e2, e3⟩ := Mat.bin_ok hen
  simp only [Mat.map] at b1 b2 b3 e1 e2 e3
  rw [w.er, xr, Mat.bdim_self] at b1 e1
  rw [w.ec, xc, Mat.bdim_self] at b2 e2
  rw [xr, yr, Mat.bdim_self] at d1
  rw [xc, yc, Mat.bdim_self] at d2
  injection b1 with b1; injection b2 with b2; injection d1 with d1; injection d2 with d2
  injection e1 with e1; injection e2 with e2
  rw [← b1, ← d1, Mat.bdim_self] at u1
  rw [← b2, ← d2, Mat.bdim_self] at u2
  injection u1 with u1; injection u2 with u2
  rw [yr, ← u1, Mat.bdim_self] at t1
  rw [yc, ← u2, Mat.bdim_self] at t2
  injection t1 with t1; injection t2 with t2
  refine ⟨full, z1, z2, e1.symm, e2.symm, ?_, ?_, ?_, rfl⟩
  · intro m hm n hn
    obtain ⟨i, hi, j, hj, hri, hpj, hg⟩ := z3 m n (w.sel full hm hn)
    rw [hrows] at hi
    rw [w.sweep.cols] at hj
    rw [w.run full hi] at hri
    rw [w.sweep.par] at hpj
    subst hri hpj
    simp only
    rw [hg, ← t1, ← t2, Mat.bpos_lt hi, Mat.bpos_lt hj, t3, ← u1, ← u2, yr, yc, Mat.bpos_lt hi, Mat.bpos_lt hj, u3, ← b1, ← b2, ← d1, ← d2,
      Mat.bpos_lt hi, Mat.bpos_lt hj, b3, d3, xr, xc, yr, yc, w.er, w.ec, Mat.bpos_lt hi, Mat.bpos_lt hj, yg i hi, xg i hi]
  · intro m hm n hn
    simp only
    rw [e3, xr, xc, w.er, w.ec, Mat.bpos_lt hm, Mat.bpos_lt hn, xg m hm]
  · simp only
    rw [entries_congr (a := xp) (b := s.x) (r := s.pIdx.run) (r' := id) (by rw [xr, w.xr]) (by rw [xc, w.xc]) (fun i hi => w.run full (by rw [← w.xr]; exact hi))
      (fun i hi j _ => xg i (by rw [← w.xr]; exact hi) j)]

/-- One successful step of a memory dynamic: the ensemble `X` is evaluated and remembered. -/
structure HistStep (env : Env K V) (s s' : St K V) (X : Mat V) : Prop where
  full : s.active.length = s.M
  frame : StepFrame env s s'
  Xr : X.rows = s.M
  Xc : X.cols = s.N
  shape : MemShape s'
  y : ∀ m < s.M, ∀ n < s.N, s'.aux1.get m n =
    s.aux1.get m n + maskMul (K := K) (Flt.gt (s.energy.get m n) (env.f (X.get m n))) (X.get m n - s.aux1.get m n)
  e : ∀ m < s.M, ∀ n < s.N, s'.energy.get m n = Flt.minimum (s.energy.get m n) (env.f (X.get m n))
  log : s'.log.filter (fun q => decide (q.1 = Site.energy)) =
    s.log.filter (fun q => decide (q.1 = Site.energy)) ++ (X.entries id).map fun q => (Site.energy, q.1, q.2)
  fMinIdx : ∀ m, s'.fMinIdx m = Flt.rowArgmin s'.energy.cols (s'.energy.get m)
  bestE : ∀ m, s'.bestE m = if Flt.gt (s.bestE m) (s'.energy.get m (s'.fMinIdx m)) then s'.energy.get m (s'.fMinIdx m) else s.bestE m
  post : ∃ v : St K V, v.x = X ∧ env.post v = .ok s'.x

theorem HistStep.exact [MaskExact K V] {env : Env K V} {s s' : St K V} {X : Mat V} (h : HistStep env s s' X) : ∀ m < s.M, ∀ n < s.N, s'.aux1.get m n =
    if Flt.gt (s.energy.get m n) (env.f (X.get m n)) then X.get m n else s.aux1.get m n := fun m hm n hn => by
  rw [h.y m hm n hn, add_maskMul]

theorem filter_energy_none {l : List (Site × ℕ × V)} (h : ∀ q ∈ l, q.1 ≠ Site.energy) :
    l.filter (fun q => decide (q.1 = Site.energy)) = [] := by
  rw [List.filter_eq_nil_iff]
  intro q hq
  simpa using h q hq

theorem filter_energy_all (X : Mat V) (run : ℕ → ℕ) :
    ((X.entries run).map fun q => (Site.energy, q.1, q.2)).filter (fun q => decide (q.1 = Site.energy)) =
      (X.entries run).map fun q => (Site.energy, q.1, q.2) := by
  rw [List.filter_eq_self]
  intro q hq
  obtain ⟨a, _, rfl⟩ := List.mem_map.1 hq
  simp

/-- The common shape of both inner steps: a move that neither touches the memory nor evaluates energies, then the memory update. -/
structure MoveThen (inner : St K V → Except Err (St K V)) (upd : St K V → Except Err (St K V)) : Prop where
  split : ∀ s s', inner s = .ok s' → ∃ v, upd v = .ok s' ∧
    (v = { s with x := v.x, drift := v.drift, draws := v.draws, aux2 := v.aux2, nEval := v.nEval, log := v.log, cons := v.cons }) ∧
    v.x.rows = s.x.rows ∧ v.x.cols = s.x.cols ∧ ∃ l, v.log = s.log ++ l ∧ ∀ q ∈ l, q.1 ≠ Site.energy

theorem mem_moveThen (env : Env K V) (lm sm : K) : MoveThen (memInner env lm sm) (memUpdate env) := by
  constructor
  intro s s' h
  simp only [memInner, bind_ok] at h
  obtain ⟨a, ha, b, hb, c, hc, hd⟩ := h
  have h1 := memConsensus_frame ha
  have h2 := (cboMove_ok env).frame _ _ hb
  obtain ⟨h3, r3, c3⟩ := memoryStep_frame hc
  obtain ⟨l, hl, hl'⟩ := (cboMove_ok env).log _ _ hb
  have r2 := (cboMove_ok env).rows _ _ hb
  have c2 := (cboMove_ok env).cols _ _ hb
  have y2 : b.aux1 = a.aux1 := by
    unfold cboMove at hb
    split at hb
    · cases hb
    · simp only [bind_ok, pure_ok] at hb
      obtain ⟨_, _, _, _, r, hr, _, _, _, _, _, _, rfl⟩ := hb
      rw [(correction_facts hr).1]
  unfold MoveFrame at h2
  refine ⟨c, hd, ?_, ?_, ?_, l, ?_, hl'⟩
  · rw [h3, h2, h1]
    rw [h1] at y2
    simp only at y2 ⊢
    rw [y2]
  · rw [r3, r2, h1]
  · rw [c3, c2, h1]
  · rw [h3]; simp only; rw [hl, h1]

theorem pso_moveThen (env : Env K V) (p : PsoPar K) : MoveThen (psoInner env p) (psoUpdate env) := by
  constructor
  intro s s' h
  simp only [psoInner, bind_ok] at h
  obtain ⟨a, ha, b, hb, hc⟩ := h
  obtain ⟨h1, l, hl, hl'⟩ := psoVelocity_frame ha
  obtain ⟨h2, r2, c2⟩ := psoPosition_frame hb
  refine ⟨b, hc, ?_, ?_, ?_, l, ?_, hl'⟩
  · rw [h2, h1]
  · rw [r2, h1]
  · rw [c2, h1]
  · rw [h2]; exact hl

theorem histStep_of {env : Env K V} {inner upd : St K V → Except Err (St K V)} (hpost : PostOK env) (hi : InnerFrame inner)
    (hm : MoveThen inner upd) (hu : ∀ s s', MidShape s → s.active ≠ [] → upd s = .ok s' → Remember env s s') {s s' : St K V}
    (hperm : PermOK env ∨ s.batched = false) (w : MemShape s) (hmv : s.batched = false ∨ s.batchPartial = false) (ha : s.active ≠ []) (h : StepShape env inner s s') : ∃ X, HistStep env s s' X := by
  obtain ⟨v, hv, bf⟩ := h.split
  obtain ⟨q, hq, fq, rq, cq, l, hl, hl'⟩ := hm.split _ _ hv
  have pf := preStep_frame env s
  have iv := hi _ _ hv
  have fb := bf.frame
  have eM : q.M = s.M := by rw [fq, pf]
  have eN : q.N = s.N := by rw [fq, pf]
  have eact : q.active = s.active := by rw [fq, pf]
  have een : q.energy = s.energy := by rw [fq, pf]
  have ey : q.aux1 = s.aux1 := by rw [fq, pf]
  have ep : q.pIdx = (preStep env s).pIdx := by rw [fq]
  have px : (preStep env s).x = s.x := by rw [pf]
  have plog : (preStep env s).log = s.log := by rw [pf]
  have mid : MidShape q := by
    refine ⟨?_, ?_, ?_, ?_, ?_, ?_, ?_, ?_⟩
    · rw [rq, eM, px, w.xr]
    · rw [cq, eN, px, w.xc]
    · rw [een, eM, w.er]
    · rw [een, eN, w.ec]
    · rw [ey, eM, w.yr]
    · rw [ey, eN, w.yc]
    · rw [eact, eM]; exact w.act
    · rw [ep, eact, eN]; exact sweep_pre w.wf hmv
  have R := hu _ _ mid (by rw [eact]; exact ha) hq
  have vM : v.M = s.M := by rw [iv, pf]
  have vN : v.N = s.N := by rw [iv, pf]
  have vact : v.active = s.active := by rw [iv, pf]
  have xr : v.x = q.x := R.x
  have sv : s'.aux1 = v.aux1 := by rw [fb]
  have se : s'.energy = v.energy := by rw [fb]
  have sM : s'.M = s.M := by rw [fb]; exact vM
  have sN : s'.N = s.N := by rw [fb]; exact vN
  obtain ⟨o1, o2⟩ := hpost _ _ bf.post
  have fr : StepFrame env s s' := by
    constructor
    all_goals rw [fb]
    all_goals simp only
    all_goals rw [iv]
    all_goals simp only
    all_goals rw [pf]
  refine ⟨q.x, ?_, fr, ?_, ?_, ?_, ?_, ?_, ?_, ?_, ?_, v, xr, bf.post⟩
  · rw [← eact, ← eM]; exact R.full
  · rw [← eM]; exact mid.xr
  · rw [← eN]; exact mid.xc
  · refine ⟨?_, ?_, ?_, ?_, ?_, ?_, ?_, ?_, ?_⟩
    · rw [o1, sM, xr, ← eM]; exact mid.xr
    · rw [o2, sN, xr, ← eN]; exact mid.xc
    · rw [se, sM, ← eM]; exact R.er
    · rw [se, sN, ← eN]; exact R.ec
    · rw [sv, sM, R.yr, ← eM]; exact mid.yr
    · rw [sv, sN, R.yc, ← eN]; exact mid.yc
    · rw [sM]; rw [fb]; simp only; rw [vact]; exact w.act
    · exact poolOK_step hperm w fr
    · rw [sN]; exact w.pos
  · intro m hm n hn
    rw [sv, R.y m (by rw [eM]; exact hm) n (by rw [eN]; exact hn), een, ey]
  · intro m hm n hn
    rw [se, R.e m (by rw [eM]; exact hm) n (by rw [eN]; exact hn), een]
  · have : s'.log = v.log := by rw [fb]
    rw [this, R.log, hl, plog, List.filter_append, List.filter_append, filter_energy_none hl', filter_energy_all, List.append_nil]
  · intro m; rw [se]; exact bf.fMinIdx m
  · intro m
    have : v.bestE = s.bestE := by rw [iv, pf]
    rw [bf.bestE m, se, this]

theorem mem_histStep {env : Env K V} (hpost : PostOK env) (hperm : PermOK env) {lm sm : K} {s s' : St K V} (w : MemShape s) (ha : s.active ≠ [])
    (h : memStep env lm sm s = .ok s') : ∃ X, HistStep env s s' X :=
  histStep_of hpost (memInner_frame env lm sm) (mem_moveThen env lm sm) (fun _ _ w a h => memUpdate_remember w a h) (.inl hperm) w (mem_moves hperm w h) ha (memStep_shape h)

theorem pso_histStep {env : Env K V} (hpost : PostOK env) (hperm : PermOK env) {p : PsoPar K} {s s' : St K V} (w : MemShape s) (ha : s.active ≠ [])
    (h : psoStep env p s = .ok s') : ∃ X, HistStep env s s' X :=
  histStep_of hpost (psoInner_frame env p) (pso_moveThen env p) (fun _ _ w a h => psoUpdate_remember w a h) (.inl hperm) w (pso_moves hperm w h) ha (psoStep_shape h)

theorem mem_histStep_plain {env : Env K V} (hpost : PostOK env) {lm sm : K} {s s' : St K V} (w : MemPlain s) (ha : s.active ≠ [])
    (h : memStep env lm sm s = .ok s') : ∃ X, HistStep env s s' X :=
  histStep_of hpost (memInner_frame env lm sm) (mem_moveThen env lm sm) (fun _ _ w a h => memUpdate_remember w a h) (.inr w.nob) w.toMemShape (.inl w.nob) ha (memStep_shape h)

theorem pso_histStep_plain {env : Env K V} (hpost : PostOK env) {p : PsoPar K} {s s' : St K V} (w : MemPlain s) (ha : s.active ≠ [])
    (h : psoStep env p s = .ok s') : ∃ X, HistStep env s s' X :=
  histStep_of hpost (psoInner_frame env p) (pso_moveThen env p) (fun _ _ w a h => psoUpdate_remember w a h) (.inr w.nob) w.toMemShape (.inl w.nob) ha (psoStep_shape h)

/-! ### The invariant -/

/-- Best energy in terms of the current energies. -/
structure BestNow (k : ℕ) (s : St K V) : Prop where
  zero : k = 0 → ∀ m, s.bestE m = .pinf
  pos : k ≠ 0 → ∀ m < s.M, s.fMinIdx m = Flt.rowArgmin s.energy.cols (s.energy.get m) ∧ s.bestE m = s.energy.get m (s.fMinIdx m)

theorem evaluated_iff {f : V → Flt K} {x0 : Mat V} {k : ℕ} {s : St K V} {traj : List (Mat V)} (h : HistBest f x0 k s traj) (m : ℕ) (v : V) :
    Evaluated s m v ↔ ∃ X ∈ traj, m < s.M ∧ ∃ n < s.N, v = X.get m n := by
  have e : Evaluated s m v ↔ (Site.energy, m, v) ∈ s.log.filter (fun q => decide (q.1 = Site.energy)) := by
    simp [Evaluated]
  rw [e, h.evals]
  simp only [List.mem_flatMap, List.mem_map, Prod.exists, mem_entries]
  constructor
  · rintro ⟨X, hX, a, b, ⟨i, hi, j, hj, he⟩, hab⟩
    cases he
    cases hab
    rw [(h.shape X hX).1] at hi
    rw [(h.shape X hX).2] at hj
    exact ⟨X, hX, hi, j, hj, rfl⟩
  · rintro ⟨X, hX, hm, n, hn, rfl⟩
    refine ⟨X, hX, m, X.get m n, ⟨m, ?_, n, ?_, rfl⟩, rfl⟩
    · rw [(h.shape X hX).1]; exact hm
    · rw [(h.shape X hX).2]; exact hn

theorem minimum_cases {a b : Flt K} (ha : a ≠ .nan) (hb : b ≠ .nan) : Flt.minimum a b = if Flt.gt a b then b else a := by
  unfold Flt.minimum Flt.gt
  rw [if_neg (by rw [Flt.isNaN_iff]; exact ha), if_neg (by rw [Flt.isNaN_iff]; exact hb)]

theorem lt_minimum {a b c : Flt K} (ha : a ≠ .nan) (hb : b ≠ .nan) (h : Flt.lt c a = false ∨ Flt.lt c b = false) :
    Flt.lt c (Flt.minimum a b) = false := by
  rw [minimum_cases ha hb]
  split_ifs with hg
  · rcases h with h | h
    · exact Flt.not_lt_trans (b := a) ha (Flt.lt_asymm hg) h
    · exact h
  · rcases h with h | h
    · exact h
    · refine Flt.not_lt_trans (b := b) hb ?_ h
      simpa [Flt.gt] using hg

theorem noNaN_back {f : V → Flt K} {env : Env K V} {s s' : St K V} {X : Mat V} (h : HistStep env s s' X) (hn : NoNaN f s') : NoNaN f s := by
  intro m v hv
  refine hn m v ?_
  have : (Site.energy, m, v) ∈ s'.log.filter (fun q => decide (q.1 = Site.energy)) := by
    rw [h.log]
    refine List.mem_append_left _ ?_
    simpa [Evaluated] using hv
  simpa [Evaluated] using this

/-- The part of `HistStep` that does not concern `y`. -/
structure HistCore (env : Env K V) (s s' : St K V) (X : Mat V) : Prop where
  M : s'.M = s.M
  N : s'.N = s.N
  Xr : X.rows = s.M
  Xc : X.cols = s.N
  ec : s'.energy.cols = s'.N
  e : ∀ m < s.M, ∀ n < s.N, s'.energy.get m n = Flt.minimum (s.energy.get m n) (env.f (X.get m n))
  log : s'.log.filter (fun q => decide (q.1 = Site.energy)) =
    s.log.filter (fun q => decide (q.1 = Site.energy)) ++ (X.entries id).map fun q => (Site.energy, q.1, q.2)
  fMinIdx : ∀ m, s'.fMinIdx m = Flt.rowArgmin s'.energy.cols (s'.energy.get m)
  bestE : ∀ m, s'.bestE m = if Flt.gt (s.bestE m) (s'.energy.get m (s'.fMinIdx m)) then s'.energy.get m (s'.fMinIdx m) else s.bestE m

theorem HistStep.core {env : Env K V} {s s' : St K V} {X : Mat V} (q : HistStep env s s' X) : HistCore env s s' X :=
  ⟨q.frame.M, q.frame.N, q.Xr, q.Xc, q.shape.ec, q.e, q.log, q.fMinIdx, q.bestE⟩

theorem evaluated_back {env : Env K V} {s s' : St K V} {X : Mat V} (h : HistCore env s s' X) {m : ℕ} {v : V} (hv : Evaluated s m v) : Evaluated s' m v := by
  have : (Site.energy, m, v) ∈ s'.log.filter (fun q => decide (q.1 = Site.energy)) := by
    rw [h.log]
    refine List.mem_append_left _ ?_
    simpa [Evaluated] using hv
  simpa [Evaluated] using this

theorem evaluated_new {env : Env K V} {s s' : St K V} {X : Mat V} (q : HistCore env s s' X) {m n : ℕ} (hm : m < s.M) (hn : n < s.N) : Evaluated s' m (X.get m n) := by
  have : (Site.energy, m, X.get m n) ∈ s'.log.filter (fun q => decide (q.1 = Site.energy)) := by
    rw [q.log]
    refine List.mem_append_right _ (List.mem_map.2 ⟨(m, X.get m n), mem_entries.2 ⟨m, ?_, n, ?_, rfl⟩, rfl⟩)
    · rw [q.Xr]; exact hm
    · rw [q.Xc]; exact hn
  simpa [Evaluated] using this

/-- One step, if `y` is replaced exactly. -/
theorem histBest_step {env : Env K V} {x0 : Mat V} {k : ℕ} {s s' : St K V} {X : Mat V} {traj : List (Mat V)} (wec : s.energy.cols = s.N) (wpos : 0 < s.N)
    (q : HistCore env s s' X) (hy : ∀ m < s.M, ∀ n < s.N, s'.aux1.get m n = if Flt.gt (s.energy.get m n) (env.f (X.get m n)) then X.get m n else s.aux1.get m n)
    (hn : NoNaN env.f s') (h : HistBest env.f x0 k s traj) (hb : BestNow k s) :
    HistBest env.f x0 (k + 1) s' (traj ++ [X]) ∧ BestNow (k + 1) s' := by
  have hM := q.M
  have hN := q.N
  have hn0 : NoNaN env.f s := fun m v hv => hn m v (evaluated_back q hv)
  have fX : ∀ m < s.M, ∀ n < s.N, env.f (X.get m n) ≠ .nan := by
    intro m hm n hn'
    exact hn m _ (evaluated_new q hm hn')
  have fE : ∀ m < s.M, ∀ n < s.N, s.energy.get m n ≠ .nan := by
    intro m hm n hn'
    rw [← h.value m hm n hn']
    obtain ⟨Y, hY, e⟩ := h.visited m hm n hn'
    exact hn0 m _ ((evaluated_iff h m _).2 ⟨Y, hY, hm, n, hn', e⟩)
  have hist : HistBest env.f x0 (k + 1) s' (traj ++ [X]) := by
    refine ⟨?_, ?_, ?_, ?_, ?_, ?_, ?_⟩
    · have := h.start
      cases traj with
      | nil => simp at this
      | cons a l => simpa using this
    · simp [h.len]
    · intro Y hY
      rw [hM, hN]
      rcases List.mem_append.1 hY with hY | hY
      · exact h.shape Y hY
      · rw [List.mem_singleton.1 hY]; exact ⟨q.Xr, q.Xc⟩
    · rw [q.log, h.evals]; simp
    · rw [hM, hN]
      intro m hm n hn' Y hY
      rw [q.e m hm n hn']
      rcases List.mem_append.1 hY with hY | hY
      · exact lt_minimum (fE m hm n hn') (fX m hm n hn') (.inl (h.least m hm n hn' Y hY))
      · rw [List.mem_singleton.1 hY]
        exact lt_minimum (fE m hm n hn') (fX m hm n hn') (.inr (Flt.lt_irrefl _))
    · rw [hM, hN]
      intro m hm n hn'
      rw [hy m hm n hn']
      split_ifs
      · exact ⟨X, by simp, rfl⟩
      · obtain ⟨Y, hY, e⟩ := h.visited m hm n hn'
        exact ⟨Y, by simp [hY], e⟩
    · rw [hM, hN]
      intro m hm n hn'
      rw [hy m hm n hn', q.e m hm n hn', minimum_cases (fE m hm n hn') (fX m hm n hn')]
      split_ifs
      · rfl
      · exact h.value m hm n hn'
  refine ⟨hist, fun h => absurd h (by omega), fun _ m hm => ⟨q.fMinIdx m, ?_⟩⟩
  rw [hM] at hm
  have ec : s'.energy.cols = s.N := by rw [q.ec, hN]
  have hidx : s'.fMinIdx m < s.N := by
    rw [q.fMinIdx m, ec]
    exact Flt.rowArgmin_lt wpos _
  have fE' : ∀ n < s.N, s'.energy.get m n ≠ .nan := by
    intro n hn'
    rw [q.e m hm n hn', minimum_cases (fE m hm n hn') (fX m hm n hn')]
    split_ifs
    · exact fX m hm n hn'
    · exact fE m hm n hn'
  rw [q.bestE m]
  split_ifs with hg
  · rfl
  · have hg' : Flt.lt (s'.energy.get m (s'.fMinIdx m)) (s.bestE m) = false := by simpa [Flt.gt] using hg
    rcases Nat.eq_zero_or_pos k with hk | hk
    · have hz := hb.zero hk m
      rw [hz] at hg' ⊢
      have := fE' _ hidx
      cases hv : s'.energy.get m (s'.fMinIdx m) <;> simp_all [Flt.lt]
    · obtain ⟨b1, b2⟩ := hb.pos (by omega) m hm
      have hi : s.fMinIdx m < s.N := by rw [b1, wec]; exact Flt.rowArgmin_lt wpos _
      refine Flt.eq_of_not_lt ?_ (fE' _ hidx) ?_ hg'
      · rw [b2]; exact fE m hm _ hi
      · -- the old minimum is not below the new one
        rw [b2]
        have h1 := Flt.rowArgmin_min (n := s'.energy.cols) (s'.energy.get m) (by rw [ec]; exact fE') (s.fMinIdx m) (by rw [ec]; exact hi)
        rw [← q.fMinIdx m] at h1
        refine Flt.not_lt_trans (b := s'.energy.get m (s.fMinIdx m)) (fE' _ hi) h1 ?_
        rw [q.e m hm _ hi]
        exact lt_minimum (fE m hm _ hi) (fX m hm _ hi) (.inl (Flt.lt_irrefl _))

/-! ### Other operations and the induction -/

theorem evalTerm_energyLog {env : Env K V} {tm : Term K} {s : St K V} {r : (ℕ → Bool) × Term K × St K V} (h : evalTerm env tm s = .ok r) :
    r.2.2.log.filter (fun q => decide (q.1 = Site.energy)) = s.log.filter (fun q => decide (q.1 = Site.energy)) := by
  unfold evalTerm at h
  split at h
  case h_7 p th l =>
    unfold evalStag at h
    split at h
    · rw [pure_ok] at h; subst h; rfl
    · split_ifs at h
      rw [pure_ok] at h; subst h
      simp [callF]
      rintro _ _ _ _ _ - rfl _ _ h
      cases h
  all_goals (rw [pure_ok] at h; subst h; rfl)

theorem evalTerms_energyLog {env : Env K V} : ∀ {l : List (Term K)} {s : St K V}
    {r : List (ℕ → Bool) × List (Term K) × St K V}, evalTerms env l s = .ok r →
    r.2.2.log.filter (fun q => decide (q.1 = Site.energy)) = s.log.filter (fun q => decide (q.1 = Site.energy))
  | [], s, r, h => by
    simp only [evalTerms, pure_ok] at h; subst h; rfl
  | tm :: l, s, r, h => by
    simp only [evalTerms, bind_ok, pure_ok] at h
    obtain ⟨a, ha, b, hb, rfl⟩ := h
    exact (evalTerms_energyLog hb).trans (evalTerm_energyLog ha)

theorem select_energyLog {env : Env K V} {s s' : St K V} (h : selectActive env s = .ok s') :
    s'.log.filter (fun q => decide (q.1 = Site.energy)) = s.log.filter (fun q => decide (q.1 = Site.energy)) := by
  simp only [selectActive, bind_ok, pure_ok] at h
  obtain ⟨r, hr, rfl⟩ := h
  exact evalTerms_energyLog hr

/-- The invariant of a memory dynamic after `k` steps. -/
structure MemInv (env : Env K V) (x0 : Mat V) (k : ℕ) (s : St K V) : Prop where
  shape : MemShape s
  hist : NoNaN env.f s → ∃ traj, HistBest env.f x0 k s traj ∧ BestNow k s

theorem histBest_congr {f : V → Flt K} {x0 : Mat V} {k : ℕ} {s s' : St K V} {traj : List (Mat V)} (h : HistBest f x0 k s traj) (e1 : s'.M = s.M)
    (e2 : s'.N = s.N) (e3 : s'.energy = s.energy) (e4 : s'.aux1 = s.aux1)
    (e5 : s'.log.filter (fun q => decide (q.1 = Site.energy)) = s.log.filter (fun q => decide (q.1 = Site.energy))) :
    HistBest f x0 k s' traj := by
  refine ⟨h.start, h.len, ?_, ?_, ?_, ?_, ?_⟩
  · rw [e1, e2]; exact h.shape
  · rw [e5]; exact h.evals
  · rw [e1, e2, e3]; exact h.least
  · rw [e1, e2, e4]; exact h.visited
  · rw [e1, e2, e3, e4]; exact h.value

theorem noNaN_congr {f : V → Flt K} {s s' : St K V}
    (e5 : s'.log.filter (fun q => decide (q.1 = Site.energy)) = s.log.filter (fun q => decide (q.1 = Site.energy))) (h : NoNaN f s') : NoNaN f s := by
  intro m v hv
  refine h m v ?_
  have : (Site.energy, m, v) ∈ s'.log.filter (fun q => decide (q.1 = Site.energy)) := by
    rw [e5]; simpa [Evaluated] using hv
  simpa [Evaluated] using this

/-- What the induction needs from the `step` of a dynamic. -/
def Remembers (env : Env K V) (stp : St K V → Except Err (St K V)) : Prop :=
  ∀ s s', MemShape s → s.active ≠ [] → stp s = .ok s' → ∃ X, HistStep env s s' X

theorem memInv_exec [MaskExact K V] {env : Env K V} {stp : St K V → Except Err (St K V)} (hr : Remembers env stp) {x0 : Mat V} {k : ℕ} {o : Op} {s s' : St K V}
    (hl : o = .step → s.active ≠ []) (hi : MemInv env x0 k s) (h : execBy env stp o s = .ok s') :
    MemInv env x0 (k + if o = .step then 1 else 0) s' := by
  cases o with
  | step =>
    obtain ⟨X, q⟩ := hr _ _ hi.shape (hl rfl) h
    refine ⟨q.shape, fun hn => ?_⟩
    obtain ⟨traj, h1, h2⟩ := hi.hist (noNaN_back q hn)
    exact ⟨_, histBest_step hi.shape.ec hi.shape.pos q.core q.exact hn h1 h2⟩
  | select =>
    have h' : selectActive env s = .ok s' := h
    have f := select_frame h'
    have e := select_energyLog h'
    obtain ⟨bs, l, q, _, _, ha, _⟩ := select_active h'
    have hs : s'.active.Sublist (List.range s.M) := by rw [ha]; exact List.filter_sublist
    have w := hi.shape
    refine ⟨?_, fun hn => ?_⟩
    · rw [f]
      exact ⟨w.xr, w.xc, w.er, w.ec, w.yr, w.yc, hs, w.pool, w.pos⟩
    · obtain ⟨traj, h1, h2⟩ := hi.hist (noNaN_congr e hn)
      refine ⟨traj, histBest_congr h1 (by rw [f]) (by rw [f]) (by rw [f]) (by rw [f]) e, ?_⟩
      rw [f]
      exact ⟨h2.zero, h2.pos⟩
  | sched =>
    have f := sched_frame (show schedUpdate env s = .ok s' from h)
    have w := hi.shape
    rw [f]
    refine ⟨⟨w.xr, w.xc, w.er, w.ec, w.yr, w.yc, w.act, w.pool, w.pos⟩, fun hn => ?_⟩
    obtain ⟨traj, h1, h2⟩ := hi.hist hn
    exact ⟨traj, histBest_congr h1 rfl rfl rfl rfl rfl, ⟨h2.zero, h2.pos⟩⟩
  | reset =>
    simp only [execBy] at h
    injection h with h
    subst h
    have w := hi.shape
    refine ⟨⟨w.xr, w.xc, w.er, w.ec, w.yr, w.yc, w.act, w.pool, w.pos⟩, fun hn => ?_⟩
    obtain ⟨traj, h1, h2⟩ := hi.hist hn
    exact ⟨traj, histBest_congr h1 rfl rfl rfl rfl rfl, ⟨h2.zero, h2.pos⟩⟩

theorem memInv_execAll [MaskExact K V] {env : Env K V} {stp : St K V → Except Err (St K V)} (hr : Remembers env stp) {x0 : Mat V} :
    ∀ {l : List Op} {k : ℕ} {s s' : St K V}, Live env stp l s → MemInv env x0 k s → execAllBy env stp l s = .ok s' →
      MemInv env x0 (k + l.count .step) s'
  | [], k, s, s', _, hi, h => by
    simp only [execAllBy] at h
    injection h with h
    subst h
    simpa using hi
  | o :: l, k, s, s', hl, hi, h => by
    simp only [execAllBy, bind_ok] at h
    obtain ⟨q, hq, h⟩ := h
    obtain ⟨l1, l2⟩ := hl
    have := memInv_execAll hr (l2 q hq) (memInv_exec hr l1 hi hq) h
    rw [List.count_cons]
    convert this using 1
    by_cases ho : o = .step
    · simp [ho]; omega
    · simp [ho]

theorem memInv_init {env : Env K V} (hperm : PermOK env) {a : Args K V} (ha : a.aux1 = id) (hb : a.batchSize ≠ some 0) {s : St K V}
    (h : memInit env a = .ok s) : MemInv env a.x0 0 s := by
  simp only [memInit, bind_ok, pure_ok] at h
  obtain ⟨s₀, h0, rfl⟩ := h
  have hwf := init_wf hperm h0
  have hbs : s₀.batchSize = batchSizeOf a.batchSize a.x0.cols := by
    unfold init at h0
    split_ifs at h0
    all_goals
      injection h0 with h0
      subst h0
      rfl
  have key : s₀.log.filter (fun q => decide (q.1 = Site.energy)) = [] ∧ s₀.x = a.x0 ∧ s₀.M = a.x0.rows ∧ s₀.N = a.x0.cols ∧
      s₀.aux1 = a.x0 ∧ s₀.active = List.range a.x0.rows ∧ 0 < a.x0.cols ∧ s₀.bestE = fun _ => .pinf := by
    unfold init at h0
    split_ifs at h0 with hz hc
    all_goals
      injection h0 with h0
      subst h0
      refine ⟨?_, rfl, rfl, rfl, ?_, rfl, Nat.pos_of_ne_zero hz, rfl⟩
      · simp [initBatch, initHistory, checkFDims, callF, baseSt]
        try
          rintro _ _ _ _ _ - rfl _ _ h
          cases h
      · simp [initBatch, initHistory, checkFDims, callF, baseSt, ha, Mat.map]
  obtain ⟨k1, k2, k3, k4, k5, k6, k8, k9⟩ := key
  have hpos : 0 < s₀.batchSize := by
    rw [hbs]
    unfold batchSizeOf
    split
    · exact k8
    · rename_i b
      exact lt_min (Nat.pos_of_ne_zero fun h => hb (by simp_all)) k8
  have hlog : ((callF env .energy id s₀.x s₀).2.log.filter fun q => decide (q.1 = Site.energy)) =
      (a.x0.entries id).map fun q => (Site.energy, q.1, q.2) := by
    simp only [callF]
    rw [List.filter_append, k1, k2, filter_energy_all, List.nil_append]
  refine ⟨⟨?_, ?_, ?_, ?_, ?_, ?_, ?_, ?_, ?_⟩, fun _ => ⟨[a.x0], ⟨rfl, rfl, ?_, ?_, ?_, ?_, ?_⟩, fun _ _ => ?_, fun h => absurd rfl h⟩⟩
  all_goals simp only [callF]
  · rw [k2, k3]
  · rw [k2, k4]
  · simp only [Mat.map]; rw [k2, k3]
  · simp only [Mat.map]; rw [k2, k4]
  · rw [k5, k3]
  · rw [k5, k4]
  · rw [k6, k3]
  · exact ⟨hwf.unb, fun h => ⟨hpos, hwf.bat h⟩⟩
  · rw [k4]; exact k8
  · intro X hX
    rw [List.mem_singleton.1 hX, k3, k4]; exact ⟨rfl, rfl⟩
  · simpa [callF] using hlog
  · intro m hm n hn X hX
    rw [List.mem_singleton.1 hX, k2]
    exact Flt.lt_irrefl _
  · intro m hm n hn
    exact ⟨a.x0, by simp, by rw [k5]⟩
  · intro m hm n hn
    rw [k5, k2]
    rfl
  · rw [k9]

/-- `best_particle` of `CBOMemory` after an improvement over the start. -/
structure MemInv' (env : Env K V) (x0 : Mat V) (k : ℕ) (s : St K V) : Prop where
  inv : MemInv env x0 k s
  best : NoNaN env.f s → k ≠ 0 → ∀ m < s.M, (∃ n < s.N, s.bestE m = env.f (x0.get m n)) ∨ env.f (s.bestP m) = s.bestE m

theorem memInv'_exec [MaskExact K V] {env : Env K V} (hpost : PostOK env) (hperm : PermOK env) (hid : ∀ q x', env.post q = .ok x' → ∀ m n, env.f (x'.get m n) = env.f (q.x.get m n))
    {lm sm : K} {x0 : Mat V} {k : ℕ} {o : Op} {s s' : St K V}
    (hl : o = .step → s.active ≠ []) (hi : MemInv' env x0 k s) (h : execBy env (memStep env lm sm) o s = .ok s') :
    MemInv' env x0 (k + if o = .step then 1 else 0) s' := by
  refine ⟨memInv_exec (fun _ _ w a h => mem_histStep hpost hperm w a h) hl hi.inv h, ?_⟩
  cases o with
  | step =>
    intro hn _ m hm
    have w := hi.inv.shape
    have h : memStep env lm sm s = .ok s' := h
    obtain ⟨X, q⟩ := mem_histStep hpost hperm w (hl rfl) h
    have hM := q.frame.M
    have hN := q.frame.N
    rw [hM] at hm
    rw [hN]
    have hn0 := noNaN_back q hn
    obtain ⟨traj, h1, h2⟩ := hi.inv.hist hn0
    obtain ⟨h3, h4⟩ := histBest_step w.ec w.pos q.core q.exact hn h1 h2
    have hidx : s'.fMinIdx m < s.N := by
      rw [q.fMinIdx m, q.shape.ec, hN]
      exact Flt.rowArgmin_lt w.pos _
    obtain ⟨v, hvx, hvp⟩ := q.post
    rw [memStep_bestP h m, q.bestE m]
    split_ifs with hg
    · have fX : env.f (X.get m (s'.fMinIdx m)) ≠ .nan :=
        hn m _ ((evaluated_iff h3 m _).2 ⟨X, by simp, by rw [hM]; exact hm, _, by rw [hN]; exact hidx, rfl⟩)
      have fE : s.energy.get m (s'.fMinIdx m) ≠ .nan := by
        rw [← h1.value m hm _ hidx]
        obtain ⟨Y, hY, e⟩ := h1.visited m hm _ hidx
        exact hn0 m _ ((evaluated_iff h1 m _).2 ⟨Y, hY, hm, _, hidx, e⟩)
      have e := q.e m hm _ hidx
      rw [minimum_cases fE fX] at e
      split_ifs at e with hc
      · right
        rw [hid _ _ hvp, hvx, e]
      · left
        rcases Nat.eq_zero_or_pos k with hk | hk
        · -- the first step: the old energy is the one of the start
          subst hk
          have ht : traj = [x0] := by
            have a := h1.start
            have b := h1.len
            cases traj with
            | nil => simp at a
            | cons y l =>
              simp only [List.length_cons, Nat.zero_add, Nat.add_eq_right, List.length_eq_zero_iff] at b
              subst b
              simpa using a
          obtain ⟨Y, hY, ey⟩ := h1.visited m hm _ hidx
          rw [ht, List.mem_singleton] at hY
          subst hY
          refine ⟨_, hidx, ?_⟩
          rw [e, ← h1.value m hm _ hidx, ey]
        · -- later: the old energy is not below the best energy
          exfalso
          obtain ⟨b1, b2⟩ := h2.pos (by omega) m hm
          rw [e] at hg
          have fall : ∀ n < s.energy.cols, s.energy.get m n ≠ .nan := by
            intro n hn'
            rw [w.ec] at hn'
            rw [← h1.value m hm _ hn']
            obtain ⟨Y, hY, ey⟩ := h1.visited m hm _ hn'
            exact hn0 m _ ((evaluated_iff h1 m _).2 ⟨Y, hY, hm, _, hn', ey⟩)
          have := Flt.rowArgmin_min (n := s.energy.cols) (s.energy.get m) fall (s'.fMinIdx m) (by rw [w.ec]; exact hidx)
          rw [← b1, ← b2] at this
          unfold Flt.gt at hg
          rw [this] at hg
          cases hg
    · rcases Nat.eq_zero_or_pos k with hk | hk
      · have hz := h2.zero hk m
        have e := (h4.pos (by omega) m (by rw [hM]; exact hm)).2
        rw [q.bestE m, if_neg hg, hz] at e
        left
        have e0 : s.energy.get m (s'.fMinIdx m) = .pinf := by
          have e1 := q.e m hm _ hidx
          rw [← e] at e1
          unfold Flt.minimum at e1
          split_ifs at e1 with a b c
          · exfalso
            cases hv : s.energy.get m (s'.fMinIdx m) <;> rw [hv] at c <;> rw [← e1] at c <;> simp_all [Flt.lt]
          · exact e1.symm
        subst hk
        have ht : traj = [x0] := by
          have a := h1.start
          have b := h1.len
          cases traj with
          | nil => simp at a
          | cons y l =>
            simp only [List.length_cons, Nat.zero_add, Nat.add_eq_right, List.length_eq_zero_iff] at b
            subst b
            simpa using a
        obtain ⟨Y, hY, ey⟩ := h1.visited m hm _ hidx
        rw [ht, List.mem_singleton] at hY
        subst hY
        refine ⟨_, hidx, ?_⟩
        rw [hz, ← ey, h1.value m hm _ hidx, e0]
      · exact hi.best hn0 (by omega) m hm
  | select =>
    have h' : selectActive env s = .ok s' := h
    have f := select_frame h'
    have e := select_energyLog h'
    intro hn hk m hm
    have := hi.best (noNaN_congr e hn) (by simpa using hk) m
    rw [f] at hm ⊢
    exact this hm
  | sched =>
    have f := sched_frame (show schedUpdate env s = .ok s' from h)
    rw [f]
    intro hn hk m hm
    exact hi.best hn (by simpa using hk) m hm
  | reset =>
    simp only [execBy] at h
    injection h with h
    subst h
    intro hn hk m hm
    exact hi.best hn (by simpa using hk) m hm

theorem memInv'_execAll [MaskExact K V] {env : Env K V} (hpost : PostOK env) (hperm : PermOK env) (hid : ∀ q x', env.post q = .ok x' → ∀ m n, env.f (x'.get m n) = env.f (q.x.get m n))
    {lm sm : K} {x0 : Mat V} :
    ∀ {l : List Op} {k : ℕ} {s s' : St K V}, Live env (memStep env lm sm) l s → MemInv' env x0 k s → execAllBy env (memStep env lm sm) l s = .ok s' →
      MemInv' env x0 (k + l.count .step) s'
  | [], k, s, s', _, hi, h => by
    simp only [execAllBy] at h
    injection h with h
    subst h
    simpa using hi
  | o :: l, k, s, s', hl, hi, h => by
    simp only [execAllBy, bind_ok] at h
    obtain ⟨q, hq, h⟩ := h
    obtain ⟨l1, l2⟩ := hl
    have := memInv'_execAll hpost hperm hid (l2 q hq) (memInv'_exec hpost hperm hid l1 hi hq) h
    rw [List.count_cons]
    convert this using 1
    by_cases ho : o = .step
    · simp [ho]; omega
    · simp [ho]

/-! ### Stopped runs -/

theorem bdim_zero {M r : ℕ} (hM : 2 ≤ M) (h : Mat.bdim M 0 = some r) : False := by
  unfold Mat.bdim at h
  split_ifs at h <;> omega

theorem memUpdate_active {env : Env K V} {s s' : St K V} (w : MidShape s) (hM : 2 ≤ s.M) (h : memUpdate env s = .ok s') : s.active ≠ [] := by
  intro ha
  simp only [memUpdate, bind_ok, pure_ok, evalF, callF] at h
  obtain ⟨xp, hxp, b, hb, -⟩ := h
  obtain ⟨-, x1, -⟩ := Mat.gather_ok hxp
  obtain ⟨b1, -, -⟩ := Mat.bin_ok hb
  simp only [Mat.map] at b1
  rw [w.er, x1, w.sweep.rows, ha] at b1
  exact bdim_zero hM b1

theorem psoUpdate_active {env : Env K V} {s s' : St K V} (w : MidShape s) (hM : 2 ≤ s.M) (h : psoUpdate env s = .ok s') : s.active ≠ [] := by
  intro ha
  simp only [psoUpdate, bind_ok, pure_ok, callF] at h
  obtain ⟨xp, hxp, yp, hyp, b, hb, -⟩ := h
  obtain ⟨-, x1, -⟩ := Mat.gather_ok hxp
  obtain ⟨b1, -, -⟩ := Mat.bin_ok hb
  simp only [Mat.map] at b1
  rw [w.er, x1, w.sweep.rows, ha] at b1
  exact bdim_zero hM b1

theorem active_of {env : Env K V} {inner upd : St K V → Except Err (St K V)}
    (hm : MoveThen inner upd) (hu : ∀ s s', MidShape s → 2 ≤ s.M → upd s = .ok s' → s.active ≠ []) {s s' : St K V}
    (w : MemShape s) (hmv : s.batched = false ∨ s.batchPartial = false) (hM : 2 ≤ s.M) (h : StepShape env inner s s') : s.active ≠ [] := by
  obtain ⟨v, hv, bf⟩ := h.split
  obtain ⟨q, hq, fq, rq, cq, -⟩ := hm.split _ _ hv
  have pf := preStep_frame env s
  have eM : q.M = s.M := by rw [fq, pf]
  have eN : q.N = s.N := by rw [fq, pf]
  have eact : q.active = s.active := by rw [fq, pf]
  have een : q.energy = s.energy := by rw [fq, pf]
  have ey : q.aux1 = s.aux1 := by rw [fq, pf]
  have ep : q.pIdx = (preStep env s).pIdx := by rw [fq]
  have px : (preStep env s).x = s.x := by rw [pf]
  have mid : MidShape q := by
    refine ⟨?_, ?_, ?_, ?_, ?_, ?_, ?_, ?_⟩
    · rw [rq, eM, px, w.xr]
    · rw [cq, eN, px, w.xc]
    · rw [een, eM, w.er]
    · rw [een, eN, w.ec]
    · rw [ey, eM, w.yr]
    · rw [ey, eN, w.yc]
    · rw [eact, eM]; exact w.act
    · rw [ep, eact, eN]; exact sweep_pre w.wf hmv
  have := hu _ _ mid (by rw [eM]; exact hM) hq
  rwa [eact] at this

theorem mem_active {env : Env K V} (hperm : PermOK env) {lm sm : K} {s s' : St K V} (w : MemShape s) (hM : 2 ≤ s.M) (h : memStep env lm sm s = .ok s') : s.active ≠ [] :=
  active_of (mem_moveThen env lm sm) (fun _ _ w a h => memUpdate_active w a h) w (mem_moves hperm w h) hM (memStep_shape h)

theorem pso_active {env : Env K V} (hperm : PermOK env) {p : PsoPar K} {s s' : St K V} (w : MemShape s) (hM : 2 ≤ s.M) (h : psoStep env p s = .ok s') : s.active ≠ [] :=
  active_of (pso_moveThen env p) (fun _ _ w a h => psoUpdate_active w a h) w (pso_moves hperm w h) hM (psoStep_shape h)

/-- With several runs, a successful sequence never steps with all runs stopped. -/
theorem live_of_two [MaskExact K V] {env : Env K V} {stp : St K V → Except Err (St K V)} (hr : Remembers env stp)
    (ha : ∀ s s', MemShape s → 2 ≤ s.M → stp s = .ok s' → s.active ≠ []) {x0 : Mat V} :
    ∀ {l : List Op} {k : ℕ} {s s' : St K V}, 2 ≤ s.M → MemInv env x0 k s → execAllBy env stp l s = .ok s' → Live env stp l s
  | [], _, _, _, _, _, _ => trivial
  | o :: l, k, s, s', hM, hi, h => by
    simp only [execAllBy, bind_ok] at h
    obtain ⟨q, hq, h⟩ := h
    have h1 : o = .step → s.active ≠ [] := by
      rintro rfl
      exact ha _ _ hi.shape hM hq
    refine ⟨h1, fun q' hq' => ?_⟩
    rw [hq] at hq'
    injection hq' with hq'
    subst hq'
    refine live_of_two hr ha ?_ (memInv_exec hr h1 hi hq) h
    cases o with
    | step =>
      obtain ⟨X, g⟩ := hr _ _ hi.shape (h1 rfl) hq
      rw [g.frame.M]; exact hM
    | select =>
      rw [select_frame (show selectActive env s = .ok q from hq)]; exact hM
    | sched =>
      rw [sched_frame (show schedUpdate env s = .ok q from hq)]; exact hM
    | reset =>
      simp only [execBy] at hq
      injection hq with hq
      subst hq
      exact hM

theorem memInit_M {env : Env K V} {a : Args K V} {s : St K V} (h : memInit env a = .ok s) : s.M = a.x0.rows := by
  simp only [memInit, bind_ok, pure_ok] at h
  obtain ⟨s₀, h0, rfl⟩ := h
  unfold init at h0
  split_ifs at h0
  all_goals
    injection h0 with h0
    subst h0
    rfl

theorem isBest_of {env : Env K V} {x0 : Mat V} {k : ℕ} (hk : k ≠ 0) {s : St K V} {traj : List (Mat V)} (w : MemShape s)
    (hn : NoNaN env.f s) (h : HistBest env.f x0 k s traj) (hb : BestNow k s) (m : ℕ) (hm : m < s.M) :
    IsBest env.f s m (s.bestE m) ∧ s.fMinIdx m < s.N ∧ env.f (s.aux1.get m (s.fMinIdx m)) = s.bestE m := by
  obtain ⟨b1, b2⟩ := hb.pos hk m hm
  have hi : s.fMinIdx m < s.N := by rw [b1, w.ec]; exact Flt.rowArgmin_lt w.pos _
  have hv := h.value m hm _ hi
  have fE : ∀ n < s.energy.cols, s.energy.get m n ≠ .nan := by
    intro n hn'
    rw [w.ec] at hn'
    rw [← h.value m hm n hn']
    obtain ⟨Y, hY, e⟩ := h.visited m hm n hn'
    exact hn m _ ((evaluated_iff h m _).2 ⟨Y, hY, hm, n, hn', e⟩)
  refine ⟨⟨?_, ?_⟩, hi, by rw [hv, b2]⟩
  · intro v hev
    obtain ⟨X, hX, -, n, hn', rfl⟩ := (evaluated_iff h m v).1 hev
    rw [b2, b1]
    have h1 := Flt.rowArgmin_min (n := s.energy.cols) (s.energy.get m) fE n (by rw [w.ec]; exact hn')
    exact Flt.not_lt_trans (b := s.energy.get m n) (fE n (by rw [w.ec]; exact hn')) h1 (h.least m hm n hn' X hX)
  · right
    obtain ⟨Y, hY, e⟩ := h.visited m hm _ hi
    exact ⟨_, (evaluated_iff h m _).2 ⟨Y, hY, hm, _, hi, e⟩, by rw [hv, b2]⟩

/-! ### The drift of `PSO` -/

theorem bin_full {α β γ : Type} {f : α → β → γ} {a : Mat α} {b : Mat β} {r : Mat γ} {M N : ℕ} (h : Mat.bin f a b = .ok r)
    (ar : a.rows = M) (ac : a.cols = N) (br : b.rows = M) (bc : b.cols = N) :
    r.rows = M ∧ r.cols = N ∧ ∀ i < M, ∀ j < N, r.get i j = f (a.get i j) (b.get i j) := by
  obtain ⟨h1, h2, h3⟩ := Mat.bin_ok h
  rw [ar, br, Mat.bdim_self] at h1
  rw [ac, bc, Mat.bdim_self] at h2
  injection h1 with h1
  injection h2 with h2
  refine ⟨h1.symm, h2.symm, fun i hi j hj => ?_⟩
  rw [h3, ar, ac, br, bc, Mat.bpos_lt hi, Mat.bpos_lt hj]

theorem bin_one {α β γ : Type} {f : α → β → γ} {a : Mat α} {b : Mat β} {r : Mat γ} {M N : ℕ} (h : Mat.bin f a b = .ok r)
    (ar : a.rows = M) (ac : a.cols = N) (br : b.rows = M) (bc : b.cols = 1) :
    r.rows = M ∧ r.cols = N ∧ ∀ i < M, ∀ j < N, r.get i j = f (a.get i j) (b.get i 0) := by
  obtain ⟨h1, h2, h3⟩ := Mat.bin_ok h
  rw [ar, br, Mat.bdim_self] at h1
  rw [ac, bc, Mat.bdim_one_right] at h2
  injection h1 with h1
  injection h2 with h2
  refine ⟨h1.symm, h2.symm, fun i hi j hj => ?_⟩
  rw [h3, ar, ac, br, bc, Mat.bpos_lt hi, Mat.bpos_lt hj]
  simp [Mat.bpos]

theorem scatter_all {α : Type} {a v r : Mat α} {M N : ℕ} (h : a.scatter (Idx.all M N) v = .ok r) (hv : v.rows = M) (hc : v.cols = N) :
    ∀ m < M, ∀ n < N, r.get m n = v.get m n := by
  obtain ⟨-, -, -, -, z, -, -⟩ := Mat.scatter_ok h
  intro m hm n hn
  obtain ⟨i, hi, j, hj, rfl, rfl, e⟩ := z m n (sel_all hm hn)
  rw [e, hv, hc]
  simp only [Idx.all] at *
  rw [Mat.bpos_lt hi, Mat.bpos_lt hj]
  rfl

theorem noise_shape {env : Env K V} (hno : NoiseOK env) {q : St K V} {d n : Mat V} (h : env.noise q = .ok n) (hd : q.drift = some d) :
    n.rows = d.rows ∧ n.cols = d.cols := by
  obtain ⟨n', h1, h2⟩ := hno q d hd
  rw [h] at h1
  injection h1 with h1
  subst h1
  exact h2

theorem psoInner_position {K V : Type} [Field K] [LinearOrder K] [AddCommGroup V] [Module K V] {env : Env K V} (hcorr : env.corr = .none) (hno : NoiseOK env) {r : List (K × Flt K × V) → V} (hr : env.cons = .mean r)
    {p : PsoPar K} {s s' : St K V} (w : MemShape s) (vr : s.aux2.rows = s.M) (vc : s.aux2.cols = s.N) (full : s.active.length = s.M)
    (hp : s.pIdx = Idx.all s.M s.N) (hc : s.cIdx = Idx.all s.M s.N) (h0 : s.sigma = 0) (h1 : p.sm = 0) (h : psoInner env p s = .ok s') :
    p.m + p.gamma * s.dt ≠ 0 ∧ ∃ c, s'.cons = some c ∧ ∀ m < s.M, ∀ n < s.N, s'.x.get m n = s.x.get m n + (s.dt * (p.m + p.gamma * s.dt)⁻¹) •
      ((p.m * s.dt) • s.aux2.get m n + (s.lamda * s.dt) • (s.x.get m n - c.get m 0) + (p.lm * s.dt) • (s.x.get m n - s.aux1.get m n)) := by
  simp only [psoInner, bind_ok] at h
  obtain ⟨q1, hq1, q2, hq2, hq3⟩ := h
  have f3 := psoUpdate_frame hq3
  have f2 := (psoPosition_frame hq2).1
  have f1 := (psoVelocity_frame hq1).1
  simp only [psoVelocity, bind_ok] at hq1
  obtain ⟨yb, hyb, eb, heb, ww, hww, wx, hwx, xp, hxp, dc, hdc, yp, hyp, dm, hdm, n1, hn1, n2, hn2, hq1⟩ := hq1
  split_ifs at hq1 with hz
  simp only [bind_ok, pure_ok, correction, hcorr] at hq1
  obtain ⟨vp, hvp, a0, rfl, a1, ha1, a2, ha2, a3, ha3, a4, ha4, v, hv, rfl⟩ := hq1
  simp only [hp, hc] at hyb heb hxp hyp hvp hv
  have e1 := gather_all hyb w.yr w.yc
  have e2 := gather_all heb w.er w.ec
  have e3 := gather_all hxp w.xr w.xc
  have e4 := gather_all hyp w.yr w.yc
  have e5 := gather_all hvp vr vc
  subst e1 e2 e3 e4 e5
  obtain ⟨w1, w2, -⟩ := Mat.bin_ok hww
  simp only [alphaActive] at w1 w2
  rw [w.er, full, Mat.bdim_self] at w1
  injection w1 with w1
  obtain ⟨w3, -, -⟩ := Mat.bin_ok hwx
  rw [← w1, w.yr, Mat.bdim_self] at w3
  injection w3 with w3
  have hcr : (env.cons.apply wx).rows = s.M := by rw [hr]; exact w3.symm
  have hcc : (env.cons.apply wx).cols = 1 := by rw [hr]; rfl
  obtain ⟨d1, d2, d3⟩ := bin_one hdc w.xr w.xc hcr hcc
  obtain ⟨m1, m2, m3⟩ := bin_full hdm w.xr w.xc w.yr w.yc
  obtain ⟨g1, g2⟩ := noise_shape hno hn1 rfl
  obtain ⟨g3, g4⟩ := noise_shape hno hn2 rfl
  obtain ⟨r1, c1, x1⟩ := bin_full ha1 vr vc (by simpa [Mat.map] using d1) (by simpa [Mat.map] using d2)
  obtain ⟨r2, c2, x2⟩ := bin_full ha2 r1 c1 m1 m2
  obtain ⟨r3, c3, x3⟩ := bin_full ha3 r2 c2 (g1.trans d1) (g2.trans d2)
  obtain ⟨r4, c4, x4⟩ := bin_full ha4 r3 c3 (g3.trans m1) (g4.trans m2)
  have hv' := scatter_all hv (by simpa [Mat.map] using r4) (by simpa [Mat.map] using c4)
  obtain ⟨-, v1, v2, -⟩ := Mat.scatter_ok hv
  simp only [psoPosition, bind_ok, pure_ok] at hq2
  obtain ⟨xp', hxp', vp', hvp', xn, hxn, xs, hxs, rfl⟩ := hq2
  simp only [hp] at hxp' hvp' hxs
  have e6 := gather_all hxp' w.xr w.xc
  have e7 := gather_all hvp' (v1.trans vr) (v2.trans vc)
  subst e6 e7
  obtain ⟨r5, c5, x5⟩ := bin_full hxn w.xr w.xc (v1.trans vr) (v2.trans vc)
  have hx' := scatter_all hxs r5 c5
  refine ⟨hz, env.cons.apply wx, by rw [f3], fun m hm n hn => ?_⟩
  have hx3 : s'.x = xs := by rw [f3]
  rw [hx3, hx' m hm n hn, x5 m hm n hn, hv' m hm n hn]
  simp only [Mat.map]
  rw [x4 m hm n hn, x3 m hm n hn, x2 m hm n hn, x1 m hm n hn]
  simp only [Mat.map]
  rw [d3 m hm n hn, m3 m hm n hn, h0, h1, zero_smul, zero_smul, add_zero, add_zero, smul_smul]

theorem preStep_full {env : Env K V} {s : St K V} (hb : s.batched = false) (full : s.active.length = s.M) :
    (preStep env s).pIdx = Idx.all s.M s.N ∧ (preStep env s).cIdx = Idx.all s.M s.N := by
  unfold preStep setBatch
  rw [if_neg (by simp [hb])]
  unfold setBatchUnbatched
  simp [full]

end
theorem memEnv_perm : PermOK Example.memEnv := Example.perm_ok fun _ => .error .value

theorem memEnv_ok : PostOK Example.memEnv ∧ NoiseOK Example.memEnv ∧ (∀ s, NoNaN Example.memEnv.f s) ∧
    (∀ q x', Example.memEnv.post q = .ok x' → ∀ m n, Example.memEnv.f (x'.get m n) = Example.memEnv.f (q.x.get m n)) := by
  refine ⟨?_, ?_, ?_, ?_⟩
  · intro s x' h
    simp only [Example.memEnv] at h
    injection h with h
    subst h
    exact ⟨rfl, rfl⟩
  · intro s d h
    simp only [Example.memEnv, Example.env, h]
    exact ⟨_, rfl, rfl, rfl⟩
  · intro s m v _
    simp [Example.memEnv, Example.env]
  · intro q x' h
    simp only [Example.memEnv] at h
    injection h with h
    subst h
    intro m n
    rfl

end Verif
