import Verif.Proofs.Memory
import Verif.Proofs.Count

/-! Counting of objective evaluations in `CBOMemory` and `PSO`. Helper lemmas. -/

set_option linter.unusedSectionVars false

namespace Verif

section
variable {K V : Type} [Zero K] [One K] [Neg K] [Add K] [Sub K] [Mul K] [Inv K] [Div K] [NatCast K] [Pow K ℕ] [LinearOrder K] [Add V] [Sub V] [SMul K V]

theorem correction_quiet {env : Env K V} (hc : ∀ g, env.corr ≠ .heavi g) {d : Mat V} {s : St K V} {r : Mat V × St K V} (h : correction env d s = .ok r) : r.2 = s := by
  unfold correction at h
  split at h
  · rw [pure_ok] at h; subst h; rfl
  · simp only [bind_ok, pure_ok] at h
    obtain ⟨_, _, rfl⟩ := h
    rfl
  · rename_i g hg; exact absurd hg (hc g)

/-- Full activity: all runs are listed. -/
theorem active_full {s : St K V} (w : MemShape s) (h : s.active.length = s.M) : s.active = List.range s.M :=
  w.act.eq_of_length (by rw [List.length_range, h])

theorem gather_cols {α : Type} {a r : Mat α} {ix : Idx} (h : a.gather ix = .ok r) : r.cols = ix.cols := (Mat.gather_ok h).2.2.1

theorem memUpdate_charge {env : Env K V} {s s' : St K V} (w : MidShape s) (ha : s.active ≠ []) (h : memUpdate env s = .ok s') :
    ∀ m < s.M, s'.nEval m = s.nEval m + s.N := by
  have full := (memUpdate_remember w ha h).full
  simp only [memUpdate, bind_ok, pure_ok, evalF, callF] at h
  obtain ⟨xp, hxp, b, hb, yp, hyp, d, hd, u, hu, y, hy, en, hen, rfl⟩ := h
  have e := gather_cols hxp
  rw [w.sweep.cols] at e
  intro m hm
  have : m ∈ s.active := by rw [w.act.eq_of_length (by rw [List.length_range, full])]; exact List.mem_range.2 hm
  simp only [this, if_true, e]

theorem psoUpdate_charge {env : Env K V} {s s' : St K V} (w : MidShape s) (ha : s.active ≠ []) (h : psoUpdate env s = .ok s') :
    ∀ m < s.M, s'.nEval m = s.nEval m + s.N := by
  have full := (psoUpdate_remember w ha h).full
  simp only [psoUpdate, bind_ok, pure_ok, callF] at h
  obtain ⟨xp, hxp, yp, hyp, b, hb, d, hd, u, hu, t, ht, y, hy, en, hen, rfl⟩ := h
  have e := gather_cols hxp
  rw [w.sweep.cols] at e
  intro m hm
  simp only [e]

/-- The move of both dynamics without a Heaviside correction neither evaluates nor charges. -/
structure QuietThen (inner upd : St K V → Except Err (St K V)) : Prop where
  split : ∀ s s', inner s = .ok s' → ∃ v, upd v = .ok s' ∧
    (v = { s with x := v.x, drift := v.drift, draws := v.draws, aux2 := v.aux2, cons := v.cons }) ∧ v.x.rows = s.x.rows ∧ v.x.cols = s.x.cols

theorem mem_quietThen {env : Env K V} (hc : ∀ g, env.corr ≠ .heavi g) (lm sm : K) : QuietThen (memInner env lm sm) (memUpdate env) := by
  constructor
  intro s s' h
  simp only [memInner, bind_ok] at h
  obtain ⟨a, ha, b, hb, c, hc', hd⟩ := h
  have h1 := memConsensus_frame ha
  have r2 := (cboMove_ok env).rows _ _ hb
  have c2 := (cboMove_ok env).cols _ _ hb
  have h2 : b = { a with x := b.x, drift := b.drift, draws := b.draws } := by
    unfold cboMove at hb
    split at hb
    · cases hb
    · simp only [bind_ok, pure_ok] at hb
      obtain ⟨_, _, _, _, r, hr, _, _, _, _, _, _, rfl⟩ := hb
      rw [correction_quiet hc hr]
  obtain ⟨h3, r3, c3⟩ := memoryStep_frame hc'
  refine ⟨c, hd, ?_, ?_, ?_⟩
  · rw [h3, h2, h1]
  · rw [r3, r2, h1]
  · rw [c3, c2, h1]

theorem pso_quietThen {env : Env K V} (hc : ∀ g, env.corr ≠ .heavi g) (p : PsoPar K) : QuietThen (psoInner env p) (psoUpdate env) := by
  constructor
  intro s s' h
  simp only [psoInner, bind_ok] at h
  obtain ⟨a, ha, b, hb, hc'⟩ := h
  have h1 : a = { s with cons := a.cons, drift := a.drift, draws := a.draws, aux2 := a.aux2 } := by
    simp only [psoVelocity, bind_ok] at ha
    obtain ⟨_, _, _, _, _, _, _, _, _, _, _, _, _, _, _, _, _, _, _, _, h⟩ := ha
    split_ifs at h with hz
    simp only [bind_ok, pure_ok] at h
    obtain ⟨_, _, r, hr, _, _, _, _, _, _, _, _, _, _, rfl⟩ := h
    rw [correction_quiet hc hr]
  obtain ⟨h2, r2, c2⟩ := psoPosition_frame hb
  refine ⟨b, hc', ?_, ?_, ?_⟩
  · rw [h2, h1]
  · rw [r2, h1]
  · rw [c2, h1]

/-- What a step charges and evaluates. -/
structure StepCharge (s s' : St K V) (X : Mat V) : Prop where
  rows : X.rows = s.M
  cols : X.cols = s.N
  log : s'.log = s.log ++ (X.entries id).map fun q => (Site.energy, q.1, q.2)
  nEval : ∀ m < s.M, s'.nEval m = s.nEval m + s.N

theorem stepCharge_of {env : Env K V} {inner upd : St K V → Except Err (St K V)} (hm : QuietThen inner upd)
    (hu : ∀ s s', MidShape s → s.active ≠ [] → upd s = .ok s' → Remember env s s')
    (hn : ∀ s s', MidShape s → s.active ≠ [] → upd s = .ok s' → ∀ m < s.M, s'.nEval m = s.nEval m + s.N)
    {s s' : St K V} (w : MemShape s) (hmv : s.batched = false ∨ s.batchPartial = false) (ha : s.active ≠ []) (h : StepShape env inner s s') : ∃ X, StepCharge s s' X := by
  obtain ⟨v, hv, bf⟩ := h.split
  obtain ⟨q, hq, fq, rq, cq⟩ := hm.split _ _ hv
  have pf := preStep_frame env s
  have eM : q.M = s.M := by rw [fq, pf]
  have eN : q.N = s.N := by rw [fq, pf]
  have eact : q.active = s.active := by rw [fq, pf]
  have een : q.energy = s.energy := by rw [fq, pf]
  have ey : q.aux1 = s.aux1 := by rw [fq, pf]
  have ep : q.pIdx = (preStep env s).pIdx := by rw [fq]
  have el : q.log = s.log := by rw [fq, pf]
  have en : q.nEval = s.nEval := by rw [fq, pf]
  have px : (preStep env s).x = s.x := by rw [pf]
  have mid : MidShape q := by
    refine ⟨?_, ?_, ?_, ?_, ?_, ?_, ?_, ?_⟩
    · rw [rq, eM, px, w.xr]
    · rw [cq, eN, px, w.xc]
    · rw [een, eM, w.er]
    · rw [een, eN, w.ec]
    · rw [ey, eM, w.yr]
    · rw [ey, eN, w.yc]
    · rw [eact, eM]; exact w.act
    · rw [ep, eact, eN]; exact sweep_pre w.wf hmv
  have R := hu _ _ mid (by rw [eact]; exact ha) hq
  have C := hn _ _ mid (by rw [eact]; exact ha) hq
  have fb := bf.frame
  have sl : s'.log = v.log := by rw [fb]
  have sn : s'.nEval = v.nEval := by rw [fb]
  refine ⟨q.x, by rw [← eM]; exact mid.xr, by rw [← eN]; exact mid.xc, by rw [sl, R.log, el], fun m hm => ?_⟩
  rw [sn, C m (by rw [eM]; exact hm), en, eN]

theorem mem_charge {env : Env K V} (hperm : PermOK env) (hc : ∀ g, env.corr ≠ .heavi g) {lm sm : K} {s s' : St K V} (w : MemShape s) (ha : s.active ≠ [])
    (h : memStep env lm sm s = .ok s') : ∃ X, StepCharge s s' X :=
  stepCharge_of (mem_quietThen hc lm sm) (fun _ _ w a h => memUpdate_remember w a h) (fun _ _ w a h => memUpdate_charge w a h) w (mem_moves hperm w h) ha (memStep_shape h)

theorem pso_charge {env : Env K V} (hperm : PermOK env) (hc : ∀ g, env.corr ≠ .heavi g) {p : PsoPar K} {s s' : St K V} (w : MemShape s) (ha : s.active ≠ [])
    (h : psoStep env p s = .ok s') : ∃ X, StepCharge s s' X :=
  stepCharge_of (pso_quietThen hc p) (fun _ _ w a h => psoUpdate_remember w a h) (fun _ _ w a h => psoUpdate_charge w a h) w (pso_moves hperm w h) ha (psoStep_shape h)

theorem mem_charge_plain {env : Env K V} (hc : ∀ g, env.corr ≠ .heavi g) {lm sm : K} {s s' : St K V} (w : MemPlain s) (ha : s.active ≠ [])
    (h : memStep env lm sm s = .ok s') : ∃ X, StepCharge s s' X :=
  stepCharge_of (mem_quietThen hc lm sm) (fun _ _ w a h => memUpdate_remember w a h) (fun _ _ w a h => memUpdate_charge w a h) w.toMemShape (.inl w.nob) ha (memStep_shape h)

theorem pso_charge_plain {env : Env K V} (hc : ∀ g, env.corr ≠ .heavi g) {p : PsoPar K} {s s' : St K V} (w : MemPlain s) (ha : s.active ≠ [])
    (h : psoStep env p s = .ok s') : ∃ X, StepCharge s s' X :=
  stepCharge_of (pso_quietThen hc p) (fun _ _ w a h => psoUpdate_remember w a h) (fun _ _ w a h => psoUpdate_charge w a h) w.toMemShape (.inl w.nob) ha (psoStep_shape h)

theorem count_all {M : ℕ} (X : Mat V) (hX : X.rows = M) (m : ℕ) (hm : m < M) (site : Site) :
    ((X.entries id).map fun q => (site, q.1, q.2)).countP (fun q => decide (q.2.1 = m)) = X.cols := by
  rw [count_sites, count_entries, hX, count_range hm, one_mul]

theorem countInv_charge {s s' : St K V} {X : Mat V} (h : StepCharge s s' X) (hM : s'.M = s.M) (hi : CountInv s) : CountInv s' := by
  refine ⟨fun m hm => ?_, fun q hq => ?_⟩
  · rw [hM] at hm
    rw [h.nEval m hm, evalCount, h.log, List.countP_append, count_all X h.rows m hm, h.cols, hi.eq m hm, evalCount]
  · rw [h.log, List.mem_append] at hq
    rw [hM]
    rcases hq with hq | hq
    · exact hi.inRun q hq
    · simp only [List.mem_map, Mat.entries, List.mem_flatMap, List.mem_range] at hq
      obtain ⟨a, ⟨i, hi', j, hj, rfl⟩, rfl⟩ := hq
      rw [← h.rows]; exact hi'

theorem countInv_execBy {env : Env K V} {stp : St K V → Except Err (St K V)} {o : Op} {s s' : St K V} (w : MemShape s)
    (hstep : ∀ s s', MemShape s → s.active ≠ [] → stp s = .ok s' → (∃ X, HistStep env s s' X) ∧ ∃ X, StepCharge s s' X)
    (hl : o = .step → s.active ≠ []) (hi : CountInv s) (h : execBy env stp o s = .ok s') : CountInv s' := by
  cases o with
  | step =>
    obtain ⟨⟨X, hX⟩, Y, hY⟩ := hstep s s' w (hl rfl) h
    exact countInv_charge hY hX.frame.M hi
  | select =>
    simp only [execBy, selectActive, bind_ok, pure_ok] at h
    obtain ⟨r, hr, rfl⟩ := h
    exact countInv_congr (countInv_evalTerms hr w.act hi) rfl rfl rfl
  | sched =>
    have hf := sched_frame (show schedUpdate env s = .ok s' from h)
    exact countInv_congr hi (by rw [hf]) (by rw [hf]) (by rw [hf])
  | reset =>
    simp only [execBy] at h
    injection h with h
    subst h
    exact countInv_congr hi rfl rfl rfl

theorem countInv_execAllBy [MaskExact K V] {env : Env K V} {stp : St K V → Except Err (St K V)} {x0 : Mat V}
    (hstep : ∀ s s', MemShape s → s.active ≠ [] → stp s = .ok s' → (∃ X, HistStep env s s' X) ∧ ∃ X, StepCharge s s' X) :
    ∀ {l : List Op} {k : ℕ} {s s' : St K V}, Live env stp l s → MemInv env x0 k s → CountInv s → execAllBy env stp l s = .ok s' → CountInv s'
  | [], k, s, s', _, _, hi, h => by
    simp only [execAllBy] at h
    injection h with h
    subst h
    exact hi
  | o :: l, k, s, s', hl, hm, hi, h => by
    simp only [execAllBy, bind_ok] at h
    obtain ⟨q, hq, h⟩ := h
    exact countInv_execAllBy hstep (hl.2 q hq) (memInv_exec (fun s s' w a h => (hstep s s' w a h).1) hl.1 hm hq)
      (countInv_execBy hm.shape hstep hl.1 hi hq) h

theorem countInv_memInit {env : Env K V} {a : Args K V} {s : St K V} (h : memInit env a = .ok s) : CountInv s := by
  simp only [memInit, bind_ok, pure_ok] at h
  obtain ⟨s₀, h0, rfl⟩ := h
  have hx : s₀.x.rows = s₀.M ∧ s₀.x.cols = s₀.N := by
    unfold init at h0
    split_ifs at h0 <;> (injection h0 with h0; subst h0; exact ⟨rfl, rfl⟩)
  exact countInv_charge (X := s₀.x) (s := s₀) ⟨hx.1, hx.2, rfl, fun m _ => rfl⟩ rfl (countInv_init h0)

/-- Charges with criteria that do not evaluate. -/
theorem nEval_execAllBy [MaskExact K V] {env : Env K V} {stp : St K V → Except Err (St K V)} {x0 : Mat V}
    (hstep : ∀ s s', MemShape s → s.active ≠ [] → stp s = .ok s' → (∃ X, HistStep env s s' X) ∧ ∃ X, StepCharge s s' X) :
    ∀ {l : List Op} {k : ℕ} {s s' : St K V}, (∀ tm ∈ s.terms, Stateless tm) → Live env stp l s → MemInv env x0 k s → execAllBy env stp l s = .ok s' →
      s'.M = s.M ∧ s'.N = s.N ∧ ∀ m < s.M, s'.nEval m = s.nEval m + l.count .step * s.N
  | [], k, s, s', _, _, _, h => by
    simp only [execAllBy] at h
    injection h with h
    subst h
    simp
  | o :: l, k, s, s', ht, hl, hm, h => by
    simp only [execAllBy, bind_ok] at h
    obtain ⟨q, hq, h⟩ := h
    have hm' := memInv_exec (fun s s' w a h => (hstep s s' w a h).1) hl.1 hm hq
    have key : q.M = s.M ∧ q.N = s.N ∧ q.terms = s.terms ∧ ∀ m < s.M, q.nEval m = s.nEval m + if o = .step then s.N else 0 := by
      cases o with
      | step =>
        obtain ⟨⟨X, hX⟩, Y, hY⟩ := hstep s q hm.shape (hl.1 rfl) hq
        exact ⟨hX.frame.M, hX.frame.N, hX.frame.terms, by simpa using hY.nEval⟩
      | select =>
        obtain ⟨a, h1, h2, -⟩ := select_stateless (env := env) ht
        have e : selectActive env s = .ok q := hq
        rw [h1] at e
        injection e with e
        subst e
        refine ⟨by rw [h2], by rw [h2], by rw [h2], fun m _ => by rw [h2]; simp⟩
      | sched =>
        have hf := sched_frame (show schedUpdate env s = .ok q from hq)
        refine ⟨by rw [hf], by rw [hf], by rw [hf], fun m _ => by rw [hf]; simp⟩
      | reset =>
        simp only [execBy] at hq
        injection hq with hq
        subst hq
        exact ⟨rfl, rfl, rfl, fun m _ => by rw [if_neg (by simp)]; rfl⟩
    obtain ⟨k1, k2, k3, k4⟩ := key
    obtain ⟨i1, i2, i3⟩ := nEval_execAllBy hstep (by rw [k3]; exact ht) (hl.2 q hq) hm' h
    refine ⟨i1.trans k1, i2.trans k2, fun m hm => ?_⟩
    rw [i3 m (by rw [k1]; exact hm), k4 m hm, k2, List.count_cons]
    by_cases ho : o = .step
    · simp [ho]; ring
    · simp [ho]

theorem memInit_nEval {env : Env K V} {a : Args K V} {s : St K V} (h : memInit env a = .ok s) :
    s.M = a.x0.rows ∧ s.N = a.x0.cols ∧ s.terms = a.terms ∧ ∀ m, s.nEval m = (if a.checkF then 2 else 1) * a.x0.cols := by
  simp only [memInit, bind_ok, pure_ok] at h
  obtain ⟨s₀, h0, rfl⟩ := h
  unfold init at h0
  split_ifs at h0 with hz hc
  · injection h0 with h0
    subst h0
    refine ⟨rfl, rfl, rfl, fun m => ?_⟩
    simp [initBatch, initHistory, checkFDims, callF, baseSt, hc]; ring
  · injection h0 with h0
    subst h0
    refine ⟨rfl, rfl, rfl, fun m => ?_⟩
    simp [initBatch, initHistory, callF, baseSt, hc]

end
end Verif
