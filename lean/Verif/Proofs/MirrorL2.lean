import Verif.Proofs.MirrorDyn
import Verif.Spec.MirrorL2

/-! Helper lemmas for `Props/MirrorL2.lean`: `MirrorCBO` with a multiple of the squared norm as mirror map next to `CBO`. -/

set_option linter.unusedSectionVars false

namespace Verif

section
variable {K V : Type} [Field K] [LinearOrder K] [AddCommGroup V] [Module K V]

theorem scatterAdd_smul {X A X' u : Mat V} {ix : Idx} {l : K} (hr : A.rows = X.rows) (hc : A.cols = X.cols) (hx : X.scatterAdd ix u = .ok X')
    (hA : ∀ m n, ix.Sel m n → A.get m n = l • X.get m n) :
    ∃ A', A.scatterAdd ix (u.map (l • ·)) = .ok A' ∧ A'.rows = X.rows ∧ A'.cols = X.cols ∧ (∀ m n, ix.Sel m n → A'.get m n = l • X'.get m n) ∧ ∀ m n, ¬ ix.Sel m n → A'.get m n = A.get m n := by
  have hb := (Mat.scatterAdd_ok hx).1
  have hb' : ix.InBounds A.rows A.cols := by rw [hr, hc]; exact hb
  unfold Mat.scatterAdd Mat.gather at hx ⊢
  rw [if_pos hb] at hx
  rw [if_pos hb']
  simp only at hx ⊢
  unfold Mat.bto at hx ⊢
  split_ifs at hx with hs
  · have hs' : ((u.map (l • ·)).rows = ix.rows ∨ (u.map (l • ·)).rows = 1) ∧ ((u.map (l • ·)).cols = ix.cols ∨ (u.map (l • ·)).cols = 1) := hs
    rw [if_pos hs']
    simp only at hx ⊢
    unfold Mat.scatter Mat.bto at hx ⊢
    rw [if_pos hb, if_pos ⟨Or.inl rfl, Or.inl rfl⟩] at hx
    rw [if_pos hb', if_pos ⟨Or.inl rfl, Or.inl rfl⟩]
    simp only at hx ⊢
    injection hx with hx
    subst hx
    refine ⟨_, rfl, hr, hc, fun m n hm => ?_, fun m n hm => ?_⟩
    · obtain ⟨p, hp⟩ := Idx.lastPos_of_sel hm
      obtain ⟨h1, h2, h3, h4⟩ := Idx.lastPos_some hp
      simp only [hp]
      rw [Mat.bpos_lt h1, Mat.bpos_lt h2, h3, h4, hA m n hm, smul_add]
      rfl
    · cases hp : ix.lastPos m n with
      | none => simp only [hp]
      | some p =>
        obtain ⟨h1, h2, h3, h4⟩ := Idx.lastPos_some hp
        exact absurd ⟨p.1, h1, p.2, h2, h3, h4⟩ hm

theorem bin_smul {u d z : Mat V} {l a b c : K} (h : Mat.bin (cboUpdate (K := K) a b c) d z = .ok u) :
    Mat.bin (cboUpdate (K := K) (l * a) b (l * c)) d z = .ok (u.map (l • ·)) := by
  have e : (cboUpdate (K := K) (V := V) (l * a) b (l * c)) = fun p q => l • cboUpdate (K := K) a b c p q := by
    funext p q
    unfold cboUpdate
    rw [smul_add, smul_smul, smul_smul]
    congr 2
    ring
  rw [e]
  unfold Mat.bin at h ⊢
  split at h
  · injection h with h
    subst h
    rfl
  · cases h

variable {env : Env K V} {l a g : K} {A : Mat V} {s s' : St K V}

theorem preStep_dual : preStep env (setDual a g A s) = setDual a g A (preStep env s) := by
  unfold preStep setBatch setBatchBatched setBatchUnbatched refill setDual
  simp only
  split_ifs <;> rfl

theorem computeConsensus_dual (h : computeConsensus env s = .ok s') : computeConsensus env (setDual a g A s) = .ok (setDual a g A s') := by
  simp only [computeConsensus, bind_ok, pure_ok, evalF, callF] at h ⊢
  obtain ⟨xb, h1, q, h2, w, h3, wx, h4, en, h5, rfl⟩ := h
  exact ⟨xb, h1, q, h2, w, h3, wx, h4, en, h5, rfl⟩

theorem correction_dual (hb : DualBlind env l) {d d' : Mat V} (h : correction env d s = .ok (d', s')) : correction env d (setDual a g A s) = .ok (d', setDual a g A s') := by
  unfold correction at h ⊢
  cases hc : env.corr with
  | none =>
    rw [hc] at h
    simp only [pure_ok, Prod.mk.injEq] at h ⊢
    exact ⟨h.1, by rw [h.2]⟩
  | custom c =>
    rw [hc] at h
    simp only [bind_ok, pure_ok, Prod.mk.injEq] at h ⊢
    obtain ⟨e, h1, h2, h3⟩ := h
    exact ⟨e, by rw [hb.corr c hc]; exact h1, h2, by rw [h3]⟩
  | heavi c =>
    rw [hc] at h
    simp only at h ⊢
    show (match s.cons with | none => _ | some c => _) = _
    cases hk : s.cons with
    | none => rw [hk] at h; cases h
    | some k =>
      rw [hk] at h
      simp only [bind_ok, pure_ok, callF, Prod.mk.injEq] at h ⊢
      obtain ⟨z, h1, e, h2, h3, h4⟩ := h
      exact ⟨z, h1, e, h2, h3, by rw [← h4, ← hk]; rfl⟩

theorem updateDiff_dual (h : updateDiff env s = .ok s') : updateDiff env (setDual a g A s) = .ok (setDual a g A s') := by
  unfold updateDiff at h ⊢
  show (match s.xOld with | none => _ | some c => _) = _
  cases hk : s.xOld with
  | none =>
    rw [hk] at h
    simp only [pure_ok] at h ⊢
    rw [h]
  | some o =>
    rw [hk] at h
    simp only [bind_ok, pure_ok] at h ⊢
    obtain ⟨p, h1, rfl⟩ := h
    exact ⟨p, h1, by rw [← hk]; rfl⟩

theorem updateBestCur_dual (h : updateBestCur s = .ok s') : updateBestCur (setDual a g A s) = .ok (setDual a g A s') := by
  unfold updateBestCur at h ⊢
  split_ifs at h with hc
  rw [if_neg (show ¬ (setDual a g A s).energy.cols = 0 from hc)]
  simp only [pure_ok] at h ⊢
  subst h
  rfl

theorem applyTracks_dual (L : List Track) (h : Track → List (Entry K V)) : applyTracks (setDual a g A s) L h = applyTracks s L h := by
  induction L generalizing h with
  | nil => rfl
  | cons t L ih =>
    have e : trackEntry (setDual a g A s) = trackEntry s := by funext t; cases t <;> rfl
    unfold applyTracks at ih ⊢
    rw [List.foldl_cons, List.foldl_cons, ih, e]

theorem track_dual (h : track s = .ok s') : track (setDual a g A s) = .ok (setDual a g A s') := by
  unfold track at h ⊢
  show (if s.saveInt = 0 then _ else if s.it % s.saveInt = 0 then _ else _) = _
  split_ifs at h ⊢ with h1 h2
  · simp only [pure_ok] at h ⊢
    subst h
    rw [applyTracks_dual]
    rfl
  · simp only [pure_ok] at h ⊢
    subst h
    rfl

/-- `post_step` on a state with other `lamda`, `sigma`, dual variable and positions that post processing maps to the same points. -/
theorem postStep_dual {p : V → V} (hpm : PostMap env p) {X : Mat V} (hX : X.map p = s.x.map p) (h : postStep env s = .ok s') :
    postStep env (setDual a g A { s with x := X }) = .ok (setDual a g A s') := by
  simp only [postStep, bind_ok, pure_ok] at h ⊢
  obtain ⟨x, h1, q1, h2, q2, h3, q3, h4, rfl⟩ := h
  rw [hpm] at h1
  injection h1 with h1
  refine ⟨x, ?_, setDual a g A q1, ?_, setDual a g A q2, updateBestCur_dual h3, setDual a g A q3, ?_, rfl⟩
  · rw [hpm, ← h1]
    exact congrArg Except.ok hX
  · exact updateDiff_dual h2
  · exact track_dual h4

/-- Positions in range: dual variable is `l` times the position; elsewhere (entries without meaning) both have the same image under post processing. -/
def DualRel (p : V → V) (l : K) (s : St K V) (A : Mat V) : Prop :=
  A.rows = s.x.rows ∧ A.cols = s.x.cols ∧ (∀ m < s.M, ∀ n < s.N, A.get m n = l • s.x.get m n) ∧ ∀ m n, ¬ (m < s.M ∧ n < s.N) → p (l⁻¹ • A.get m n) = p (s.x.get m n)

/-- A step of `CBO` and of `MirrorCBO`. -/
theorem step_dual {p : V → V} (hpm : PostMap env p) (hp : PermOK env) (hpp : ∀ v, p (p v) = p v) (hb : DualBlind env l) (hl : l ≠ 0) (hw : WF s) (hA : DualRel p l s A)
    (h : step env (cboInner env) s = .ok s') (hin : ∀ v, ∀ m < s.M, ∀ n < s.N, p v = s'.x.get m n → p v = v) :
    ∃ A', step env (consThen env (mirrorMove env (l⁻¹ • ·))) (setDual (l * s.lamda) (l * s.sigma) A s) = .ok (setDual (l * s'.lamda) (l * s'.sigma) A' s') ∧ DualRel p l s' A' := by
  have f := step_frame (consThen_frame (cboMove_ok env)) (by rw [cboInner_eq] at h; exact h)
  obtain ⟨v, hv, hps⟩ := step_split.1 h
  rw [cboInner_eq] at hv
  obtain ⟨c, hc, hm⟩ := consThen_split.1 hv
  have p1 := preStep_frame env s
  have cf := computeConsensus_frame hc
  have pf := postStep_facts hps
  have hx := pf.post
  rw [hpm v] at hx
  injection hx with hx
  have ex : c.x = s.x := by rw [cf]; simp only; rw [p1]
  have ei : c.pIdx = (preStep env s).pIdx := by rw [cf]
  have el : c.lamda = s.lamda := by rw [cf]; simp only; rw [p1]
  have eg : c.sigma = s.sigma := by rw [cf]; simp only; rw [p1]
  have hsel : ∀ m n, c.pIdx.Sel m n → m < s.M ∧ n < s.N := fun m n hs => by
    rw [ei] at hs
    obtain ⟨h1, h2⟩ := pSel_active hp hw hs
    exact ⟨List.mem_range.1 (hw.act.subset h1), h2⟩
  unfold cboMove at hm
  cases hk : c.cons with
  | none => rw [hk] at hm; cases hm
  | some k =>
    rw [hk] at hm
    simp only [bind_ok, pure_ok] at hm
    obtain ⟨xp, m1, d, m2, ⟨d', q⟩, m3, z, m4, u, m5, X, m6, rfl⟩ := hm
    simp only at m3 m4 m5 m6
    have hq := (correction_facts m3).1
    simp only at hq
    have qx : q.x = s.x := by rw [hq, ex]
    have qi : q.pIdx = c.pIdx := by rw [hq]
    have ql : q.lamda = s.lamda := by rw [hq, el]
    have qg : q.sigma = s.sigma := by rw [hq, eg]
    rw [qx, qi] at m6
    obtain ⟨A', a1, a2, a3, a4, a5⟩ := scatterAdd_smul (l := l) (A := A) hA.1 hA.2.1 m6 fun m n hs => hA.2.2.1 m (hsel m n hs).1 n (hsel m n hs).2
    obtain ⟨-, x1, x2, x3, -, -, -⟩ := Mat.scatterAdd_ok m6
    have sx : ∀ m n, s'.x.get m n = p (X.get m n) := fun m n => by rw [← hx]; rfl
    have eM : s'.M = s.M := f.M
    have eN : s'.N = s.N := f.N
    have Ain : ∀ m < s.M, ∀ n < s.N, A'.get m n = l • X.get m n := fun m hm n hn => by
      by_cases hs : c.pIdx.Sel m n
      · exact a4 m n hs
      · rw [a5 m n hs, x3 m n hs, hA.2.2.1 m hm n hn]
    have key : ∀ m n, p (l⁻¹ • A'.get m n) = p (X.get m n) := fun m n => by
      by_cases hmn : m < s.M ∧ n < s.N
      · rw [Ain m hmn.1 n hmn.2, smul_smul, inv_mul_cancel₀ hl, one_smul]
      · have hs : ¬ c.pIdx.Sel m n := fun hs => hmn (hsel m n hs)
        rw [a5 m n hs, x3 m n hs]
        exact hA.2.2.2 m n hmn
    refine ⟨A', step_split.2 ⟨setDual (l * s.lamda) (l * s.sigma) A' { { { q with drift := some d' } with draws := q.draws + 1 } with x := ⟨s.x.rows, s.x.cols, fun i j => l⁻¹ • A'.get i j⟩ }, ?_, ?_⟩, ?_⟩
    · rw [preStep_dual]
      refine consThen_split.2 ⟨_, computeConsensus_dual hc, ?_⟩
      unfold mirrorMove
      show (match c.cons with | none => _ | some c => _) = _
      rw [hk]
      simp only [bind_ok, pure_ok]
      refine ⟨xp, m1, d, m2, ⟨d', setDual (l * s.lamda) (l * s.sigma) A q⟩, correction_dual hb m3, z, ?_, u.map (l • ·), ?_, A', ?_, ?_⟩
      · exact (hb.noise { q with drift := some d' } _ _ _).trans m4
      · rw [ql, qg] at m5
        exact bin_smul m5
      · show A.scatterAdd q.pIdx _ = _
        rw [qi]
        exact a1
      · show setDual (l * s.lamda) (l * s.sigma) A' { { { q with drift := some d' } with draws := q.draws + 1 } with x := ⟨q.x.rows, q.x.cols, fun i j => l⁻¹ • A'.get i j⟩ } = _
        rw [qx]
    · have e1 : s'.lamda = s.lamda := f.lamda
      have e2 : s'.sigma = s.sigma := f.sigma
      rw [e1, e2]
      have hX : (⟨s.x.rows, s.x.cols, fun i j => l⁻¹ • A'.get i j⟩ : Mat V).map p = X.map p := by
        simp only [Mat.map, Mat.mk.injEq]
        exact ⟨x1.symm, x2.symm, by funext m n; exact key m n⟩
      have hh := postStep_dual (a := l * s.lamda) (g := l * s.sigma) (A := A') hpm hX hps
      exact hh
    · refine ⟨by rw [a2, ← hx]; exact x1.symm, by rw [a3, ← hx]; exact x2.symm, fun m hm n hn => ?_, fun m n hmn => ?_⟩
      · rw [eM] at hm
        rw [eN] at hn
        rw [Ain m hm n hn, sx, hin (X.get m n) m hm n hn (sx m n).symm]
      · rw [key, sx, hpp]

theorem evalTerm_dual (hb : DualBlind env l) {tm tm' : Term K} {b : ℕ → Bool} (h : evalTerm env tm s = .ok (b, tm', s')) :
    evalTerm env tm (setDual a g A s) = .ok (b, tm', setDual a g A s') := by
  cases tm with
  | energyStag p th lo =>
    unfold evalTerm evalStag at h ⊢
    simp only at h ⊢
    show (match s.cons with | none => _ | some c => _) = _
    cases hk : s.cons with
    | none =>
      rw [hk] at h
      simp only [pure_ok, Prod.mk.injEq] at h ⊢
      exact ⟨h.1, h.2.1, by rw [h.2.2]⟩
    | some c =>
      rw [hk] at h
      simp only at h ⊢
      split_ifs at h with h1 h2 h3
      rw [if_pos (show ∀ m ∈ (setDual a g A s).active, m < c.rows from h1), if_neg h2, if_pos (show (setDual a g A s).active.length = 1 ∧ c.cols = 1 from h3)]
      simp only [pure_ok, Prod.mk.injEq] at h ⊢
      exact ⟨h.1, h.2.1, by rw [← h.2.2]; rfl⟩
  | custom i =>
    unfold evalTerm at h ⊢
    simp only [pure_ok, Prod.mk.injEq] at h ⊢
    exact ⟨by rw [hb.custom]; exact h.1, h.2.1, by rw [h.2.2]⟩
  | maxIt n =>
    cases n <;>
    · unfold evalTerm at h ⊢
      simp only [pure_ok, Prod.mk.injEq] at h ⊢
      exact ⟨h.1, h.2.1, by rw [h.2.2]⟩
  | _ =>
    unfold evalTerm at h ⊢
    simp only [pure_ok, Prod.mk.injEq] at h ⊢
    exact ⟨h.1, h.2.1, by rw [h.2.2]⟩

theorem evalTerms_dual (hb : DualBlind env l) (tms : List (Term K)) {tms' : List (Term K)} {bs : List (ℕ → Bool)} (h : evalTerms env tms s = .ok (bs, tms', s')) :
    evalTerms env tms (setDual a g A s) = .ok (bs, tms', setDual a g A s') := by
  induction tms generalizing s bs tms' with
  | nil =>
    simp only [evalTerms, pure_ok, Prod.mk.injEq] at h ⊢
    exact ⟨h.1, h.2.1, by rw [h.2.2]⟩
  | cons tm tms ih =>
    simp only [evalTerms, bind_ok, pure_ok, Prod.mk.injEq] at h ⊢
    obtain ⟨⟨b, tm', q⟩, h1, ⟨bs', l', q'⟩, h2, h3, h4, h5⟩ := h
    simp only at h2 h3 h4 h5
    subst h5
    exact ⟨⟨b, tm', setDual a g A q⟩, evalTerm_dual hb h1, ⟨bs', l', _⟩, ih h2, h3, h4, rfl⟩

/-- The other operations of both dynamics. -/
theorem exec_dual {p : V → V} (hb : DualBlind env l) (hA : DualRel p l s A) {o : Op} (ho : o ≠ .step) {i₁ i₂ : St K V → Except Err (St K V)} (h : exec env i₁ o s = .ok s') :
    exec env i₂ o (setDual (l * s.lamda) (l * s.sigma) A s) = .ok (setDual (l * s'.lamda) (l * s'.sigma) A s') ∧ DualRel p l s' A := by
  cases o with
  | step => exact absurd rfl ho
  | select =>
    have e := select_frame h
    refine ⟨?_, by rw [e]; exact hA⟩
    have h1 : s'.lamda = s.lamda := by rw [e]
    have h2 : s'.sigma = s.sigma := by rw [e]
    rw [h1, h2]
    simp only [exec, selectActive, bind_ok, pure_ok] at h ⊢
    obtain ⟨⟨bs, tms, q⟩, h3, h4⟩ := h
    refine ⟨⟨bs, tms, setDual (l * s.lamda) (l * s.sigma) A q⟩, evalTerms_dual hb _ h3, ?_⟩
    rw [← h4]
    rfl
  | sched =>
    have e := sched_frame h
    refine ⟨?_, by rw [e]; exact hA⟩
    simp only [exec, schedUpdate, bind_ok, pure_ok] at h ⊢
    obtain ⟨q, h1, rfl⟩ := h
    exact ⟨_, hb.sched s A q h1, rfl⟩
  | reset =>
    simp only [exec] at h ⊢
    injection h with h
    subst h
    exact ⟨rfl, hA⟩

end

end Verif
