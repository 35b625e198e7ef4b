import Verif.Spec.ObjScale
import Verif.Proofs.Adam
import Verif.Proofs.MirrorDyn
import Verif.Proofs.Equivariance
import Verif.Proofs.Consensus
import Verif.Model.Polar

/-! Helper lemmas for `Props/ObjScale.lean`: runs with objectives `f` and `c * f + b`. -/

set_option linter.unusedSectionVars false

namespace Verif

section
variable {K V : Type} [Field K] [LinearOrder K] [IsStrictOrderedRing K] [AddCommGroup V] [Module K V]

variable {c b : K}

theorem affE_nan (c b : K) : affE c b .nan = .nan := rfl

theorem affE_fin (c b e : K) : affE c b (.fin e) = .fin (c * e + b) := rfl

theorem affE_pinf (hc : 0 < c) : affE c b .pinf = .pinf := by
  simp [affE, Flt.mul, Flt.infTimes, hc, Flt.add]

theorem affE_ninf (hc : 0 < c) : affE c b .ninf = .ninf := by
  simp [affE, Flt.mul, Flt.infTimes, hc, Flt.add, Flt.neg]

theorem affE_isNaN (hc : 0 < c) (e : Flt K) : Flt.isNaN (affE c b e) = Flt.isNaN e := by
  cases e with
  | nan => rfl
  | fin e => rfl
  | pinf => rw [affE_pinf hc]
  | ninf => rw [affE_ninf hc]

theorem affE_lt (hc : 0 < c) (e e' : Flt K) : Flt.lt (affE c b e) (affE c b e') = Flt.lt e e' := by
  cases e <;> cases e' <;> simp only [affE_nan, affE_fin, affE_pinf hc, affE_ninf hc, Flt.lt, add_lt_add_iff_right, mul_lt_mul_iff_right₀ hc]

theorem affE_gt (hc : 0 < c) (e e' : Flt K) : Flt.gt (affE c b e) (affE c b e') = Flt.gt e e' := affE_lt hc e' e

theorem affE_minimum (hc : 0 < c) (e e' : Flt K) : Flt.minimum (affE c b e) (affE c b e') = affE c b (Flt.minimum e e') := by
  unfold Flt.minimum
  rw [affE_isNaN hc, affE_isNaN hc, affE_lt hc]
  split_ifs <;> rfl

theorem affE_sub (hc : 0 < c) (e e' : Flt K) : Flt.sub (affE c b e) (affE c b e') = Flt.mul (.fin c) (Flt.sub e e') := by
  cases e <;> cases e' <;> simp only [affE_nan, affE_fin, affE_pinf hc, affE_ninf hc, Flt.sub, Flt.neg, Flt.add, Flt.mul, Flt.infTimes, if_pos hc]
  congr 1
  ring

theorem affE_rowMin (hc : 0 < c) (n : ℕ) (g : ℕ → Flt K) : Flt.rowMin n (fun j => affE c b (g j)) = affE c b (Flt.rowMin n g) := by
  unfold Flt.rowMin
  beta_reduce
  generalize g 0 = e
  induction List.range (n - 1) generalizing e with
  | nil => rfl
  | cons j l ih =>
    rw [List.foldl_cons, List.foldl_cons, affE_minimum hc]
    exact ih _

theorem affE_rowArgmin (hc : 0 < c) (n : ℕ) (g : ℕ → Flt K) : Flt.rowArgmin n (fun j => affE c b (g j)) = Flt.rowArgmin n g := by
  unfold Flt.rowArgmin
  simp only [affE_isNaN hc, affE_lt hc]

theorem affE_add (hc : 0 < c) (B : K) (e e' : Flt K) : Flt.add (affE c B e) (affE c b e') = affE c (B + b) (Flt.add e e') := by
  cases e <;> cases e' <;> simp only [affE_nan, affE_fin, affE_pinf hc, affE_ninf hc, Flt.add]
  congr 1
  ring

theorem affE_sum (hc : 0 < c) (l : List (Flt K)) : Flt.sum (l.map (affE c b)) = affE c (l.length * b) (Flt.sum l) := by
  have key : ∀ (l : List (Flt K)) (B : K) (e : Flt K), List.foldl Flt.add (affE c B e) (l.map (affE c b)) = affE c (B + l.length * b) (List.foldl Flt.add e l) := by
    intro l
    induction l with
    | nil => intro B e; simp
    | cons v l ih =>
      intro B e
      rw [List.map_cons, List.foldl_cons, List.foldl_cons, affE_add hc, ih]
      congr 1
      push_cast [List.length_cons]
      ring
  have h0 : (Flt.fin 0 : Flt K) = affE c 0 (.fin 0) := by simp [affE_fin]
  unfold Flt.sum
  conv_lhs => rw [h0]
  rw [key, zero_add]

theorem affE_divNat (hc : 0 < c) (n : ℕ) (hn : 0 < n) (e : Flt K) : Flt.divNat (affE c (n * b) e) n = affE c b (Flt.divNat e n) := by
  have h0 : n ≠ 0 := by omega
  have h1 : (n : K) ≠ 0 := Nat.cast_ne_zero.2 h0
  cases e with
  | nan => rw [affE_nan]; simp [Flt.divNat, h0, affE_nan]
  | fin e =>
    rw [affE_fin]
    simp only [Flt.divNat, h0, if_false, affE_fin]
    congr 1
    field_simp
  | pinf => rw [affE_pinf hc]; simp [Flt.divNat, h0, affE_pinf hc]
  | ninf => rw [affE_ninf hc]; simp [Flt.divNat, h0, affE_ninf hc]

theorem mul_affE (d : K) (e : Flt K) : Flt.mul (.fin d) e = affE d 0 e := by
  unfold affE
  cases Flt.mul (.fin d) e <;> simp [Flt.add]

theorem affE_sq (hc : 0 < c) (e : Flt K) : Flt.mul (affE c 0 e) (affE c 0 e) = affE (c * c) 0 (Flt.mul e e) := by
  have hcc : 0 < c * c := mul_pos hc hc
  cases e with
  | nan => rfl
  | fin e =>
    simp only [affE_fin, Flt.mul]
    congr 1
    ring
  | pinf => rw [affE_pinf hc]; simp [Flt.mul, affE_pinf hcc]
  | ninf => rw [affE_ninf hc]; simp [Flt.mul, affE_pinf hcc]

theorem affE_sqrt (hc : 0 < c) {sq sq' : K → K} (hsq : ∀ z, sq' (c * c * z) = c * sq z) (e : Flt K) : Flt.sqrt sq' (affE (c * c) 0 e) = affE c 0 (Flt.sqrt sq e) := by
  have hcc : 0 < c * c := mul_pos hc hc
  cases e with
  | nan => rfl
  | fin e =>
    simp only [affE_fin, Flt.sqrt, add_zero, hsq]
    have : c * c * e < 0 ↔ e < 0 := by
      constructor
      · intro h
        by_contra h'
        exact absurd (mul_nonneg hcc.le (not_lt.1 h')) (not_le.2 h)
      · intro h
        exact mul_neg_of_pos_of_neg hcc h
    simp only [this]
    split_ifs
    · rfl
    · simp [affE_fin]
  | pinf => rw [affE_pinf hcc]; simp [Flt.sqrt, affE_pinf hc]
  | ninf => rw [affE_ninf hcc]; simp [Flt.sqrt, affE_nan]

theorem affE_std (hc : 0 < c) {sq sq' : K → K} (hsq : ∀ z, sq' (c * c * z) = c * sq z) (l : List (Flt K)) (hl : l ≠ []) : Flt.std sq' (l.map (affE c b)) = affE c 0 (Flt.std sq l) := by
  have hn : 0 < l.length := List.length_pos_of_ne_nil hl
  unfold Flt.std
  simp only [affE_sum hc, List.length_map, affE_divNat hc _ hn, List.map_map, Function.comp_def, affE_sub hc, mul_affE, affE_sq hc]
  have := affE_sum (b := 0) (mul_pos hc hc) (l.map fun v => Flt.mul (Flt.sub v (Flt.divNat (Flt.sum l) l.length)) (Flt.sub v (Flt.divNat (Flt.sum l) l.length)))
  rw [List.map_map, Function.comp_def, List.length_map] at this
  rw [this, affE_divNat (mul_pos hc hc) _ hn, affE_sqrt hc hsq]

variable {env env' : Env K V} {s s' : St K V}

theorem preStep_affine (h : EnvAffine c b env env') : preStep env' (affineSt c b s) = affineSt c b (preStep env s) := by
  unfold preStep setBatch setBatchBatched setBatchUnbatched refill freshIndices affineSt
  rw [h.perm]
  simp only
  split_ifs <;> rfl

theorem bin_map_ok {α β γ α' β' γ' : Type} {f : α → β → γ} {f' : α' → β' → γ'} {φ : α → α'} {ψ : β → β'} {χ : γ → γ'} (hf : ∀ a b, f' (φ a) (ψ b) = χ (f a b)) {a : Mat α} {b : Mat β} {r : Mat γ}
    (h : Mat.bin f a b = .ok r) : Mat.bin f' (a.map φ) (b.map ψ) = .ok (r.map χ) := by
  unfold Mat.bin at h ⊢
  simp only [Mat.map]
  split at h
  · injection h with h
    subst h
    simp only [hf]
  · cases h

theorem scatter_map_ok {α β : Type} (φ : α → β) {a v r : Mat α} {ix : Idx} (h : a.scatter ix v = .ok r) : (a.map φ).scatter ix (v.map φ) = .ok (r.map φ) := by
  have := Mat.scatter_rel φ a v ix
  rw [h] at this
  cases hx : (a.map φ).scatter ix (v.map φ) with
  | error e => rw [hx] at this; exact this.elim
  | ok w => rw [hx] at this; exact congrArg _ this

theorem cons_affine {F : Flt K → Prop} {k : Cons K V} (hk : ConsAffine c b F k) (al : ℕ → K) {A : Mat (K × Flt K × V)} {E : Mat (Flt K)} {X : Mat V} {re ce rx cx : ℕ → ℕ}
    (hA : A.get = fun i j => (al i, E.get (re i) (ce j), X.get (rx i) (cx j))) (hF : ∀ i j, F (E.get i j)) :
    k.apply (A.map fun q => (q.1 / c, affE c b q.2.1, q.2.2)) = k.apply A := by
  cases k with
  | mean r =>
    simp only [Cons.apply]
    show (⟨A.rows, 1, _⟩ : Mat V) = ⟨A.rows, 1, _⟩
    congr 1
    funext i _
    have := hk (al i) ((List.range A.cols).map fun j => (E.get (re i) (ce j), X.get (rx i) (cx j))) (fun q hq => by
      obtain ⟨j, -, rfl⟩ := List.mem_map.1 hq
      exact hF _ _)
    simp only [List.map_map, Function.comp_def] at this
    simp only [Mat.row, Mat.map, hA]
    exact this
  | polar r =>
    simp only [Cons.apply]
    show (⟨A.rows, A.cols, _⟩ : Mat V) = ⟨A.rows, A.cols, _⟩
    congr 1
    funext i j
    have := hk (al i) ((List.range A.cols).map fun j => (E.get (re i) (ce j), X.get (rx i) (cx j))) j (fun q hq => by
      obtain ⟨j, -, rfl⟩ := List.mem_map.1 hq
      exact hF _ _)
    simp only [List.map_map, Function.comp_def] at this
    simp only [Mat.row, Mat.map, hA]
    exact this

theorem computeConsensus_affine (h : EnvAffine c b env env') (hs : computeConsensus env s = .ok s') : computeConsensus env' (affineSt c b s) = .ok (affineSt c b s') := by
  simp only [computeConsensus, bind_ok, pure_ok, evalF, callF] at hs ⊢
  obtain ⟨xb, h1, q, h2, w, h3, wx, h4, en, h5, rfl⟩ := hs
  have ef : xb.map env'.f = (xb.map env.f).map (affE c b) := by
    simp only [Mat.map, h.f]
  refine ⟨xb, h1, q, ?_, w.map fun q => (q.1 / c, affE c b q.2), ?_, wx.map fun q => (q.1 / c, affE c b q.2.1, q.2.2), ?_, en.map (affE c b), ?_, ?_⟩
  · unfold emptyCheck at h2 ⊢
    rw [h.emptyRaises]
    exact h2
  · rw [ef]
    exact bin_map_ok (φ := fun a => a / c) (ψ := affE c b) (χ := fun q : K × Flt K => (q.1 / c, affE c b q.2)) (fun _ _ => rfl) h3
  · exact bin_map_ok (φ := fun q : K × Flt K => (q.1 / c, affE c b q.2)) (ψ := fun v : V => v) (χ := fun q : K × Flt K × V => (q.1 / c, affE c b q.2.1, q.2.2)) (fun _ _ => rfl) h4
  · rw [ef]
    exact scatter_map_ok (affE c b) h5
  · have hc : env'.cons.apply (wx.map fun q => (q.1 / c, affE c b q.2.1, q.2.2)) = env.cons.apply wx := by
      rw [h.cons]
      unfold Mat.bin at h3 h4
      split at h3
      swap
      · cases h3
      injection h3 with h3
      split at h4
      swap
      · cases h4
      injection h4 with h4
      subst h3
      subst h4
      exact cons_affine (E := xb.map env.f) h.rule _ rfl fun i j => ⟨_, rfl⟩
    rw [hc]
    rfl

theorem correction_affine (hc : 0 < c) (h : EnvAffine c b env env') {d d' : Mat V} (hs : correction env d s = .ok (d', s')) : correction env' d (affineSt c b s) = .ok (d', affineSt c b s') := by
  have hk := h.corr
  unfold correction at hs ⊢
  cases he : env.corr with
  | none =>
    rw [he] at hs hk
    rw [hk]
    simp only [pure_ok, Prod.mk.injEq] at hs ⊢
    exact ⟨hs.1, by rw [hs.2]⟩
  | custom k =>
    rw [he] at hs hk
    obtain ⟨k', h1, h2⟩ := hk
    rw [h1]
    simp only [bind_ok, pure_ok, Prod.mk.injEq] at hs ⊢
    obtain ⟨e, h3, h4, h5⟩ := hs
    exact ⟨e, by rw [h2]; exact h3, h4, by rw [h5]⟩
  | heavi g =>
    rw [he] at hs hk
    obtain ⟨g', hk1, hk2⟩ := hk
    rw [hk1]
    simp only at hs ⊢
    show (match s.cons with | none => _ | some c => _) = _
    cases hcons : s.cons with
    | none => rw [hcons] at hs; cases hs
    | some k =>
      rw [hcons] at hs
      simp only [bind_ok, pure_ok, callF, Prod.mk.injEq] at hs ⊢
      obtain ⟨z, h1, e, h2, h3, h4⟩ := hs
      have ef : k.map env'.f = (k.map env.f).map (affE c b) := by
        simp only [Mat.map, h.f]
      refine ⟨z.map (Flt.mul (.fin c)), ?_, e, ?_, h3, by rw [← h4, ← hcons]; rfl⟩
      · rw [ef]
        exact bin_map_ok (χ := Flt.mul (.fin c)) (fun a b => affE_sub hc a b) h1
      · have := bin_map_ok (f' := fun (v : V) z => g' z v) (φ := fun v => v) (ψ := Flt.mul (.fin c)) (χ := fun v : V => v) (fun v z => hk2 z v) h2
        exact this

/-- Moves that commute with the change of the objective. -/
def MoveAffine (c b : K) (m m' : St K V → Except Err (St K V)) : Prop := ∀ s s', m s = .ok s' → m' (affineSt c b s) = .ok (affineSt c b s')

theorem cboMove_affine (hc : 0 < c) (h : EnvAffine c b env env') : MoveAffine c b (cboMove env) (cboMove env') := by
  intro s s' hs
  unfold cboMove at hs ⊢
  show (match s.cons with | none => _ | some c => _) = _
  cases hk : s.cons with
  | none => rw [hk] at hs; cases hs
  | some k =>
    rw [hk] at hs
    simp only [bind_ok, pure_ok] at hs ⊢
    obtain ⟨xp, m1, d, m2, ⟨d', q⟩, m3, z, m4, u, m5, X, m6, rfl⟩ := hs
    exact ⟨xp, m1, d, m2, ⟨d', affineSt c b q⟩, correction_affine hc h m3, z, (h.noise _).trans m4, u, m5, X, m6, rfl⟩

theorem mirrorMove_affine (hc : 0 < c) (h : EnvAffine c b env env') (gc : V → V) : MoveAffine c b (mirrorMove env gc) (mirrorMove env' gc) := by
  intro s s' hs
  unfold mirrorMove at hs ⊢
  show (match s.cons with | none => _ | some c => _) = _
  cases hk : s.cons with
  | none => rw [hk] at hs; cases hs
  | some k =>
    rw [hk] at hs
    simp only [bind_ok, pure_ok] at hs ⊢
    obtain ⟨xp, m1, d, m2, ⟨d', q⟩, m3, z, m4, u, m5, X, m6, rfl⟩ := hs
    exact ⟨xp, m1, d, m2, ⟨d', affineSt c b q⟩, correction_affine hc h m3, z, (h.noise _).trans m4, u, m5, X, m6, rfl⟩

theorem adamMove_affine (h : EnvAffine c b env env') (A : AdamOps V) (β1 β2 : K) : MoveAffine c b (adamMove env A β1 β2) (adamMove env' A β1 β2) := by
  intro s s' hs
  unfold adamMove at hs ⊢
  show (match s.cons with | none => _ | some c => _) = _
  cases hk : s.cons with
  | none => rw [hk] at hs; cases hs
  | some k =>
    rw [hk] at hs
    simp only [bind_ok, pure_ok] at hs ⊢
    obtain ⟨xp, m1, d, m2, m, m3, v, m4, mf, m5, vf, m6, mp, m7, vp, m8, w, m9, n, m10, u, m11, X, m12, rfl⟩ := hs
    refine ⟨xp, m1, d, m2, m, m3, v, m4, mf, m5, vf, m6, mp, m7, vp, m8, w, m9, n, ?_, u, m11, X, m12, by rw [← hk]; rfl⟩
    rw [← hk] at m10
    exact (h.noise _).trans m10

theorem updateDiff_affine (h : EnvAffine c b env env') (hs : updateDiff env s = .ok s') : updateDiff env' (affineSt c b s) = .ok (affineSt c b s') := by
  unfold updateDiff at hs ⊢
  show (match s.xOld with | none => _ | some c => _) = _
  rw [h.normDiff]
  cases hk : s.xOld with
  | none =>
    rw [hk] at hs
    simp only [pure_ok] at hs ⊢
    rw [hs]
  | some o =>
    rw [hk] at hs
    simp only [bind_ok, pure_ok] at hs ⊢
    obtain ⟨p, h1, rfl⟩ := hs
    exact ⟨p, h1, by rw [← hk]; rfl⟩

theorem updateBestCur_affine (hc : 0 < c) (hs : updateBestCur s = .ok s') : updateBestCur (affineSt c b s) = .ok (affineSt c b s') := by
  unfold updateBestCur at hs ⊢
  split_ifs at hs with he
  rw [if_neg (show ¬ (affineSt c b s).energy.cols = 0 from he)]
  simp only [pure_ok] at hs ⊢
  subst hs
  have e1 : ∀ m, Flt.rowArgmin s.energy.cols (fun j => affE c b (s.energy.get m j)) = Flt.rowArgmin s.energy.cols (s.energy.get m) := fun m => affE_rowArgmin hc _ _
  have e2 : ∀ m, Flt.rowMin s.energy.cols (fun j => affE c b (s.energy.get m j)) = affE c b (Flt.rowMin s.energy.cols (s.energy.get m)) := fun m => affE_rowMin hc _ _
  simp only [affineSt, Mat.map, e1, e2]

theorem updateBest_affine (hc : 0 < c) : updateBest (affineSt c b s) = affineSt c b (updateBest s) := by
  unfold updateBest
  simp only [affineSt, affE_gt hc, apply_ite (affE c b)]

theorem trackEntry_affine (t : Track) : trackEntry (affineSt c b s) t = (trackEntry s t).map (Entry.affine c b) := by
  cases t <;> rfl

theorem applyTracks_affine (L : List Track) (h : Track → List (Entry K V)) :
    applyTracks (affineSt c b s) L (fun t => (h t).map (Entry.affine c b)) = fun t => (applyTracks s L h t).map (Entry.affine c b) := by
  induction L generalizing h with
  | nil => rfl
  | cons t L ih =>
    unfold applyTracks at ih ⊢
    rw [List.foldl_cons, List.foldl_cons, ← ih]
    congr 1
    funext t'
    rw [trackEntry_affine]
    split_ifs <;> simp

theorem track_affine (hs : track s = .ok s') : track (affineSt c b s) = .ok (affineSt c b s') := by
  unfold track at hs ⊢
  show (if s.saveInt = 0 then _ else if s.it % s.saveInt = 0 then _ else _) = _
  split_ifs at hs ⊢ with h1 h2
  · simp only [pure_ok] at hs ⊢
    subst hs
    have := applyTracks_affine (c := c) (b := b) (s := s) s.tracks s.hist
    simp only [affineSt] at this ⊢
    rw [this]
  · simp only [pure_ok] at hs ⊢
    subst hs
    rfl

theorem postStep_affine (hc : 0 < c) (h : EnvAffine c b env env') (hs : postStep env s = .ok s') : postStep env' (affineSt c b s) = .ok (affineSt c b s') := by
  simp only [postStep, bind_ok, pure_ok] at hs ⊢
  obtain ⟨x, h1, q1, h2, q2, h3, q3, h4, rfl⟩ := hs
  refine ⟨x, (h.post s).trans h1, affineSt c b q1, updateDiff_affine h h2, affineSt c b q2, updateBestCur_affine hc h3, affineSt c b q3, ?_, rfl⟩
  rw [updateBest_affine hc]
  exact track_affine h4

theorem evalTerm_affine (hc : 0 < c) (h : EnvAffine c b env env') {tm tm' : Term K} {B : ℕ → Bool} (hs : evalTerm env tm s = .ok (B, tm', s')) :
    evalTerm env' (Term.affine c b tm) (affineSt c b s) = .ok (B, Term.affine c b tm', affineSt c b s') := by
  cases tm with
  | energyStag p th lo =>
    simp only [evalTerm, evalStag, Term.affine] at hs ⊢
    have hlo : ∀ r m, (Option.map (fun (l : ℕ → ℕ → Flt K) r m => affE c b (l r m)) lo).getD (fun _ _ => .pinf) r m = affE c b (lo.getD (fun _ _ => .pinf) r m) := by
      intro r m
      cases lo with
      | none => exact (affE_pinf hc).symm
      | some l => rfl
    show (match s.cons with | none => _ | some c => _) = _
    cases hk : s.cons with
    | none =>
      rw [hk] at hs
      simp only [pure_ok, Prod.mk.injEq] at hs ⊢
      obtain ⟨h1, h2, h3⟩ := hs
      subst h3 h2 h1
      refine ⟨rfl, ?_, rfl⟩
      simp only [Option.map_some, Term.energyStag.injEq, true_and]
      congr 1
      funext r m
      exact hlo r m
    | some k =>
      rw [hk] at hs
      simp only at hs ⊢
      show (if ∀ m ∈ s.active, m < k.rows then _ else _) = _
      split_ifs at hs with h1 h2 h3
      rw [if_pos h1, if_neg h2]
      show (if s.active.length = 1 ∧ k.cols = 1 then _ else _) = _
      rw [if_pos h3]
      simp only [pure_ok, Prod.mk.injEq] at hs ⊢
      obtain ⟨e1, e2, e3⟩ := hs
      subst e3 e2 e1
      have hl : ∀ r m, (if r = s.it % p ∧ m = s.active.getD 0 0 then env'.f (k.get (s.active.getD 0 0) 0) else (Option.map (fun (l : ℕ → ℕ → Flt K) r m => affE c b (l r m)) lo).getD (fun _ _ => .pinf) r m) =
          affE c b (if r = s.it % p ∧ m = s.active.getD 0 0 then env.f (k.get (s.active.getD 0 0) 0) else lo.getD (fun _ _ => .pinf) r m) := by
        intro r m
        rw [hlo, h.f]
        split_ifs <;> rfl
      refine ⟨?_, ?_, rfl⟩
      · funext m
        have := affE_std (b := b) hc h.sqrt ((List.range p).map fun r => if r = s.it % p ∧ m = s.active.getD 0 0 then env.f (k.get (s.active.getD 0 0) 0) else lo.getD (fun _ _ => .pinf) r m)
          (by simp [h2])
        rw [List.map_map, Function.comp_def] at this
        simp only [← hl] at this
        have h5 := affE_lt (b := 0) hc (Flt.std env.sqrtK ((List.range p).map fun r => if r = s.it % p ∧ m = s.active.getD 0 0 then env.f (k.get (s.active.getD 0 0) 0) else lo.getD (fun _ _ => .pinf) r m)) th
        rw [← this, ← mul_affE] at h5
        exact h5
      · simp only [Option.map_some, Term.energyStag.injEq, true_and]
        congr 1
        funext r m
        exact hl r m
  | energyTol tol =>
    unfold evalTerm at hs
    simp only [pure_ok, Prod.mk.injEq] at hs
    obtain ⟨h1, h2, h3⟩ := hs
    subst h3 h2
    show (pure (fun m => Flt.lt (affE c b (s.fMin m)) (affE c b tol), _, _) : Except Err _) = _
    rw [pure_ok, ← h1]
    simp only [affE_lt hc]
  | custom i =>
    unfold evalTerm at hs
    simp only [pure_ok, Prod.mk.injEq] at hs
    obtain ⟨h1, h2, h3⟩ := hs
    subst h3 h2
    show (pure (env'.custom i (affineSt c b s), _, _) : Except Err _) = _
    rw [pure_ok, ← h1, h.custom]
  | maxIt n =>
    cases n <;>
    · unfold evalTerm at hs
      simp only [pure_ok, Prod.mk.injEq] at hs
      obtain ⟨h1, h2, h3⟩ := hs
      subst h3 h2 h1
      rfl
  | _ =>
    unfold evalTerm at hs
    simp only [pure_ok, Prod.mk.injEq] at hs
    obtain ⟨h1, h2, h3⟩ := hs
    subst h3 h2 h1
    rfl

theorem evalTerms_affine (hc : 0 < c) (h : EnvAffine c b env env') (tms : List (Term K)) {tms' : List (Term K)} {bs : List (ℕ → Bool)} (hs : evalTerms env tms s = .ok (bs, tms', s')) :
    evalTerms env' (tms.map (Term.affine c b)) (affineSt c b s) = .ok (bs, tms'.map (Term.affine c b), affineSt c b s') := by
  induction tms generalizing s bs tms' with
  | nil =>
    simp only [evalTerms, pure_ok, Prod.mk.injEq] at hs
    obtain ⟨h1, h2, h3⟩ := hs
    subst h1 h2 h3
    rfl
  | cons tm tms ih =>
    simp only [evalTerms, bind_ok, pure_ok, Prod.mk.injEq, List.map_cons] at hs ⊢
    obtain ⟨⟨B, tm', q⟩, h1, ⟨bs', l', q'⟩, h2, h3, h4, h5⟩ := hs
    simp only at h2 h3 h4 h5
    subst h5 h4
    exact ⟨⟨B, Term.affine c b tm', affineSt c b q⟩, evalTerm_affine hc h h1, ⟨bs', l'.map (Term.affine c b), _⟩, ih h2, h3, by simp, rfl⟩

/-- All operations of both dynamics. -/
theorem exec_affine (hc : 0 < c) (h : EnvAffine c b env env') {m m' : St K V → Except Err (St K V)} (hm : MoveAffine c b m m') (o : Op) (hs : exec env (consThen env m) o s = .ok s') :
    exec env' (consThen env' m') o (affineSt c b s) = .ok (affineSt c b s') := by
  cases o with
  | step =>
    obtain ⟨v, h1, h2⟩ := step_split.1 hs
    obtain ⟨q, h3, h4⟩ := consThen_split.1 h1
    refine step_split.2 ⟨affineSt c b v, ?_, postStep_affine hc h h2⟩
    rw [preStep_affine h]
    exact consThen_split.2 ⟨_, computeConsensus_affine h h3, hm _ _ h4⟩
  | select =>
    simp only [exec, selectActive, bind_ok, pure_ok] at hs ⊢
    obtain ⟨⟨bs, tms, q⟩, h3, h4⟩ := hs
    refine ⟨⟨bs, tms.map (Term.affine c b), affineSt c b q⟩, evalTerms_affine hc h _ h3, ?_⟩
    rw [← h4]
    rfl
  | sched =>
    simp only [exec, schedUpdate, bind_ok, pure_ok] at hs ⊢
    obtain ⟨q, h1, rfl⟩ := hs
    exact ⟨_, h.sched s q h1, rfl⟩
  | reset =>
    simp only [exec] at hs ⊢
    injection hs with hs
    subst hs
    congr 1
    unfold reset initHistory
    simp only [affineSt, St.mk.injEq, true_and, and_true]
    funext t
    cases t <;> rfl

theorem execAll_affine (hc : 0 < c) (h : EnvAffine c b env env') {m m' : St K V → Except Err (St K V)} (hm : MoveAffine c b m m') (ops : List Op) (hs : execAll env (consThen env m) ops s = .ok s') :
    execAll env' (consThen env' m') ops (affineSt c b s) = .ok (affineSt c b s') := by
  induction ops generalizing s with
  | nil =>
    simp only [execAll] at hs ⊢
    injection hs with hs
    rw [hs]
  | cons o ops ih =>
    simp only [execAll, bind_ok] at hs ⊢
    obtain ⟨q, h1, h2⟩ := hs
    exact ⟨_, exec_affine hc h hm o h1, ih h2⟩

theorem init_affine (hc : 0 < c) (h : EnvAffine c b env env') {a : Args K V} (hs : init env a = .ok s) :
    init env' { a with alpha := a.alpha / c, terms := a.terms.map (Term.affine c b) } = .ok (affineSt c b s) := by
  have e0 : baseSt { a with alpha := a.alpha / c, terms := a.terms.map (Term.affine c b) } = affineSt c b (baseSt a) := by
    unfold baseSt
    simp only [affineSt, Mat.map, affE_pinf hc, List.map_nil]
  have e1 : checkFDims env' (affineSt c b (baseSt a)) = affineSt c b (checkFDims env (baseSt a)) := by
    unfold checkFDims callF
    rw [h.sampler]
    rfl
  have e2 : ∀ q : St K V, initHistory a.tracks a.saveInt (affineSt c b q) = affineSt c b (initHistory a.tracks a.saveInt q) := by
    intro q
    unfold initHistory
    simp only [affineSt, St.mk.injEq, true_and, and_true]
    funext t
    cases t <;> rfl
  have e3 : ∀ q : St K V, initBatch env' { a with alpha := a.alpha / c, terms := a.terms.map (Term.affine c b) } (affineSt c b q) = affineSt c b (initBatch env a q) := by
    intro q
    unfold initBatch freshIndices
    rw [h.perm]
    rfl
  unfold init at hs ⊢
  split_ifs at hs with h1 h2
  · injection hs with hs
    rw [if_neg h1, e0, if_pos h2, e1, e2, e3, hs]
  · injection hs with hs
    rw [if_neg h1, e0, if_neg h2, e2, e3, hs]

theorem affineRun (c b : K) (s : St K V) : AffineRun c b s (affineSt c b s) := by
  constructor <;> first | rfl | exact ⟨rfl, rfl⟩ | exact ⟨rfl, rfl, rfl⟩ | intros; rfl

end

section
variable {V : Type} [AddCommGroup V] [Module ℝ V] {c b : ℝ}

theorem expWeight_affine (hc : 0 < c) (a : ℝ) (e : Flt ℝ) : expWeight (a / c) (affE c b e) = Real.exp (-(a / c * b)) * expWeight a e := by
  cases e with
  | nan => simp [affE_nan, expWeight]
  | pinf => simp [affE_pinf hc, expWeight]
  | ninf => simp [affE_ninf hc, expWeight]
  | fin e =>
    simp only [affE_fin, expWeight]
    rw [← Real.exp_add]
    congr 1
    field_simp
    ring

theorem expWeight_nonneg (a : ℝ) (e : Flt ℝ) : 0 ≤ expWeight a e := by
  cases e <;> simp [expWeight, Real.exp_nonneg]

/-- The default rule. -/
theorem consDefault_affine (hc : 0 < c) (a : ℝ) (L : List (Flt ℝ × V)) : consDefault (L.map fun q => (a / c, affE c b q.1, q.2)) = consDefault (L.map fun q => (a, q.1, q.2)) := by
  unfold consDefault
  rw [List.map_map, List.map_map]
  congr 1
  apply List.map_congr_left
  intro q hq
  simp only [Function.comp_def]
  congr 1
  obtain ⟨e, v⟩ := q
  cases e with
  | nan => simp [affE_nan, coeff]
  | pinf => simp [affE_pinf hc, coeff]
  | ninf => simp [affE_ninf hc, coeff]
  | fin e =>
    have hs : ((L.map fun q => (a / c, affE c b q.1, q.2)).map fun p : ℝ × Flt ℝ × V => expWeight p.1 p.2.1).sum =
        Real.exp (-(a / c * b)) * ((L.map fun q => (a, q.1, q.2)).map fun p : ℝ × Flt ℝ × V => expWeight p.1 p.2.1).sum := by
      simp only [List.map_map, Function.comp_def, expWeight_affine hc, List.sum_map_mul_left]
    have hp : 0 < ((L.map fun q => (a, q.1, q.2)).map fun p : ℝ × Flt ℝ × V => expWeight p.1 p.2.1).sum := by
      refine lt_of_lt_of_le (Real.exp_pos (-a * e)) ?_
      refine List.single_le_sum ?_ _ ?_
      · intro x hx
        simp only [List.map_map, List.mem_map] at hx
        obtain ⟨p, -, rfl⟩ := hx
        exact expWeight_nonneg _ _
      · simp only [List.map_map, List.mem_map]
        exact ⟨_, hq, rfl⟩
    simp only [coeff, affE_fin, lseWeights, hs]
    rw [Real.log_mul (Real.exp_pos _).ne' hp.ne', Real.log_exp]
    congr 1
    field_simp
    ring

end

section
variable {ι : Type} {c b : ℝ}

theorem polarWeight_affine (hc : 0 < c) (nl : Flt ℝ) (a : ℝ) (e : Flt ℝ) : polarWeight 1 nl (a / c) (affE c b e) = Flt.add (polarWeight 1 nl a e) (.fin (-(a / c * b))) := by
  have hi : ∀ x : ℝ, Flt.infTimes (x / c) = (Flt.infTimes x : Flt ℝ) := by
    intro x
    unfold Flt.infTimes
    have h1 : 0 < x / c ↔ 0 < x := by
      constructor
      · intro h; simpa [div_mul_cancel₀ x hc.ne'] using mul_pos h hc
      · intro h; exact div_pos h hc
    have h2 : x / c < 0 ↔ x < 0 := by
      constructor
      · intro h; simpa [div_mul_cancel₀ x hc.ne'] using mul_neg_of_neg_of_pos h hc
      · intro h; exact div_neg_of_neg_of_pos h hc
    simp only [h1, h2]
  unfold polarWeight
  generalize Flt.mul (.fin (-1)) nl = w
  cases e with
  | nan => cases w <;> rfl
  | pinf =>
    rw [affE_pinf hc]
    simp only [Flt.mul, hi]
    unfold Flt.infTimes
    split_ifs <;> cases w <;> rfl
  | ninf =>
    rw [affE_ninf hc]
    simp only [Flt.mul, hi]
    unfold Flt.infTimes
    split_ifs <;> cases w <;> rfl
  | fin e =>
    simp only [affE_fin, Flt.mul]
    cases w <;> simp only [Flt.sub, Flt.neg, Flt.add]
    congr 1
    field_simp
    ring

theorem softmax_shift (d : ℝ) (ws : List (Flt ℝ)) (w : Flt ℝ) (hw : w ∈ ws) : softmax (ws.map fun w => Flt.add w (.fin d)) (Flt.add w (.fin d)) = softmax ws w := by
  cases w with
  | nan => rfl
  | pinf => rfl
  | ninf => rfl
  | fin w =>
    have h1 : ∀ v : Flt ℝ, expFin (Flt.add v (.fin d)) = Real.exp d * expFin v := by
      intro v
      cases v <;> simp [Flt.add, expFin, Real.exp_add, mul_comm]
    have hp : 0 < (ws.map expFin).sum := by
      refine lt_of_lt_of_le (Real.exp_pos w) ?_
      refine List.single_le_sum ?_ _ (List.mem_map.2 ⟨_, hw, rfl⟩)
      intro x hx
      obtain ⟨p, -, rfl⟩ := List.mem_map.1 hx
      cases p <;> simp [expFin, Real.exp_nonneg]
    show Real.exp (w + d - Real.log ((ws.map fun w => Flt.add w (.fin d)).map expFin).sum) = Real.exp (w - Real.log (ws.map expFin).sum)
    simp only [List.map_map, Function.comp_def, h1, List.sum_map_mul_left]
    rw [Real.log_mul (Real.exp_pos _).ne' hp.ne', Real.log_exp]
    congr 1
    ring

theorem polarAt_affine (hc : 0 < c) (nl : (ι → ℝ) → (ι → ℝ) → Flt ℝ) (a : ℝ) (L : List (Flt ℝ × (ι → ℝ))) (xi : ι → ℝ) :
    polarAt nl KernelMode.const.kf (L.map fun q => (a / c, affE c b q.1, q.2)) xi = polarAt nl KernelMode.const.kf (L.map fun q => (a, q.1, q.2)) xi := by
  have hr : polarRow nl KernelMode.const.kf (L.map fun q => (a / c, affE c b q.1, q.2)) xi =
      (polarRow nl KernelMode.const.kf (L.map fun q => (a, q.1, q.2)) xi).map fun w => Flt.add w (.fin (-(a / c * b))) := by
    simp only [polarRow, KernelMode.kf, List.map_map, Function.comp_def, polarWeight_affine hc]
  unfold polarAt
  rw [hr, List.map_map, List.map_map]
  congr 1
  apply List.map_congr_left
  intro q hq
  simp only [Function.comp_def, KernelMode.kf]
  rw [polarWeight_affine hc, softmax_shift]
  simp only [polarRow, List.map_map, List.mem_map]
  exact ⟨q, hq, rfl⟩

end

end Verif
