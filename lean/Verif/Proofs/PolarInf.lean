import Verif.Proofs.Local
import Verif.Proofs.Term
import Verif.Proofs.Run
import Verif.Spec.PolarInf

/-! Helper lemmas for `Props/PolarInf.lean`: `PolarCBO` whose rule gives every particle the consensus of its run, next to `CBO`. -/

set_option linter.unusedSectionVars false

namespace Verif

section
variable {K V : Type} [Zero K] [One K] [Neg K] [Add K] [Sub K] [Mul K] [Inv K] [Div K] [NatCast K] [Pow K ℕ] [LinearOrder K] [Add V] [Sub V] [SMul K V]

/-- The state with another consensus, history and record. -/
def setCons (c : Option (Mat V)) (h : Track → List (Entry K V)) (l : List (Site × ℕ × V)) (s : St K V) : St K V := { s with cons := c, hist := h, log := l }

/-- The consensus of a mean rule. -/
def Flat (c : Mat V) : Prop := c.cols = 1 ∧ ∀ i j, c.get i j = c.get i 0

theorem bin_flat {α β : Type} {f : α → V → β} {a : Mat α} {c d : Mat V} (hc : Flat c) (hr : d.rows = c.rows) (hd : d.cols = a.cols) (hg : ∀ i j, d.get i j = c.get i 0) : Mat.bin f a d = Mat.bin f a c := by
  unfold Mat.bin
  rw [hr, hd, hc.1, Mat.bdim_self, Mat.bdim_one_right]
  cases Mat.bdim a.rows c.rows with
  | none => rfl
  | some r =>
    have e : ∀ i j, c.get i j = c.get i 0 := hc.2
    simp only [hg, e]

theorem bin_flatF {F : V → Flt K} {a : Mat (Flt K)} {c d : Mat V} (hc : Flat c) (hr : d.rows = c.rows) (hd : d.cols = a.cols) (hg : ∀ i j, d.get i j = c.get i 0) : Mat.bin Flt.sub a (d.map F) = Mat.bin Flt.sub a (c.map F) :=
  bin_flat (f := fun e v => Flt.sub e (F v)) hc hr hd hg

variable {env : Env K V} {r : List (K × Flt K × V) → V} {ρ : List (K × Flt K × V) → ℕ → V} {s s' : St K V} {c : Option (Mat V)} {h : Track → List (Entry K V)} {l : List (Site × ℕ × V)}

theorem preStep_setCons {ce : Cons K V} : preStep { env with cons := ce } (setCons c h l s) = setCons c h l (preStep env s) := by
  unfold preStep setBatch setBatchBatched setBatchUnbatched refill setCons
  simp only
  split_ifs <;> rfl

theorem computeConsensus_setCons (hr : env.cons = .mean r) (hρ : ∀ L i, ρ L i = r L) (hx : computeConsensus env s = .ok s') :
    ∃ k d l', s'.cons = some k ∧ Flat k ∧ d.rows = k.rows ∧ d.cols = s.cIdx.cols ∧ (∀ i j, d.get i j = k.get i 0) ∧ (l = s.log → l' = s'.log) ∧
      computeConsensus { env with cons := .polar ρ } (setCons c h l s) = .ok (setCons (some d) h l' s') := by
  simp only [computeConsensus, bind_ok, pure_ok, evalF, callF] at hx
  obtain ⟨xb, h1, q, h2, w, h3, wx, h4, en, h5, rfl⟩ := hx
  have c0 := (Mat.gather_ok h1).2.2.1
  have c1 := (Mat.bin_ok h3).2.1
  have c2 := (Mat.bin_ok h4).2.1
  simp only [alphaActive, Mat.map] at c1
  rw [Mat.bdim_one_left] at c1
  injection c1 with c1
  rw [← c1, Mat.bdim_self] at c2
  injection c2 with c2
  refine ⟨env.cons.apply wx, (Cons.polar ρ).apply wx, l ++ (xb.entries s.cIdx.run).map (fun q => (Site.energy, q.1, q.2)), rfl, ?_, ?_, ?_, ?_, ?_, ?_⟩
  · rw [hr]
    exact ⟨rfl, fun _ _ => rfl⟩
  · rw [hr]
    rfl
  · show wx.cols = _
    rw [← c2, c0]
  · intro i j
    rw [hr]
    exact hρ _ _
  · intro e
    rw [e]
  · simp only [computeConsensus, bind_ok, pure_ok, evalF, callF]
    exact ⟨xb, h1, q, h2, w, h3, wx, h4, en, h5, rfl⟩

theorem correction_setCons (hb : ConsBlind env) {k d : Mat V} (hk : s.cons = some k) (hf : Flat k) (hr : d.rows = k.rows) (hd : ∀ g, env.corr = .heavi g → d.cols = s.energy.cols) (hg : ∀ i j, d.get i j = k.get i 0) {e e' : Mat V} {ce : Cons K V}
    (hx : correction env e s = .ok (e', s')) : ∃ l', ((∀ g, env.corr ≠ .heavi g) → l = s.log → l' = s'.log) ∧ correction { env with cons := ce } e (setCons (some d) h l s) = .ok (e', setCons (some d) h l' s') := by
  unfold correction at hx ⊢
  cases hc : env.corr with
  | none =>
    rw [hc] at hx
    simp only [pure_ok, Prod.mk.injEq] at hx ⊢
    obtain ⟨rfl, rfl⟩ := hx
    exact ⟨l, fun _ e => e, rfl, rfl⟩
  | custom f =>
    rw [hc] at hx
    simp only [bind_ok, pure_ok, Prod.mk.injEq] at hx
    obtain ⟨q, h1, h2, rfl⟩ := hx
    refine ⟨l, fun _ e => e, ?_⟩
    simp only [bind_ok, pure_ok, Prod.mk.injEq]
    exact ⟨q, (congrFun (hb.corr f hc s (some d) h l) e).trans h1, h2, trivial⟩
  | heavi g =>
    rw [hc] at hx
    simp only [hk] at hx
    simp only [bind_ok, pure_ok, callF, Prod.mk.injEq] at hx
    obtain ⟨z, h1, q, h2, h3, rfl⟩ := hx
    refine ⟨l ++ (d.entries fun i => s.active.getD i 0).map (fun q => (Site.corr, q.1, q.2)), fun hn => absurd rfl (hn g), ?_⟩
    simp only [show (setCons (some d) h l s).cons = some d from rfl, bind_ok, pure_ok, callF, Prod.mk.injEq]
    refine ⟨z, ?_, q, h2, h3, ?_⟩
    · rw [← h1]
      exact bin_flatF hf hr (hd g hc) hg
    · rw [hr]
      rfl

theorem cboMove_setCons (hb : ConsBlind env) {k d : Mat V} (hk : s.cons = some k) (hf : Flat k) (hr : d.rows = k.rows) (hp : d.cols = s.pIdx.cols) (hd : ∀ g, env.corr = .heavi g → d.cols = s.energy.cols) (hg : ∀ i j, d.get i j = k.get i 0) {ce : Cons K V}
    (hx : cboMove env s = .ok s') : ∃ l', ((∀ g, env.corr ≠ .heavi g) → l = s.log → l' = s'.log) ∧ cboMove { env with cons := ce } (setCons (some d) h l s) = .ok (setCons (some d) h l' s') := by
  unfold cboMove at hx
  rw [hk] at hx
  simp only [bind_ok, pure_ok] at hx
  obtain ⟨xp, m1, e, m2, ⟨e', q⟩, m3, z, m4, u, m5, X, m6, rfl⟩ := hx
  simp only at m3 m4 m5 m6
  obtain ⟨l', hl, hcor⟩ := correction_setCons (h := h) (l := l) (ce := ce) hb hk hf hr hd hg m3
  refine ⟨l', hl, ?_⟩
  unfold cboMove
  simp only [show (setCons (some d) h l s).cons = some d from rfl, bind_ok, pure_ok]
  refine ⟨xp, m1, e, ?_, ⟨e', _⟩, hcor, z, ?_, u, m5, X, m6, rfl⟩
  · rw [← m2]
    exact bin_flat hf hr (by rw [hp, (Mat.gather_ok m1).2.2.1]) hg
  · exact (hb.noise { q with drift := some e' } (some d) h l').trans m4

theorem cboMove_keeps (hx : cboMove env s = .ok s') : s'.cons = s.cons ∧ s'.hist = s.hist := by
  unfold cboMove at hx
  split at hx
  · cases hx
  · simp only [bind_ok, pure_ok] at hx
    obtain ⟨xp, m1, e, m2, ⟨e', q⟩, m3, z, m4, u, m5, X, m6, rfl⟩ := hx
    have hq := (correction_facts m3).1
    simp only at hq ⊢
    rw [hq]
    exact ⟨rfl, rfl⟩

theorem updateDiff_setCons {ce : Cons K V} (hx : updateDiff env s = .ok s') : updateDiff { env with cons := ce } (setCons c h l s) = .ok (setCons c h l s') := by
  unfold updateDiff at hx ⊢
  show (match s.xOld with | none => _ | some c => _) = _
  cases hk : s.xOld with
  | none =>
    rw [hk] at hx
    simp only [pure_ok] at hx ⊢
    rw [hx]
  | some o =>
    rw [hk] at hx
    simp only [bind_ok, pure_ok] at hx ⊢
    obtain ⟨p, h1, rfl⟩ := hx
    exact ⟨p, h1, by rw [← hk]; rfl⟩

theorem updateBestCur_setCons (hx : updateBestCur s = .ok s') : updateBestCur (setCons c h l s) = .ok (setCons c h l s') := by
  unfold updateBestCur at hx ⊢
  split_ifs at hx with hc
  rw [if_neg (show ¬ (setCons c h l s).energy.cols = 0 from hc)]
  simp only [pure_ok] at hx ⊢
  subst hx
  rfl

theorem trackEntry_setCons {t : Track} (ht : t ≠ .consensus) : trackEntry (setCons c h l s) t = trackEntry s t := by
  cases t <;> first | rfl | exact absurd rfl ht

theorem applyTracks_setCons (hc : SameConsensus s.cons c) (L : List Track) (g g' : Track → List (Entry K V)) (h1 : ∀ t, t ≠ .consensus → g' t = g t) (h2 : List.Forall₂ SameConsEntry (g .consensus) (g' .consensus)) :
    (∀ t, t ≠ .consensus → applyTracks (setCons c h l s) L g' t = applyTracks s L g t) ∧
      List.Forall₂ SameConsEntry (applyTracks s L g .consensus) (applyTracks (setCons c h l s) L g' .consensus) := by
  induction L generalizing g g' with
  | nil => exact ⟨h1, h2⟩
  | cons t L ih =>
    unfold applyTracks at ih ⊢
    rw [List.foldl_cons, List.foldl_cons]
    refine ih _ _ (fun t' ht' => ?_) ?_ <;> beta_reduce
    · split_ifs with e
      · subst e
        rw [h1 _ ht', trackEntry_setCons ht']
      · exact h1 _ ht'
    · split_ifs with e
      · subst e
        exact List.rel_append h2 (List.Forall₂.cons hc .nil)
      · exact h2

theorem postStep_setCons (hb : ConsBlind env) {ce : Cons K V} (hc : SameConsensus s.cons c) (h1 : ∀ t, t ≠ .consensus → h t = s.hist t) (h2 : List.Forall₂ SameConsEntry (s.hist .consensus) (h .consensus))
    (hx : postStep env s = .ok s') : ∃ h', (∀ t, t ≠ .consensus → h' t = s'.hist t) ∧ List.Forall₂ SameConsEntry (s'.hist .consensus) (h' .consensus) ∧
      postStep { env with cons := ce } (setCons c h l s) = .ok (setCons c h' l s') ∧ s'.cons = s.cons ∧ s'.log = s.log := by
  simp only [postStep, bind_ok, pure_ok] at hx
  obtain ⟨x, p1, q1, p2, q2, p3, q3, p4, rfl⟩ := hx
  have u1 := updateDiff_setCons (c := c) (h := h) (l := l) (ce := ce) p2
  have u2 := updateBestCur_setCons (c := c) (h := h) (l := l) p3
  have f1 : q1.cons = s.cons ∧ q1.hist = s.hist ∧ q1.log = s.log := by
    unfold updateDiff at p2
    split at p2
    · simp only [pure_ok] at p2; subst p2; exact ⟨rfl, rfl, rfl⟩
    · simp only [bind_ok, pure_ok] at p2
      obtain ⟨p, -, rfl⟩ := p2
      exact ⟨rfl, rfl, rfl⟩
  have f2 : q2.cons = s.cons ∧ q2.hist = s.hist ∧ q2.log = s.log := by
    unfold updateBestCur at p3
    split_ifs at p3
    simp only [pure_ok] at p3
    subst p3
    exact f1
  unfold track at p4
  have key : ∃ h', (∀ t, t ≠ .consensus → h' t = q3.hist t) ∧ List.Forall₂ SameConsEntry (q3.hist .consensus) (h' .consensus) ∧ track (updateBest (setCons c h l q2)) = .ok (setCons c h' l q3) ∧ q3.cons = s.cons ∧ q3.log = s.log := by
    unfold track
    show ∃ h', _ ∧ _ ∧ (if q2.saveInt = 0 then _ else if q2.it % q2.saveInt = 0 then _ else _) = _ ∧ _
    have e1 : (updateBest q2).saveInt = q2.saveInt := rfl
    have e2 : (updateBest q2).it = q2.it := rfl
    rw [e1, e2] at p4
    split_ifs at p4 ⊢ with g1 g2
    · simp only [pure_ok] at p4 ⊢
      subst p4
      obtain ⟨t1, t2⟩ := applyTracks_setCons (s := updateBest q2) (c := c) (h := h) (l := l) (by show SameConsensus q2.cons c; rw [f2.1]; exact hc) q2.tracks q2.hist h (by rw [f2.2.1]; exact h1) (by rw [f2.2.1]; exact h2)
      exact ⟨_, t1, t2, rfl, f2.1, f2.2.2⟩
    · simp only [pure_ok] at p4 ⊢
      subst p4
      exact ⟨h, by intro t ht; show h t = q2.hist t; rw [f2.2.1]; exact h1 t ht, by show List.Forall₂ _ (q2.hist _) _; rw [f2.2.1]; exact h2, rfl, f2.1, f2.2.2⟩
  obtain ⟨h', k1, k2, k3, k4, k5⟩ := key
  refine ⟨h', k1, k2, ?_, k4, k5⟩
  simp only [postStep, bind_ok, pure_ok]
  exact ⟨x, (hb.post s c h l).trans p1, _, u1, _, u2, _, k3, rfl⟩

/-- A step of both dynamics. -/
theorem step_setCons (hb : ConsBlind env) (hp : PermOK env) (hr : env.cons = .mean r) (hρ : ∀ L i, ρ L i = r L) (hw : WF s) (hbat : s.batched = true → s.batchPartial = true ∧ ∀ g, env.corr ≠ .heavi g) {u : St K V}
    (hu : SameButCons env s u) (hx : step env (cboInner env) s = .ok s') :
    ∃ u', step { env with cons := .polar ρ } (cboInner { env with cons := .polar ρ }) u = .ok u' ∧ SameButCons env s' u' := by
  obtain ⟨v, hv, hps⟩ := step_split.1 hx
  rw [cboInner_eq] at hv
  obtain ⟨q, hc, hm⟩ := consThen_split.1 hv
  have p1 := preStep_frame env s
  have ix := preStep_idx env hp hw
  have px := preStep_pIdx env s hw
  have cf := computeConsensus_frame hc
  have hcol : (preStep env s).cIdx.cols = q.pIdx.cols := by
    have e : q.pIdx = (preStep env s).pIdx := by rw [cf]
    rw [e]
    cases hB : s.batched with
    | true => rw [px.1 hB (hbat hB).1]
    | false => rw [(px.2.2 hB).1]
  have hen : ∀ g, env.corr = .heavi g → (preStep env s).cIdx.cols = q.energy.cols := fun g hg => by
    have hB : s.batched = false := by
      cases hB : s.batched with
      | true => exact absurd hg ((hbat hB).2 g)
      | false => rfl
    obtain ⟨e1, -, e2, -, -⟩ := px.2.2 hB
    have e3 : q.energy.cols = (preStep env s).energy.cols := by
      simp only [computeConsensus, bind_ok, pure_ok, evalF, callF] at hc
      obtain ⟨xb, -, -, -, w, -, wx, -, en, h5, rfl⟩ := hc
      exact (Mat.scatter_ok h5).2.2.1
    have e4 : (preStep env s).energy = s.energy := by rw [p1]
    rw [← e1, e2, e3, e4, hw.ec]
  have hl0 : u.log = s.log → u.log = (preStep env s).log := fun e => by rw [e, p1]
  obtain ⟨k, d, l1, c1, c2, c3, c4, c5, c6, c7⟩ := computeConsensus_setCons (c := u.cons) (h := u.hist) (l := u.log) hr hρ hc
  obtain ⟨l2, m1, m2⟩ := cboMove_setCons (h := u.hist) (l := l1) (ce := .polar ρ) hb c1 c2 c3 (c4.trans hcol) (fun g hg => c4.trans (hen g hg)) c5 hm
  have hvc : v.cons = some k ∧ v.hist = s.hist := by
    have e := cboMove_keeps hm
    rw [e.1, e.2, c1]
    refine ⟨rfl, ?_⟩
    rw [cf]
    simp only
    rw [p1]
  obtain ⟨h', g1, g2, g3, g4, g5⟩ := postStep_setCons (c := some d) (h := u.hist) (l := l2) (ce := .polar ρ) hb (by rw [hvc.1]; exact ⟨c3, c2.1, c5⟩) (by rw [hvc.2]; exact hu.hist) (by rw [hvc.2]; exact hu.consHist) hps
  refine ⟨setCons (some d) h' l2 s', step_split.2 ⟨_, ?_, g3⟩, ⟨rfl, ?_, g1, g2, fun hn => ?_⟩⟩
  · rw [cboInner_eq]
    have e : u = setCons u.cons u.hist u.log s := hu.rest
    rw [e, preStep_setCons]
    exact consThen_split.2 ⟨_, c7, m2⟩
  · rw [g4, hvc.1]
    exact ⟨c3, c2.1, c5⟩
  · show l2 = s'.log
    rw [g5]
    exact m1 hn (c6 (hl0 (hu.log hn)))

theorem evalTerm_setCons (hb : ConsBlind env) {ce : Cons K V} {tm tm' : Term K} (hst : Stateless tm) {b : ℕ → Bool} (hx : evalTerm env tm s = .ok (b, tm', s')) :
    evalTerm { env with cons := ce } tm (setCons c h l s) = .ok (b, tm', setCons c h l s') := by
  cases tm with
  | energyStag p th lo => exact absurd hst id
  | custom i =>
    unfold evalTerm at hx ⊢
    simp only [pure_ok, Prod.mk.injEq] at hx ⊢
    exact ⟨(hb.custom i s c h l).trans hx.1, hx.2.1, by rw [hx.2.2]⟩
  | maxIt n =>
    cases n <;>
    · unfold evalTerm at hx ⊢
      simp only [pure_ok, Prod.mk.injEq] at hx ⊢
      exact ⟨hx.1, hx.2.1, by rw [hx.2.2]⟩
  | _ =>
    unfold evalTerm at hx ⊢
    simp only [pure_ok, Prod.mk.injEq] at hx ⊢
    exact ⟨hx.1, hx.2.1, by rw [hx.2.2]⟩

theorem evalTerms_setCons (hb : ConsBlind env) {ce : Cons K V} (tms : List (Term K)) (hst : ∀ tm ∈ tms, Stateless tm) {tms' : List (Term K)} {bs : List (ℕ → Bool)} (hx : evalTerms env tms s = .ok (bs, tms', s')) :
    evalTerms { env with cons := ce } tms (setCons c h l s) = .ok (bs, tms', setCons c h l s') := by
  induction tms generalizing s bs tms' with
  | nil =>
    simp only [evalTerms, pure_ok, Prod.mk.injEq] at hx ⊢
    exact ⟨hx.1, hx.2.1, by rw [hx.2.2]⟩
  | cons tm tms ih =>
    simp only [evalTerms, bind_ok, pure_ok, Prod.mk.injEq] at hx ⊢
    obtain ⟨⟨b, tm', q⟩, h1, ⟨bs', l', q'⟩, h2, h3, h4, h5⟩ := hx
    simp only at h2 h3 h4 h5
    subst h5
    exact ⟨⟨b, tm', setCons c h l q⟩, evalTerm_setCons hb (hst tm (by simp)) h1, ⟨bs', l', _⟩, ih (fun t ht => hst t (by simp [ht])) h2, h3, h4, rfl⟩

/-- One operation of both dynamics. -/
theorem exec_setCons (hb : ConsBlind env) (hp : PermOK env) (hpo : PostOK env) (hr : env.cons = .mean r) (hρ : ∀ L i, ρ L i = r L) (o : Op) (hw : WF s) (hbat : s.batched = true → s.batchPartial = true ∧ ∀ g, env.corr ≠ .heavi g)
    (hst : ∀ tm ∈ s.terms, Stateless tm) {u : St K V} (hu : SameButCons env s u) (hx : exec env (cboInner env) o s = .ok s') :
    ∃ u', exec { env with cons := .polar ρ } (cboInner { env with cons := .polar ρ }) o u = .ok u' ∧ SameButCons env s' u' ∧ WF s' ∧ (s'.batched = true → s'.batchPartial = true ∧ ∀ g, env.corr ≠ .heavi g) ∧ ∀ tm ∈ s'.terms, Stateless tm := by
  have e1 : cboInner env = consThen env (cboMove env) := cboInner_eq _
  have w1 : WF s' := exec_wf (cboMove_ok env) hpo hp hw (by rw [← e1]; exact hx)
  have eu : u = setCons u.cons u.hist u.log s := hu.rest
  cases o with
  | step =>
    obtain ⟨u', h1, h2⟩ := step_setCons hb hp hr hρ hw hbat hu hx
    have f := step_frame (by rw [e1]; exact consThen_frame (cboMove_ok env)) hx
    exact ⟨u', h1, h2, w1, by rw [f.batched, f.batchPartial]; exact hbat, by rw [f.terms]; exact hst⟩
  | select =>
    obtain ⟨q, e, es, -⟩ := select_stateless (env := env) hst
    simp only [exec] at hx ⊢
    have hx' := hx
    rw [hx] at e
    injection e with e
    subst e
    simp only [selectActive, bind_ok, pure_ok] at hx'
    obtain ⟨⟨bs, tms, q⟩, h3, h4⟩ := hx'
    have h5 := evalTerms_setCons (c := u.cons) (h := u.hist) (l := u.log) (ce := .polar ρ) hb _ hst h3
    refine ⟨setCons u.cons u.hist u.log s', ?_, ⟨rfl, ?_, ?_, ?_, ?_⟩, w1, ?_, ?_⟩
    · rw [eu]
      simp only [selectActive, bind_ok, pure_ok]
      refine ⟨_, h5, ?_⟩
      rw [← h4]
      rfl
    · rw [es]; exact hu.cons
    · rw [es]; exact hu.hist
    · rw [es]; exact hu.consHist
    · rw [es]; exact hu.log
    · rw [es]; exact hbat
    · rw [es]; exact hst
  | sched =>
    simp only [exec, schedUpdate, bind_ok, pure_ok] at hx ⊢
    obtain ⟨q, h1, rfl⟩ := hx
    refine ⟨setCons u.cons u.hist u.log _, ⟨q, ?_, ?_⟩, ⟨rfl, hu.cons, hu.hist, hu.consHist, hu.log⟩, w1, hbat, hst⟩
    · rw [eu]
      exact (hb.sched s u.cons u.hist u.log).trans h1
    · rw [eu]
      rfl
  | reset =>
    simp only [exec] at hx ⊢
    injection hx with hx
    subst hx
    refine ⟨_, rfl, ?_, w1, hbat, hst⟩
    rw [eu]
    exact ⟨rfl, hu.cons, fun t ht => by cases t <;> rfl, .nil, hu.log⟩

theorem execAll_setCons (hb : ConsBlind env) (hp : PermOK env) (hpo : PostOK env) (hr : env.cons = .mean r) (hρ : ∀ L i, ρ L i = r L) :
    ∀ (ops : List Op) (s s' u : St K V), WF s → (s.batched = true → s.batchPartial = true ∧ ∀ g, env.corr ≠ .heavi g) → (∀ tm ∈ s.terms, Stateless tm) → SameButCons env s u → execAll env (cboInner env) ops s = .ok s' →
      ∃ u', execAll { env with cons := .polar ρ } (cboInner { env with cons := .polar ρ }) ops u = .ok u' ∧ SameButCons env s' u'
  | [], s, s', u, _, _, _, hs, hx => by
    simp only [execAll] at hx
    injection hx with hx
    subst hx
    exact ⟨u, rfl, hs⟩
  | o :: L, s, s', u, hw, hbat, ht, hs, hx => by
    simp only [execAll, bind_ok] at hx
    obtain ⟨q, hq, hx⟩ := hx
    obtain ⟨v, hv, a1, a2, a3, a4⟩ := exec_setCons hb hp hpo hr hρ o hw hbat ht hs hq
    obtain ⟨u', hu, hr⟩ := execAll_setCons hb hp hpo hr hρ L q s' v a2 a3 a4 a1 hx
    exact ⟨u', by simp only [execAll, bind_ok]; exact ⟨v, hv, hu⟩, hr⟩

theorem optimize_setCons (hb : ConsBlind env) (hp : PermOK env) (hpo : PostOK env) (hr : env.cons = .mean r) (hρ : ∀ L i, ρ L i = r L) :
    ∀ (fuel : ℕ) (s s' u : St K V), WF s → (s.batched = true → s.batchPartial = true ∧ ∀ g, env.corr ≠ .heavi g) → (∀ tm ∈ s.terms, Stateless tm) → SameButCons env s u → optimize env (cboInner env) fuel s = .done s' →
      ∃ u', optimize { env with cons := .polar ρ } (cboInner { env with cons := .polar ρ }) fuel u = .done u' ∧ SameButCons env s' u'
  | 0, s, s', u, _, _, _, _, hx => by simp [optimize] at hx
  | fuel + 1, s, s', u, hw, hbat, ht, hs, hx => by
    simp only [optimize] at hx ⊢
    cases h1 : selectActive env s with
    | error e => simp [h1] at hx
    | ok a =>
      obtain ⟨v, hv, a1, a2, a3, a4⟩ := exec_setCons hb hp hpo hr hρ .select hw hbat ht hs h1
      simp only [exec] at hv
      simp only [h1] at hx
      simp only [hv]
      have ea : v.active = a.active := by rw [a1.rest]
      rw [ea]
      split_ifs at hx ⊢ with hE
      · injection hx with hx
        subst hx
        exact ⟨v, rfl, a1⟩
      · cases h2 : step env (cboInner env) a with
        | error e => simp [h2] at hx
        | ok b =>
          obtain ⟨w, hw2, b1, b2, b3, b4⟩ := exec_setCons hb hp hpo hr hρ .step a2 a3 a4 a1 h2
          simp only [exec] at hw2
          simp only [h2] at hx
          simp only [hw2]
          cases h3 : schedUpdate env b with
          | error e => simp [h3] at hx
          | ok k =>
            obtain ⟨z, hz, c1, c2, c3, c4⟩ := exec_setCons hb hp hpo hr hρ .sched b2 b3 b4 b1 h3
            simp only [exec] at hz
            simp only [h3] at hx
            simp only [hz]
            exact optimize_setCons hb hp hpo hr hρ fuel k s' z c2 c3 c4 c1 hx

theorem init_setCons {ce : Cons K V} {a : Args K V} (hx : init env a = .ok s) : init { env with cons := ce } a = .ok s ∧ SameButCons env s s ∧ s.batchPartial = a.batchPartial ∧ s.terms = a.terms ∧ (s.batched = true → ∃ b, a.batchSize = some b ∧ b < a.x0.cols) := by
  have hx' : init { env with cons := ce } a = .ok s := hx
  refine ⟨hx', ?_⟩
  unfold init at hx
  split_ifs at hx with hc hf
  all_goals
    injection hx with hx
    subst hx
    refine ⟨⟨rfl, trivial, fun _ _ => rfl, .nil, fun _ => rfl⟩, rfl, rfl, ?_⟩
    intro hB
    have hB' : batchSizeOf a.batchSize a.x0.cols ≠ a.x0.cols := of_decide_eq_true hB
    cases hbs : a.batchSize with
    | none =>
      rw [hbs] at hB'
      exact absurd rfl hB'
    | some b =>
      rw [hbs] at hB'
      refine ⟨b, rfl, ?_⟩
      simp only [batchSizeOf] at hB'
      omega

end

end Verif
