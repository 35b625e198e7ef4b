import Verif.Proofs.Cbs
import Verif.Proofs.Adam
import Verif.Proofs.MirrorDyn
import Verif.Props.Termination

/-! Helper lemmas: `optimize` with covariance noise does not raise as long as all runs stop together. -/

set_option linter.unusedSectionVars false

namespace Verif

section
variable {K V : Type} [Zero K] [One K] [Neg K] [Add K] [Sub K] [Mul K] [Inv K] [Div K] [NatCast K] [Pow K ℕ] [LinearOrder K] [Add V] [Sub V] [SMul K V]

theorem all_or_none {env : Env K V} {s a : St K V} (hst : ∀ tm ∈ s.terms, Stateless tm)
    (hu : s.M = 1 ∨ ∀ tm ∈ s.terms, RunBlind tm) (hsub : a.active.Sublist (List.range a.M)) (h : selectActive env s = .ok a) (hne : ¬ a.active.length = 0) :
    a.active = List.range a.M := by
  obtain ⟨a', h1, ea, hact, -⟩ := select_stateless (env := env) hst
  rw [h] at h1
  injection h1 with h1
  subst h1
  have hM : a.M = s.M := by rw [ea]
  obtain ⟨m₀, hm₀⟩ : ∃ m, m ∈ a.active := List.exists_mem_of_length_pos (by omega)
  have hall : ∀ m < a.M, m ∈ a.active := by
    intro m hm
    rcases hu with h1 | hu
    · have := ((hact m₀).1 hm₀).1
      rw [show m = m₀ by omega]
      exact hm₀
    · rw [hact]
      refine ⟨by omega, fun tm htm hf => ((hact m₀).1 hm₀).2 tm htm ?_⟩
      have := hu tm htm
      cases tm <;> first | exact hf | exact absurd this id
  have := hsub.eq_of_length_le (by
    rw [List.length_range]
    have := (List.nodup_range (n := a.M)).subperm (fun m hm => hall m (List.mem_range.1 hm)) |>.length_le
    simpa using this)
  exact this

/-- What holds in every round of `optimize` when all runs stop together and nothing is batched. -/
structure Together (M : ℕ) (terms : List (Term K)) (s : St K V) : Prop where
  wf : WF s
  M : s.M = M
  terms : s.terms = terms
  bat : s.batched = false
  si : s.saveInt ≠ 0

theorem together_not_raised {env : Env K V} {move : St K V → Except Err (St K V)} (mok : MoveOK move) (hpost : PostOK env) (hp : PermOK env)
    (hs : ∀ s, ∃ q, env.sched s = .ok q) {M : ℕ} {terms : List (Term K)} (hst : ∀ tm ∈ terms, Stateless tm) (hu : M = 1 ∨ ∀ tm ∈ terms, RunBlind tm)
    {Q : St K V → Prop} (hQ : ∀ s s' : St K V, s'.aux1 = s.aux1 → s'.aux2 = s.aux2 → s'.M = s.M → s'.N = s.N → Q s → Q s')
    (hQs : ∀ s s', Q s → step env (consThen env move) s = .ok s' → Q s')
    (htot : ∀ s, WF s → s.active = List.range s.M → s.batched = false → 0 < s.M → s.saveInt ≠ 0 → Q s → ∃ s', step env (consThen env move) s = .ok s') :
    ∀ (fuel : ℕ) (s : St K V), Together M terms s → Q s → ∀ e, optimize env (consThen env move) fuel s ≠ .raised e := by
  intro fuel
  induction fuel with
  | zero => intro s _ _ e; simp [optimize]
  | succ fuel ih =>
    intro s I hq e
    simp only [optimize]
    obtain ⟨a, h1, ea, -⟩ := select_stateless (env := env) (s := s) (by rw [I.terms]; exact hst)
    simp only [h1]
    have hwa := select_wf I.wf h1
    split_ifs with h0
    · simp
    · have hact := all_or_none (by rw [I.terms]; exact hst) (by rw [I.M, I.terms]; exact hu) hwa.act h1 h0
      have hqa : Q a := hQ s a (by rw [ea]) (by rw [ea]) (by rw [ea]) (by rw [ea]) hq
      obtain ⟨c, h2⟩ := htot a hwa hact (by rw [ea]; exact I.bat) (by have := congrArg List.length hact; rw [List.length_range] at this; omega) (by rw [ea]; exact I.si) hqa
      simp only [h2]
      have fr := step_frame (consThen_frame mok) h2
      have hwc := step_wf mok hpost hp hwa h2
      obtain ⟨q, hq'⟩ := hs c
      have h3 : schedUpdate env c = .ok { c with alpha := q.alpha, lamda := q.lamda, sigma := q.sigma, dt := q.dt } := by
        simp only [schedUpdate, hq', bind, Except.bind, pure, Except.pure]
      simp only [h3]
      refine ih _ ⟨sched_wf hwc h3, ?_, ?_, ?_, ?_⟩ (hQ c _ rfl rfl rfl rfl (hQs a c hqa h2)) e
      · show c.M = M
        rw [fr.M, ea]; exact I.M
      · show c.terms = terms
        rw [fr.terms, ea]; exact I.terms
      · show c.batched = false
        rw [fr.batched, ea]; exact I.bat
      · show c.saveInt ≠ 0
        rw [fr.saveInt, ea]; exact I.si

theorem adamStep_shape {env : Env K V} {A : AdamOps V} {β1 β2 : K} {s s' : St K V}
    (h : step env (consThen env (adamMove env A β1 β2)) s = .ok s') :
    (s'.aux1.rows = s.aux1.rows ∧ s'.aux1.cols = s.aux1.cols) ∧ s'.aux2.rows = s.aux2.rows ∧ s'.aux2.cols = s.aux2.cols := by
  obtain ⟨v, hv, hps⟩ := step_split.1 h
  obtain ⟨c, hcc, hmv⟩ := consThen_split.1 hv
  have p1 := preStep_frame env s
  have cf := computeConsensus_frame hcc
  have pf := postStep_facts hps
  obtain ⟨-, -, -, -, -, _, _, _, -, -, -, -, g1, g2⟩ := adamMove_facts hmv
  have c1 : c.aux1 = s.aux1 := by rw [cf]; simp only; rw [p1]
  have c2 : c.aux2 = s.aux2 := by rw [cf]; simp only; rw [p1]
  have v1 : s'.aux1 = v.aux1 := by rw [pf.frame]
  have v2 : s'.aux2 = v.aux2 := by rw [pf.frame]
  have := momentUpdate_shape g1
  have := momentUpdate_shape g2
  rw [v1, v2, ← c1, ← c2]
  exact ⟨by assumption, by assumption⟩

/-- The start of a run without batches. -/
theorem together_init {env : Env K V} {a : Args K V} {s₀ : St K V} (hp : PermOK env) (hsi : a.saveInt ≠ 0) (hb : a.batchSize = none) (h0 : init env a = .ok s₀) :
    Together a.x0.rows a.terms s₀ ∧ s₀.it = 0 ∧ (s₀.aux1.rows = s₀.M ∧ s₀.aux1.cols = s₀.N) ∧ s₀.aux2.rows = s₀.M ∧ s₀.aux2.cols = s₀.N := by
  have hw := init_wf hp h0
  unfold init at h0
  split_ifs at h0
  all_goals
    injection h0 with h0
    subst h0
    refine ⟨⟨hw, rfl, rfl, ?_, hsi⟩, rfl, ⟨rfl, rfl⟩, rfl, rfl⟩
    simp [initBatch, hb, batchSizeOf]

end

section
variable {ι : Type} [Fintype ι] [DecidableEq ι]

/-- Covariance noise is defined inside a step if all runs are active and nothing is batched. -/
theorem covNoise_ready {env : Env ℝ (ι → ℝ)} {f : (ι → ℝ) → ℝ} {eigh : Matrix ι ι ℝ → (ι → ℝ) × Matrix ι ι ℝ} {b : Bool} {smp : ℕ → ℕ → ℕ → ι → ℝ}
    (hf : ∀ v, env.f v = .fin (f v)) (hnoise : env.noise = covNoise eigh b smp) {s c : St ℝ (ι → ℝ)} (hw : WF s)
    (hact : s.active = List.range s.M) (hbat : s.batched = false) (hc : computeConsensus env (preStep env s) = .ok c)
    (q : St ℝ (ι → ℝ)) (d : Mat (ι → ℝ)) (q2 : q.drift = some d) (d1 : d.rows = c.pIdx.rows) (d2 : d.cols = c.pIdx.cols) (hqe : q.energy = c.energy) (hqM : q.M = c.M) :
    ∃ n, env.noise q = .ok n ∧ n.rows = d.rows ∧ n.cols = d.cols := by
  have p1 := preStep_frame env s
  have px : (preStep env s).x = s.x := by rw [p1]
  have pe : (preStep env s).energy = s.energy := by rw [p1]
  have cf := computeConsensus_frame hc
  have cfacts := computeConsensus_facts hc
  have cp : c.pIdx = (preStep env s).pIdx := by rw [cf]
  have cM : c.M = s.M := by rw [cf]; simp only; rw [p1]
  obtain ⟨pc, pr, pcol, prun, ppar⟩ := (preStep_pIdx env s hw).2.2 hbat
  have hl : s.active.length = s.M := by rw [hact, List.length_range]
  have er : q.energy.rows = s.M := by rw [hqe, cfacts.er, pe, hw.er]
  have ec : q.energy.cols = s.N := by rw [hqe, cfacts.ec, pe, hw.ec]
  rw [hnoise]
  obtain ⟨n, n1, n2, n3, -⟩ := covNoise_full (eigh := eigh) (smp := smp) (b := b) q2 (by rw [ec]; exact hw.pos)
    (by rw [d1, cp, pr, hqM, cM, hl]) (by rw [d2, cp, pcol, ec]) (by rw [er, hqM, cM]) (fun m n => f (s.x.get m n))
    (by
      intro m hm n hn
      rw [hqM, cM] at hm
      rw [ec] at hn
      have hsel : (preStep env s).cIdx.Sel m n := by
        rw [← pc]
        exact ⟨m, by omega, n, by omega, by rw [prun m (by omega), hact, range_getD hm], ppar m n⟩
      rw [hqe, cfacts.fresh m n hsel, px, hf])
  exact ⟨n, n1, n2, n3⟩

end

/-- Clipping is idempotent. -/
theorem clipVec_idem {ι : Type} (T : ℝ) (hT : 0 ≤ T) (v : ι → ℝ) : clipVec T (clipVec T v) = clipVec T v := by
  funext i
  simp only [clipVec]
  have h1 : -T ≤ T := by linarith
  rw [max_eq_left (le_min (le_max_right _ _) h1), min_eq_left (min_le_right _ _)]

end Verif
