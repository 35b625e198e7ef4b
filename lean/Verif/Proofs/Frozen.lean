import Verif.Proofs.Local

/-! Persistence of stopped runs over loop iterations. Helper lemmas. -/

set_option linter.unusedSectionVars false

namespace Verif

variable {K V : Type} [Zero K] [One K] [Neg K] [Add K] [Sub K] [Mul K] [Inv K] [Div K] [NatCast K] [Pow K ℕ] [LinearOrder K] [Add V] [Sub V] [SMul K V]

/-- `k` further loop iterations after a check: step, scheduler, check. -/
def further (k : ℕ) : List Op := (List.replicate k [Op.step, Op.sched, Op.select]).flatten

theorem execAll_append {env : Env K V} {inner : St K V → Except Err (St K V)} :
    ∀ {l₁ l₂ : List Op} {s t : St K V}, execAll env inner (l₁ ++ l₂) s = .ok t ↔
      ∃ q, execAll env inner l₁ s = .ok q ∧ execAll env inner l₂ q = .ok t
  | [], l₂, s, t => by simp [execAll]
  | o :: l, l₂, s, t => by
    simp only [List.cons_append, execAll, bind_ok, execAll_append]
    constructor
    · rintro ⟨a, h1, q, h2, h3⟩; exact ⟨q, ⟨a, h1, h2⟩, h3⟩
    · rintro ⟨q, ⟨a, h1, h2⟩, h3⟩; exact ⟨a, h1, q, h2, h3⟩

theorem BuiltIn.stateless {tm : Term K} (h : BuiltIn tm) : Stateless tm := by
  cases tm <;> simp_all [BuiltIn, Stateless]

/-- Built-in criteria do not look at the set of active runs. -/
theorem fires_active {env : Env K V} {s d : St K V} {l : List ℕ} {r : ℕ → Option (List ℕ)} (e : d = {s with active := l, reason := r}) {tm : Term K} {m : ℕ}
    (hb : BuiltIn tm) (h : Fires env s m tm) : Fires env d m tm := by
  subst e
  cases tm <;> first | exact h | exact absurd hb (by simp [BuiltIn])

/-- `J m` describes states in which run `m`, when it is not active, is not changed by a step; it only concerns the positions and the first auxiliary array. -/
structure Keeps (env : Env K V) (move : St K V → Except Err (St K V)) (J : ℕ → St K V → Prop) : Prop where
  keep : ∀ s s' m, WF s → m < s.M → m ∉ s.active → J m s → step env (consThen env move) s = .ok s' → (∀ n < s.N, s'.x.get m n = s.x.get m n) ∧ J m s'
  congr : ∀ s s' m, s'.x = s.x → s'.aux1 = s.aux1 → s'.N = s.N → J m s → J m s'

/-- A move that is local keeps the runs whose positions are fixed points of the post processing. -/
theorem keeps_local {env : Env K V} {move : St K V → Except Err (St K V)} (hm : MoveOK move) (hl : MoveLocal move) {p : V → V}
    (hpm : PostMap env p) (hp : PermOK env) : Keeps env move fun m s => ∀ n < s.N, p (s.x.get m n) = s.x.get m n := by
  refine ⟨?_, ?_⟩
  · intro s s' m hw _ hna hfix h
    have q := step_frame (consThen_frame hm) h
    have hx : ∀ n < s.N, s'.x.get m n = s.x.get m n := by
      intro n hn
      rw [step_unsel hm hl hpm h m n ?_]
      · exact hfix n hn
      · intro hs
        rw [q.pIdx] at hs
        exact hna (pSel_active hp hw hs).1
    exact ⟨hx, fun n hn => by rw [q.N] at hn; rw [hx n hn]; exact hfix n hn⟩
  · intro s s' m e1 _ e3 h n hn
    rw [e1]
    exact h n (e3 ▸ hn)

/-- Main induction for stopped runs. -/
theorem frozen_gen [SoundArith K] (env : Env K V) (move : St K V → Except Err (St K V)) (J : ℕ → St K V → Prop) (hm : MoveOK move)
    (hk : Keeps env move J) (hq : MoveQuiet move) (hpost : PostOK env) (hp : PermOK env) (hno : NormOK env)
    (hsched : ∀ s q, env.sched s = .ok q → 0 ≤ s.dt → 0 ≤ q.dt)
    (s s₁ : St K V) (hws : WF s) (hbs : BestFit s) (hdt : 0 ≤ s.dt)
    (hs : ∀ tm ∈ s.terms, BuiltIn tm) (h1 : selectActive env s = .ok s₁)
    (m : ℕ) (hM : m < s.M) (hna : m ∉ s₁.active)
    (hfix : J m s) :
    ∀ (k : ℕ) (s₂ : St K V), execAll env (consThen env move) (further k) s₁ = .ok s₂ →
      m ∉ s₂.active ∧ SameRun m s₁ s₂ := by
  -- reachable facts at the check
  have f1 := select_frame h1
  have hw1 := select_wf hws h1
  have hb1 : BestFit s₁ := bestFit_exec hno hm hpost (o := .select) hbs h1
  -- the run is stopped because some criterion fires
  obtain ⟨s₁', e1, es, hact, -⟩ := select_stateless (env := env) (fun tm htm => (hs tm htm).stateless)
  rw [h1] at e1
  injection e1 with e1
  subst e1
  have hex : ∃ tm ∈ s.terms, Fires env s m tm := by
    by_contra hc
    exact hna ((hact m).2 ⟨hM, fun tm htm hf => hc ⟨tm, htm, hf⟩⟩)
  have hfire1 : ∃ tm ∈ s₁.terms, Fires env s₁ m tm := by
    obtain ⟨tm, htm, hf⟩ := hex
    exact ⟨tm, by rw [es]; exact htm, fires_active es (hs tm htm) hf⟩
  have hs1 : ∀ tm ∈ s₁.terms, BuiltIn tm := by rw [es]; exact hs
  have hdt1 : 0 ≤ s₁.dt := by rw [es]; exact hdt
  have hM1 : m < s₁.M := by rw [es]; exact hM
  replace hfix : J m s₁ := hk.congr s s₁ m (by rw [es]) (by rw [es]) (by rw [es]) hfix
  -- generalise for the induction
  clear hact es f1 hws hbs h1 hex hs hdt hM
  intro k
  induction k generalizing s₁ with
  | zero =>
    intro s₂ h2
    simp only [further, List.replicate_zero, List.flatten_nil, execAll] at h2
    injection h2 with h2
    subst h2
    exact ⟨hna, ⟨fun _ _ => rfl, fun _ _ => rfl, rfl, rfl, rfl, rfl⟩⟩
  | succ k ih =>
    intro s₂ h2
    have er : further (k + 1) = [.step, .sched, .select] ++ further k := rfl
    rw [er] at h2
    simp only [List.cons_append, List.nil_append, execAll, exec, bind_ok] at h2
    obtain ⟨b, hb, c, hc, d, hd, h2⟩ := h2
    have fb := step_frame (consThen_frame hm) hb
    have fc := sched_frame hc
    obtain ⟨hkx, hkJ⟩ := hk.keep s₁ b m hw1 hM1 hna hfix hb
    have same := step_stopped hm hq hpost hp hw1 hb1 hM1 hna hb hkx
    have hdiff := step_stopped_diff hno hm hpost hw1 hM1 same.x hb
    have hcdt : 0 ≤ c.dt := by
      simp only [schedUpdate, bind_ok, pure_ok] at hc
      obtain ⟨q, hq', rfl⟩ := hc
      exact hsched _ _ hq' (by rw [fb.dt]; exact hdt1)
    have hct : c.terms = s₁.terms := by rw [fc]; exact fb.terms
    -- a criterion still fires in the state that is checked
    have hfirec : ∃ tm ∈ c.terms, Fires env c m tm := by
      obtain ⟨tm, htm, hf⟩ := hfire1
      refine ⟨tm, by rw [hct]; exact htm, ?_⟩
      have hbi := hs1 tm htm
      have c1 : c.fMin = b.fMin := by rw [fc]
      have c2 : c.updDiff = b.updDiff := by rw [fc]
      have c3 : c.nEval = b.nEval := by rw [fc]
      have c4 : c.batchSize = b.batchSize := by rw [fc]
      have c5 : c.it = b.it := by rw [fc]
      have c6 : c.t = b.t := by rw [fc]
      cases tm with
      | energyTol tol => simp only [Fires] at hf ⊢; rw [c1, same.fMin]; exact hf
      | diffTol tol =>
        simp only [Fires] at hf ⊢
        rw [c2, hdiff]
        exact Flt.lt_of_not_lt_of_lt (by simp) (hb1.diff m hM1) hf
      | maxEval n => simp only [Fires] at hf ⊢; rw [c3, same.nEval, c4, fb.batchSize]; exact hf
      | maxIt o =>
        simp only [Fires] at hf ⊢
        obtain ⟨n, rfl, hn⟩ := hf
        exact ⟨n, rfl, by rw [c5, fb.it]; omega⟩
      | maxTime T =>
        simp only [Fires] at hf ⊢
        rw [c6, fb.t]
        intro hc'
        exact hf (lt_of_le_of_lt (SoundArith.le_add _ _ hdt1) hc')
      | energyStag _ _ _ => simp [BuiltIn] at hbi
      | custom _ => simp [BuiltIn] at hbi
    have hsc : ∀ tm ∈ c.terms, BuiltIn tm := by rw [hct]; exact hs1
    obtain ⟨d', e2, es, hact, -⟩ := select_stateless (env := env) (fun tm htm => (hsc tm htm).stateless)
    rw [hd] at e2
    injection e2 with e2
    subst e2
    have hnd : m ∉ d.active := by
      intro hmem
      obtain ⟨tm, htm, hf⟩ := hfirec
      exact ((hact m).1 hmem).2 tm htm hf
    have hwd : WF d := select_wf (sched_wf (step_wf hm hpost hp hw1 hb) hc) hd
    have hbd : BestFit d := bestFit_exec hno hm hpost (o := .select)
      (bestFit_exec hno hm hpost (o := .sched) (bestFit_step hno hm hpost hb) hc) hd
    have dx : d.x = b.x := by rw [es]; simp only; rw [fc]
    have den : d.energy = b.energy := by rw [es]; simp only; rw [fc]
    have dN : d.N = s₁.N := by rw [es]; simp only; rw [fc]; exact fb.N
    have dM : d.M = s₁.M := by rw [es]; simp only; rw [fc]; exact fb.M
    have sameD : SameRun m s₁ d := by
      refine ⟨by rw [dx]; exact same.x, by rw [den]; exact same.energy, ?_, ?_, ?_, ?_⟩
      · rw [← same.bestE, es]; simp only; rw [fc]
      · rw [← same.bestP, es]; simp only; rw [fc]
      · rw [← same.nEval, es]; simp only; rw [fc]
      · rw [← same.fMin, es]; simp only; rw [fc]
    have hfixd : J m d := hk.congr b d m dx (by rw [es]; simp only; rw [fc]) (by rw [es]; simp only; rw [fc]) hkJ
    have hfired : ∃ tm ∈ d.terms, Fires env d m tm := by
      obtain ⟨tm, htm, hf⟩ := hfirec
      exact ⟨tm, by rw [es]; exact htm, fires_active es (hsc tm htm) hf⟩
    have hsd : ∀ tm ∈ d.terms, BuiltIn tm := by rw [es]; exact hsc
    have hdtd : 0 ≤ d.dt := by rw [es]; exact hcdt
    obtain ⟨r1, r2⟩ := ih d hnd hwd hbd hfired hsd hdtd (by rw [dM]; exact hM1) hfixd s₂ h2
    refine ⟨r1, ⟨?_, ?_, ?_, ?_, ?_, ?_⟩⟩
    · intro n hn; rw [r2.x n (by rw [dN]; exact hn), sameD.x n hn]
    · intro n hn; rw [r2.energy n (by rw [dN]; exact hn), sameD.energy n hn]
    · rw [r2.bestE, sameD.bestE]
    · rw [r2.bestP, sameD.bestP]
    · rw [r2.nEval, sameD.nEval]
    · rw [r2.fMin, sameD.fMin]

/-- Stopped runs under local moves. -/
theorem frozen_core [SoundArith K] (env : Env K V) (move : St K V → Except Err (St K V)) (hm : MoveOK move) (hl : MoveLocal move)
    (hq : MoveQuiet move) (p : V → V) (hpm : PostMap env p) (hp : PermOK env) (hno : NormOK env)
    (hsched : ∀ s q, env.sched s = .ok q → 0 ≤ s.dt → 0 ≤ q.dt)
    (s s₁ : St K V) (hws : WF s) (hbs : BestFit s) (hdt : 0 ≤ s.dt)
    (hs : ∀ tm ∈ s.terms, BuiltIn tm) (h1 : selectActive env s = .ok s₁)
    (m : ℕ) (hM : m < s.M) (hna : m ∉ s₁.active)
    (hfix : ∀ n < s.N, p (s₁.x.get m n) = s₁.x.get m n) :
    ∀ (k : ℕ) (s₂ : St K V), execAll env (consThen env move) (further k) s₁ = .ok s₂ →
      m ∉ s₂.active ∧ SameRun m s₁ s₂ :=
  frozen_gen env move _ hm (keeps_local hm hl hpm hp) hq hpm.ok hp hno hsched s s₁ hws hbs hdt hs h1 m hM hna
    (by rw [select_frame h1] at hfix; exact hfix)

end Verif
