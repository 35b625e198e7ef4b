import Verif.Model.Rng
import Verif.Proofs.Total
import Verif.Model.FullMoves
import Verif.Proofs.FullMoves

/-! Lemmas about dynamics with generator objects. -/

set_option linter.unusedSectionVars false

namespace Verif

variable {K V γ : Type} [Zero K] [One K] [Neg K] [Add K] [Sub K] [Mul K] [Inv K] [Div K] [NatCast K] [Pow K ℕ] [LinearOrder K] [Add V] [Sub V] [SMul K V]

theorem envAt_own {R : Rng γ V} {a : SeedArgs} (ha : a.sampler = .own) (M : ℕ) (own g g' : γ) (env : Env K V) (nf : St K V → Mat V → Except Err (Mat V)) :
    envAt R a M own g env nf = envAt R a M own g' env nf := by
  unfold envAt noiseAt callSampler
  rw [ha]

/-- The dynamic after one operation does not depend on the global generator. -/
theorem rExec_own {R : Rng γ V} {a : SeedArgs} (ha : a.sampler = .own) {env : Env K V} {nf : St K V → Mat V → Except Err (Mat V)}
    {inner : Env K V → St K V → Except Err (St K V)} {o : Op} {d : RDyn K V γ} {g : γ} {D : RDyn K V γ × γ} (h : rExec R a env nf inner o (d, g) = .ok D) (g' : γ) :
    rExec R a env nf inner o (d, g') = .ok (D.1, g') := by
  simp only [rExec, bind_ok, pure_ok] at h ⊢
  obtain ⟨s, hs, rfl⟩ := h
  refine ⟨s, ?_, ?_⟩
  · rw [envAt_own ha _ _ g' g]
    exact hs
  · simp only
    unfold afterDraw callSampler
    rw [ha]
    split_ifs
    · cases s.drift <;> rfl
    · rfl

theorem rExec_own_error {R : Rng γ V} {a : SeedArgs} (ha : a.sampler = .own) {env : Env K V} {nf : St K V → Mat V → Except Err (Mat V)}
    {inner : Env K V → St K V → Except Err (St K V)} {o : Op} {d : RDyn K V γ} {g : γ} {e : Err} (h : rExec R a env nf inner o (d, g) = .error e) (g' : γ) :
    rExec R a env nf inner o (d, g') = .error e := by
  unfold rExec at h ⊢
  simp only at h ⊢
  rw [envAt_own ha _ _ g' g]
  cases hs : exec (envAt R a d.s.M d.own g env nf) (inner (envAt R a d.s.M d.own g env nf)) o d.s with
  | error e' =>
    rw [hs] at h
    simp only [bind, Except.bind] at h ⊢
    exact h
  | ok s =>
    rw [hs] at h
    simp only [bind, Except.bind, pure, Except.pure] at h
    cases h

/-- Other code can be left out. -/
theorem rRun_world {R : Rng γ V} {a : SeedArgs} (ha : a.sampler = .own) {env : Env K V} {nf : St K V → Mat V → Except Err (Mat V)}
    {inner : Env K V → St K V → Except Err (St K V)} : ∀ (l : List (Ev γ)) (d : RDyn K V γ) (g g' : γ),
      (rRun R a env nf inner l (d, g)).map Prod.fst = (rRun R a env nf inner ((Ev.ops l).map Ev.op) (d, g')).map Prod.fst
  | [], _, _, _ => rfl
  | .world h :: l, d, g, g' => rRun_world ha l d (h g) g'
  | .op o :: l, d, g, g' => by
    simp only [Ev.ops, List.map_cons, rRun]
    cases hD : rExec R a env nf inner o (d, g) with
    | error e =>
      rw [rExec_own_error ha hD g']
      rfl
    | ok D =>
      rw [rExec_own ha hD g']
      simp only [bind, Except.bind]
      exact rRun_world ha l D.1 D.2 g'

/-- An inner step that asks for noise once, with the drift it leaves behind, and counts the draw. -/
def NoiseOnce (inner : Env K V → St K V → Except Err (St K V)) : Prop :=
  ∀ (env : Env K V) (n' : St K V → Except Err (Mat V)) (sm : ℕ → ℕ → ℕ → V) (s s' : St K V), inner env s = .ok s' →
    (∀ q : St K V, q.draws = s.draws → q.drift = s'.drift → n' q = env.noise q) →
    inner { env with noise := n', sampler := sm } s = .ok s' ∧ s'.draws = s.draws + 1 ∧ s'.M = s.M ∧ ∃ d, s'.drift = some d

theorem cboInner_once : NoiseOnce (fun (env : Env K V) => cboInner env) := by
  intro env n' sm s s' h hn
  simp only [cboInner, bind_ok] at h ⊢
  obtain ⟨c, hc, h⟩ := h
  have hc' : computeConsensus { env with noise := n', sampler := sm } s = .ok c := hc
  have cd : c.draws = s.draws := by rw [computeConsensus_frame hc]
  refine ⟨⟨c, hc', ?_⟩, ?_⟩
  · unfold cboMove at h ⊢
    cases hcc : c.cons with
    | none => rw [hcc] at h; simp at h
    | some cm =>
      rw [hcc] at h
      simp only [bind_ok, pure_ok] at h ⊢
      obtain ⟨xp, h1, d, h2, w, h3, n, h4, u, h5, x, h6, rfl⟩ := h
      have h3' : correction { env with noise := n', sampler := sm } d c = .ok w := h3
      refine ⟨xp, h1, d, h2, w, h3', n, ?_, u, h5, x, h6, rfl⟩
      refine (hn { w.2 with drift := some w.1 } ?_ rfl).trans h4
      · rw [← cd]
        simp only
        unfold correction at h3
        split at h3
        · rw [pure_ok] at h3; rw [← h3]
        · simp only [bind_ok, pure_ok] at h3
          obtain ⟨_, _, rfl⟩ := h3
          rfl
        · split at h3
          · simp at h3
          · simp only [bind_ok, pure_ok, callF] at h3
            obtain ⟨_, _, _, _, rfl⟩ := h3
            rfl
  · unfold cboMove at h
    cases hcc : c.cons with
    | none => rw [hcc] at h; simp at h
    | some cm =>
      rw [hcc] at h
      simp only [bind_ok, pure_ok] at h
      obtain ⟨xp, h1, d, h2, w, h3, n, h4, u, h5, x, h6, rfl⟩ := h
      have cM : c.M = s.M := by rw [computeConsensus_frame hc]
      rw [← cd, ← cM]
      simp only
      refine ⟨?_, ?_, _, rfl⟩ <;> unfold correction at h3 <;> split at h3
      · rw [pure_ok] at h3; rw [← h3]
      · simp only [bind_ok, pure_ok] at h3
        obtain ⟨_, _, rfl⟩ := h3
        rfl
      · split at h3
        · simp at h3
        · simp only [bind_ok, pure_ok, callF] at h3
          obtain ⟨_, _, _, _, rfl⟩ := h3
          rfl
      · rw [pure_ok] at h3; rw [← h3]
      · simp only [bind_ok, pure_ok] at h3
        obtain ⟨_, _, rfl⟩ := h3
        rfl
      · split at h3
        · simp at h3
        · simp only [bind_ok, pure_ok, callF] at h3
          obtain ⟨_, _, _, _, rfl⟩ := h3
          rfl

theorem dcInner_once (G : ConOps K V) (eps : K) : NoiseOnce (fun (env : Env K V) => consThen env (dcMove env G eps)) := by
  intro env n' sm s s' h hn
  simp only [consThen, bind_ok] at h ⊢
  obtain ⟨c, hc, h⟩ := h
  have hc' : computeConsensus { env with noise := n', sampler := sm } s = .ok c := hc
  have cd : c.draws = s.draws := by rw [computeConsensus_frame hc]
  have hd := (dcMove_full env G eps).drift _ _ h
  refine ⟨⟨c, hc', ?_⟩, by rw [(dcMove_full env G eps).frame _ _ h, ← cd],
    by rw [(dcMove_full env G eps).frame _ _ h]; simp only; rw [computeConsensus_frame hc], by obtain ⟨_, d, _, _, _, e, _⟩ := hd; exact ⟨d, e⟩⟩
  unfold dcMove at h ⊢
  cases hcc : c.cons with
  | none => rw [hcc] at h; simp at h
  | some cm =>
    rw [hcc] at h
    simp only [bind_ok, pure_ok] at h ⊢
    obtain ⟨d, h1, n, h2, rest⟩ := h
    refine ⟨d, h1, n, ?_, rest⟩
    refine (hn { c with drift := some d, cons := some cm } cd ?_).trans h2
    · obtain ⟨_, _, _, _, _, _, _, _, _, _, _, _, e⟩ := rest
      rw [← e]

theorem evalTerms_env_congr {env env' : Env K V} (h1 : env.f = env'.f) (h2 : env.sqrtK = env'.sqrtK) (h3 : env.custom = env'.custom) :
    ∀ (l : List (Term K)) (s : St K V), evalTerms env l s = evalTerms env' l s
  | [], _ => rfl
  | tm :: l, s => by
    have e : evalTerm env tm s = evalTerm env' tm s := by
      cases tm <;> simp only [evalTerm, evalStag, callF, h1, h2, h3]
    simp only [evalTerms, e, evalTerms_env_congr h1 h2 h3 l]

/-- The termination checks use only objective, square root and the user's criteria. -/
theorem select_env_congr {env env' : Env K V} (h1 : env.f = env'.f) (h2 : env.sqrtK = env'.sqrtK) (h3 : env.custom = env'.custom) (s : St K V) :
    selectActive env s = selectActive env' s := by
  unfold selectActive
  rw [evalTerms_env_congr h1 h2 h3]

/-- The environment whose random numbers are a fixed function of the number of earlier draws, as in `Verif/Model/Dyn.lean`. -/
def fixedEnv (env : Env K V) (nf : St K V → Mat V → Except Err (Mat V)) (perm : ℕ → ℕ → ℕ → ℕ → ℕ) (smp : ℕ → ℕ → ℕ → V) : Env K V :=
  { env with
    noise := fun s => match s.drift with
      | none => .error .attribute
      | some d => nf s ⟨d.rows, d.cols, smp s.draws⟩
    perm := perm
    sampler := smp }

/-- A program with generator objects is an execution of the machine of `Dyn` with some sequence of random arrays. -/
theorem rRun_fixed {R : Rng γ V} {a : SeedArgs} {env : Env K V} {nf : St K V → Mat V → Except Err (Mat V)} {inner : Env K V → St K V → Except Err (St K V)}
    (hi : NoiseOnce inner) : ∀ (l : List (Ev γ)) (D E : RDyn K V γ × γ), rRun R a env nf inner l D = .ok E →
      ∃ smp : ℕ → ℕ → ℕ → V, ∀ smp' : ℕ → ℕ → ℕ → V, (∀ k, D.1.s.draws ≤ k → smp' k = smp k) →
        let e := fixedEnv env nf (batchPerm R D.1.s.M a.batchSeed) smp'
        execAll e (inner e) (Ev.ops l) D.1.s = .ok E.1.s
  | [], D, E, h => by
    simp only [rRun] at h
    injection h with h
    subst h
    exact ⟨fun k i j => (R.normal D.1.own 0 0).1 i j, fun _ _ => rfl⟩
  | .world f :: l, D, E, h => rRun_fixed hi l (D.1, f D.2) E h
  | .op o :: l, D, E, h => by
    simp only [rRun, bind_ok] at h
    obtain ⟨D1, h1, h2⟩ := h
    obtain ⟨smp, hs⟩ := rRun_fixed hi l D1 E h2
    simp only [rExec, bind_ok, pure_ok] at h1
    obtain ⟨s1, h1, rfl⟩ := h1
    simp only at hs
    cases o with
    | step =>
      simp only [exec] at h1
      obtain ⟨v, hv, hp⟩ := step_split.1 h1
      have pf := (postStep_facts hp).frame
      have v1 : s1.drift = v.drift := by rw [pf]
      have v2 : s1.draws = v.draws := by rw [pf]
      have v3 : s1.M = v.M := by rw [pf]
      have p1 : (preStep (envAt R a D.1.s.M D.1.own D.2 env nf) D.1.s).draws = D.1.s.draws := by rw [preStep_frame]
      have p2 : (preStep (envAt R a D.1.s.M D.1.own D.2 env nf) D.1.s).M = D.1.s.M := by rw [preStep_frame]
      obtain ⟨-, d2, d3, d, d4⟩ := hi _ _ (fun _ _ _ => D.1.s.x.get 0 0) _ _ hv (fun _ _ _ => rfl)
      rw [p1] at d2
      rw [p2] at d3
      refine ⟨fun k => if k = D.1.s.draws then (callSampler R a.sampler D.1.own D.2 d.rows d.cols).1 else smp k, ?_⟩
      intro smp' hsmp
      simp only [Ev.ops, execAll, bind_ok]
      refine ⟨s1, ?_, ?_⟩
      · simp only [exec]
        refine step_split.2 ⟨v, ?_, hp⟩
        have := hi _ (fixedEnv env nf (batchPerm R D.1.s.M a.batchSeed) smp').noise smp' _ _ hv ?_
        · exact this.1
        · intro q q1 q2
          rw [p1] at q1
          simp only [fixedEnv, envAt, noiseAt]
          rw [q2, d4]
          simp only
          rw [q1, hsmp _ (le_refl _)]
          simp
      · have e1 : s1.M = D.1.s.M := by rw [v3, d3]
        rw [← e1]
        refine hs smp' ?_
        intro k hk
        rw [hsmp k (by omega)]
        dsimp only
        rw [if_neg (by omega)]
    | select =>
      refine ⟨smp, fun smp' hsmp => ?_⟩
      have f := select_frame (K := K) h1
      have e1 : s1.M = D.1.s.M := by rw [f]
      have e2 : s1.draws = D.1.s.draws := by rw [f]
      simp only [Ev.ops, execAll, bind_ok]
      have h3 : selectActive (fixedEnv env nf (batchPerm R D.1.s.M a.batchSeed) smp') D.1.s = .ok s1 := by
        rw [select_env_congr (env := fixedEnv env nf (batchPerm R D.1.s.M a.batchSeed) smp') (env' := envAt R a D.1.s.M D.1.own D.2 env nf) rfl rfl rfl]
        exact h1
      refine ⟨s1, h3, ?_⟩
      rw [← e1]
      exact hs smp' (fun k hk => hsmp k (by omega))
    | sched =>
      refine ⟨smp, fun smp' hsmp => ?_⟩
      have h1' := h1
      simp only [exec] at h1'
      have f := sched_frame h1'
      have e1 : s1.M = D.1.s.M := by rw [f]
      have e2 : s1.draws = D.1.s.draws := by rw [f]
      simp only [Ev.ops, execAll, bind_ok]
      refine ⟨s1, h1, ?_⟩
      rw [← e1]
      exact hs smp' (fun k hk => hsmp k (by omega))
    | reset =>
      refine ⟨smp, fun smp' hsmp => ?_⟩
      have h1' := h1
      simp only [exec] at h1'
      injection h1' with h1'
      have e1 : s1.M = D.1.s.M := by rw [← h1']; rfl
      have e2 : s1.draws = D.1.s.draws := by rw [← h1']; rfl
      simp only [Ev.ops, execAll, bind_ok]
      refine ⟨s1, h1, ?_⟩
      rw [← e1]
      exact hs smp' (fun k hk => hsmp k (by omega))

end Verif
