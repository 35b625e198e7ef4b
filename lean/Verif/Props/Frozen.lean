import Verif.Proofs.Frozen
import Verif.Spec.Example
import Verif.Proofs.NeverRaises

/-! Properties C03 (a stopped run stays stopped and frozen), C16 (a step moves only the selected particles),
C19 (CBO never raises). -/

set_option linter.unusedSectionVars false

namespace Verif

variable {K V : Type} [Zero K] [One K] [Neg K] [Add K] [Sub K] [Mul K] [Inv K] [Div K] [NatCast K] [Pow K ℕ] [LinearOrder K] [Add V] [Sub V] [SMul K V]

/-- **C03.** Any reachable state, built-in criteria without internal state, post processing that acts particle by particle
(clipping), time step that stays non-negative. If run `m` is not active after a check, then after any number `k` of further
loop iterations (step, scheduler, check) it is still not active, and its positions, energies, best energy, best particle,
minimal energy and evaluation count are unchanged — whatever the other runs do. The particles must be fixed
by the post processing when the run stops, which holds as soon as one step was made (`C03_fixed`). -/
theorem C03_frozen [SoundArith K] (env : Env K V) (move : St K V → Except Err (St K V)) (hm : MoveOK move) (hl : MoveLocal move)
    (hq : MoveQuiet move) (p : V → V) (hpm : PostMap env p) (hp : PermOK env) (hno : NormOK env)
    (hsched : ∀ s q, env.sched s = .ok q → 0 ≤ s.dt → 0 ≤ q.dt)
    (a : Args K V) (s₀ s s₁ : St K V) (ops : List Op) (h0 : init env a = .ok s₀)
    (h : execAll env (consThen env move) ops s₀ = .ok s) (hdt : 0 ≤ s.dt)
    (hs : ∀ tm ∈ s.terms, BuiltIn tm) (h1 : selectActive env s = .ok s₁)
    (m : ℕ) (hM : m < s.M) (hna : m ∉ s₁.active)
    (hfix : ∀ n < s.N, p (s₁.x.get m n) = s₁.x.get m n) :
    ∀ (k : ℕ) (s₂ : St K V), execAll env (consThen env move) (further k) s₁ = .ok s₂ →
      m ∉ s₂.active ∧ SameRun m s₁ s₂ := by
  have hreach := execAll_induct hm hpm.ok hp (P := fun s => BestFit s)
    (fun o s s' _ hb h => bestFit_exec hno hm hpm.ok hb h) ops s₀ s (init_wf hp h0) (bestFit_init h0) h
  exact frozen_core env move hm hl hq p hpm hp hno hsched s s₁ hreach.1 hreach.2 hdt hs h1 m hM hna hfix

/-- After a step, all particles are fixed by an idempotent post processing; they stay so through checks and
scheduler updates. -/
theorem C03_fixed (env : Env K V) (inner : St K V → Except Err (St K V)) (p : V → V) (hpm : PostMap env p)
    (hid : ∀ v, p (p v) = p v) (s b c d : St K V) (hb : step env inner s = .ok b)
    (hc : schedUpdate env b = .ok c) (hd : selectActive env c = .ok d) (m n : ℕ) :
    p (d.x.get m n) = d.x.get m n := by
  have dx : d.x = b.x := by rw [select_frame hd]; simp only; rw [sched_frame hc]
  obtain ⟨v, hv⟩ := step_image hpm hb m n
  rw [dx, hv, hid]

/-- C03: all hypotheses hold in the example; run 0 is stopped by the energy tolerance after one step while run 1 continues
until `max_it`, and the energies of run 0 are those of the first step. -/
example : MoveOK (cboMove Example.env) ∧ MoveLocal (cboMove Example.env) ∧ MoveQuiet (cboMove Example.env) ∧
    PostMap Example.env (fun v => max (-100) (min 100 v)) ∧ NormOK Example.env ∧
    (∀ tm ∈ (Example.start [.energyTol (.fin 2), .maxIt (some 3)] none).terms, BuiltIn tm) ∧
    (match execAll Example.env (cboInner Example.env) [.select, .step, .sched, .select]
        (Example.start [.energyTol (.fin 2), .maxIt (some 3)] none) with
      | .ok s => match execAll Example.env (cboInner Example.env) (further 1) s with
        | .ok b => decide (s.active = [1] ∧ b.active = [1] ∧ b.x.get 0 0 = s.x.get 0 0 ∧ b.x.get 1 0 ≠ s.x.get 1 0)
        | _ => false
      | _ => false) = true := by
  refine ⟨cboMove_ok _, cboMove_local _, cboMove_quiet fun g h => by simp [Example.env] at h, fun s => rfl, ⟨?_, ?_⟩, ?_, by decide +kernel⟩
  · intro l hl
    simp only [Example.env]
    have : (l.map fun p : ℚ × ℚ => |p.1 - p.2|) = l.map fun _ => 0 :=
      List.map_congr_left fun q hq => by rw [hl q hq]; simp
    rw [this]
    simp
  · intro l
    simp only [Example.env, Flt.lt, decide_eq_false_iff_not, not_lt]
    induction l with
    | nil => simp
    | cons q l ih => simp only [List.map_cons, List.sum_cons]; exact add_nonneg (abs_nonneg _) ih
  · intro tm htm
    simp [Example.start, Example.args, init, initBatch, initHistory, checkFDims, callF, baseSt] at htm
    rcases htm with rfl | rfl <;> trivial

/-- **C16.** One CBO-type step from a well-formed state, post processing `p` acting particle by particle.
* The batch of the step (`cIdx`) selects only particles of active runs; without batching exactly those.
* A particle that does not belong to an active run, or (partial batching) is not in the batch of its run, is not moved: it
  is only post-processed.
* An energy entry changes only if the particle is in the batch of an active run, and is then the objective at its
  position before the step. -/
theorem C16_only_selected (env : Env K V) (move : St K V → Except Err (St K V)) (hm : MoveOK move)
    (hl : MoveLocal move) (p : V → V) (hpm : PostMap env p) (hp : PermOK env) (s s' : St K V) (hw : WF s)
    (h : step env (consThen env move) s = .ok s') :
    (∀ m n, s'.cIdx.Sel m n → m ∈ s.active ∧ n < s.N) ∧
    (s.batched = false → ∀ m n, s'.cIdx.Sel m n ↔ m ∈ s.active ∧ n < s.N) ∧
    (∀ m n, ¬ (m ∈ s.active ∧ n < s.N ∧ (s.batched = true → s.batchPartial = true → s'.cIdx.Sel m n)) →
      s'.x.get m n = p (s.x.get m n)) ∧
    (∀ m n, s'.cIdx.Sel m n → s'.energy.get m n = env.f (s.x.get m n)) ∧
    (∀ m n, ¬ s'.cIdx.Sel m n → s'.energy.get m n = s.energy.get m n) := by
  have q := step_sum hm hpm.ok h
  refine ⟨?_, ?_, ?_, q.fresh, q.stale⟩
  · intro m n hs; rw [q.cIdx] at hs; exact cSel_active hp hw hs
  · intro hb m n; rw [q.cIdx]; exact preStep_cSel_unbatched hp hw hb m n
  · intro m n hn
    apply step_unsel hm hl hpm h
    rw [q.pIdx, preStep_pSel hp hw]
    rw [q.cIdx] at hn
    exact hn

/-- **C16 (exact update).** CBO without correction and with full particle updates (no batching, or `partial=False`): every
particle `n` of the `i`-th active run moves to `p(x + (-λ·dt)·(x - c_i) + σ·noise)`, where `c_i` is the consensus point of
that run reported by the step, and the noise is the array the noise model returned for this drift. -/
theorem C16_update (env : Env K V) (hcorr : env.corr = .none) (hn : NoiseOK env)
    (r : List (K × Flt K × V) → V) (hr : env.cons = .mean r) (p : V → V) (hpm : PostMap env p) (hp : PermOK env)
    (s s' : St K V) (hw : WF s) (hfull : s.batched = false ∨ s.batchPartial = false)
    (h : step env (cboInner env) s = .ok s') :
    ∃ c d nz, s'.cons = some c ∧ s'.drift = some d ∧ (∃ q : St K V, env.noise q = .ok nz ∧ q.drift = some d) ∧
      ∀ i < s.active.length, ∀ n < s.N,
        d.get i n = s.x.get (s.active.getD i 0) n - c.get i 0 ∧
        s'.x.get (s.active.getD i 0) n = p (s.x.get (s.active.getD i 0) n +
          ((-s.lamda * s.dt) • (s.x.get (s.active.getD i 0) n - c.get i 0) + s.sigma • nz.get i n)) := by
  obtain ⟨c, d, nz, xm, hc⟩ := cboStep_facts hcorr hn.shape hr hp hw h
  have f := step_frame (consThen_frame (cboMove_ok env)) (by rw [← cboInner_eq]; exact h)
  have hix := preStep_idx env hp hw
  have hpar : s'.pIdx.cols = s.N ∧ (∀ i < s.active.length, s'.pIdx.run i = s.active.getD i 0) ∧
      ∀ i j, s'.pIdx.par i j = j := by
    rw [f.pIdx]
    obtain ⟨h1, h2, h3⟩ := preStep_pIdx env s hw
    by_cases hb : s.batched = true
    · rcases hfull with hfull | hfull
      · rw [hb] at hfull; cases hfull
      · rw [h2 hb hfull]; exact ⟨rfl, fun _ _ => rfl, fun _ _ => rfl⟩
    · obtain ⟨-, -, r2, r3, r4⟩ := h3 (by simpa using hb)
      exact ⟨r2, r3, r4⟩
  obtain ⟨q, hq1, hq2, -⟩ := hc.noise
  refine ⟨c, d, nz, hc.cons, hc.drift, ⟨q, hq1, hq2⟩, ?_⟩
  intro i hi n hnN
  have hd := hc.dget i hi n (by rw [hpar.1]; exact hnN)
  rw [hpar.2.1 i hi, hpar.2.2] at hd
  refine ⟨hd, ?_⟩
  have hsel : s'.pIdx.Sel (s.active.getD i 0) n :=
    ⟨i, by rw [f.pIdx, hix.pRows]; exact hi, n, by rw [hpar.1]; exact hnN, hpar.2.1 i hi, hpar.2.2 i n⟩
  obtain ⟨i', hi', j', hj', e1, e2, e3⟩ := hc.sel _ _ hsel
  rw [hpar.2.1 i' hi'] at e1
  rw [hpar.2.2] at e2
  subst e2
  have hii : i' = i := by
    have hnd := hw.nodup
    have a1 : s.active.getD i' 0 = s.active[i'] := by simp [List.getD, hi']
    have a2 : s.active.getD i 0 = s.active[i] := by simp [List.getD, hi]
    rw [a1, a2] at e1
    exact (List.Nodup.getElem_inj_iff hnd).1 e1
  subst hii
  obtain ⟨q', hq', hpost⟩ := hc.post
  rw [hpm q'] at hpost
  injection hpost with hpost
  rw [← hpost]
  simp only [Mat.map]
  rw [hq', e3, hd]
  rfl

/-- C16: the example step with two runs of three particles: hypotheses, and one moved coordinate (consensus of run 0 is
`2`, the particle at `1` moves to `11/8`). -/
example : Example.env.corr = .none ∧ WF (Example.start [.maxIt (some 3)] none) ∧
    (Example.start [.maxIt (some 3)] none).batched = false ∧ NoiseOK Example.env ∧
    (Example.final [.maxIt (some 1)] none 3).x.get 0 0 = 11/8 := by
  refine ⟨rfl, ?_, rfl, ?_, by decide +kernel⟩
  · refine init_wf (env := Example.env) (a := Example.args [.maxIt (some 3)] none) ?_ rfl
    intro N c m j hj
    simp only [Example.env, if_pos hj]
    exact Nat.mod_lt _ (by omega)
  · intro s d hd
    simp only [Example.env, hd]
    exact ⟨_, rfl, rfl, rfl⟩

/-- **C19 (partial).** With no correction, one consensus point per run, a noise model that returns arrays of the drift's shape
(constant, isotropic and anisotropic noise do), non-raising post processing and scheduler, at least one particle and a positive tracking
interval: the constructor succeeds, and *every* sequence of steps, checks, scheduler updates and resets succeeds, with
`x` and `energy` keeping their shapes `(M, N)` — provided no step is made without particles (no active run, batch size 0), unless the
chosen objective, noise and SciPy version tolerate that.
Missing from the full statement: steps without particles (`C19_idle_false`), the covariance noise (raises when some but not all runs are
stopped) and the energy stagnation criterion (raises with several runs, `C07_*`). -/
theorem C19_never_raises_partial (env : Env K V) (he : EnvOK env) (hp : PermOK env) (a : Args K V)
    (hN : 1 ≤ a.x0.cols) (hsi : 1 ≤ a.saveInt) (hst : ∀ tm ∈ a.terms, Stateless tm) (hb : env.emptyRaises = true → a.batchSize ≠ some 0) :
    ∃ s₀, init env a = .ok s₀ ∧ ∀ ops : List Op, (env.emptyRaises = true → StepsActive env (cboInner env) ops s₀) →
      ∃ s, execAll env (cboInner env) ops s₀ = .ok s ∧
        s.x.rows = a.x0.rows ∧ s.x.cols = a.x0.cols ∧ s.energy.rows = a.x0.rows ∧ s.energy.cols = a.x0.cols := by
  obtain ⟨s₀, h0, e1, e2, e3, e4⟩ := init_total env hN
  refine ⟨s₀, h0, fun ops hops => ?_⟩
  obtain ⟨s, r1, r2, r3, r4, -⟩ := execAll_total he hp ops s₀ (init_wf hp h0) (by omega) (by rw [e2]; exact hst)
    (fun h => init_batch_pos h0 (hb h)) hops
  exact ⟨s, r1, by rw [r2.xr, r3, e3], by rw [r2.xc, r4, e4], by rw [r2.er, r3, e3], by rw [r2.ec, r4, e4]⟩

/-- **C19 for `optimize()`.** Under the same conditions, with batches of at least one particle, the constructor succeeds and `optimize` never
raises, however long it runs and also when it is called again after any sequence of such calls and resets: it makes no step without an
active run. -/
theorem C19_optimize_partial (env : Env K V) (he : EnvOK env) (hp : PermOK env) (a : Args K V)
    (hN : 1 ≤ a.x0.cols) (hsi : 1 ≤ a.saveInt) (hst : ∀ tm ∈ a.terms, Stateless tm) (hb : env.emptyRaises = true → a.batchSize ≠ some 0) :
    ∃ s₀, init env a = .ok s₀ ∧ ∀ ops : List Op, (env.emptyRaises = true → StepsActive env (cboInner env) ops s₀) →
      ∃ s, execAll env (cboInner env) ops s₀ = .ok s ∧ ∀ fuel e, optimize env (cboInner env) fuel s ≠ .raised e := by
  obtain ⟨s₀, h0, e1, e2, e3, e4⟩ := init_total env hN
  refine ⟨s₀, h0, fun ops hops => ?_⟩
  obtain ⟨s, r1, r2, -, -, r5, r6, r7⟩ := execAll_total he hp ops s₀ (init_wf hp h0) (by omega) (by rw [e2]; exact hst)
    (fun h => init_batch_pos h0 (hb h)) hops
  exact ⟨s, r1, fun fuel e => optimize_total he hp fuel s r2 r5 (by rw [r6, e2]; exact hst) (fun h => by rw [r7]; exact init_batch_pos h0 (hb h)) e⟩

/-- **C19 is false for steps without an active run.** If the objective, the noise or the consensus need at least one particle (`f_dim='1D'`,
isotropic noise), calling `step` when all runs have stopped raises, in every dynamic and after every sequence of operations. -/
theorem C19_idle_false (env : Env K V) (hp : PermOK env) (hpost : PostOK env) (hr : env.emptyRaises = true) (a : Args K V) (ops : List Op)
    (s₀ s : St K V) (h0 : init env a = .ok s₀) (h : execAll env (cboInner env) ops s₀ = .ok s) (hact : s.active = []) :
    step env (cboInner env) s = .error .value := by
  have hw := (execAll_induct (cboMove_ok env) hpost hp (P := fun _ => True) (fun _ _ _ _ _ _ => trivial) ops s₀ s
      (init_wf hp h0) trivial h).1
  exact step_empty (move := cboMove env) hp hw hr (.inl hact)

/-- C19: the check followed by a step and another check and step makes no step without active runs in the example. -/
example : ∀ s₀, init { Example.env with emptyRaises := true } (Example.args [.maxIt (some 3)] (some 2)) = .ok s₀ →
    StepsActive { Example.env with emptyRaises := true } (cboInner { Example.env with emptyRaises := true }) [.select, .step, .select, .step] s₀ := by
  intro s₀ h0
  have key : (match (do let s₀ ← init { Example.env with emptyRaises := true } (Example.args [.maxIt (some 3)] (some 2))
                        let s₁ ← exec { Example.env with emptyRaises := true } (cboInner { Example.env with emptyRaises := true }) .select s₀
                        let s₂ ← exec { Example.env with emptyRaises := true } (cboInner { Example.env with emptyRaises := true }) .step s₁
                        let s₃ ← exec { Example.env with emptyRaises := true } (cboInner { Example.env with emptyRaises := true }) .select s₂
                        pure (s₁, s₃) : Except Err (St ℚ ℚ × St ℚ ℚ)) with
      | .ok (s, t) => decide (s.active ≠ [] ∧ t.active ≠ [])
      | .error _ => false) = true := by decide +kernel
  refine ⟨nofun, fun s₁ h1 => ⟨fun _ => ?_, fun s₂ h2 => ⟨nofun, fun s₃ h3 => ⟨fun _ => ?_, fun _ _ => trivial⟩⟩⟩⟩
  · simp only [h0, h1, bind, Except.bind] at key
    revert key
    split
    · rename_i heq
      revert heq
      cases exec { Example.env with emptyRaises := true } (cboInner { Example.env with emptyRaises := true }) .step s₁ with
      | error e => intro heq; cases heq
      | ok u =>
        simp only
        cases exec { Example.env with emptyRaises := true } (cboInner { Example.env with emptyRaises := true }) .select u with
        | error e => intro heq; cases heq
        | ok w => intro heq; simp only [pure, Except.pure, Except.ok.injEq, Prod.mk.injEq] at heq; intro hd; rw [heq.1]; exact (of_decide_eq_true hd).1
    · intro h; cases h
  · simp only [h0, h1, h2, h3, bind, Except.bind, pure, Except.pure] at key
    exact (of_decide_eq_true key).2

/-- C19, idle steps: the example stops after one step; a further call of `step` raises. -/
example : (match (do let s₀ ← init { Example.env with emptyRaises := true } (Example.args [.maxIt (some 1)] (some 2))
                     execAll { Example.env with emptyRaises := true } (cboInner { Example.env with emptyRaises := true })
                       [.select, .step, .select] s₀ : Except Err (St ℚ ℚ)) with
    | .ok s => decide (s.active = [] ∧ s.it = 1)
    | .error _ => false) = true := by decide +kernel

/-- C19: the example environment satisfies all requirements. -/
example : EnvOK Example.env ∧ PermOK Example.env ∧ 1 ≤ (Example.args [.maxIt (some 3)] (some 2)).x0.cols ∧
    1 ≤ (Example.args [.maxIt (some 3)] (some 2)).saveInt ∧ (Example.args [.maxIt (some 3)] (some 2)).batchSize ≠ some 0 := by
  refine ⟨⟨rfl, ⟨_, rfl⟩, ?_, fun s => ⟨_, rfl, rfl, rfl⟩, fun s => ⟨_, rfl⟩⟩, ?_, by decide, by decide, by decide⟩
  · intro s d hd
    simp only [Example.env, hd]
    exact ⟨_, rfl, rfl, rfl⟩
  · intro N c m j hj
    simp only [Example.env, if_pos hj]
    exact Nat.mod_lt _ (by omega)

end Verif
