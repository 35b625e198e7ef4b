import Verif.Proofs.SimCov
import Verif.Props.RunsMore
import Verif.Proofs.SimHeavi
import Verif.Props.CovTotal

/-! C17 and C71: independence of the runs with covariance noise and with Heaviside corrections. -/

set_option linter.unusedSectionVars false

namespace Verif

section
variable {ι : Type} [Fintype ι] [DecidableEq ι]

/-- **C17 with covariance noise (partial).** CBO with covariance noise (either mode, any eigenvalue decomposition routine), everything else as in `C17_independent_partial`: if `optimize` finishes for all
`M` runs together, then run `r` started alone with its permutations and rows of random numbers finishes, with the same positions, energies, best values and evaluation count. The covariance of a run is
that of its own particles and weights. (A step raises when some, but not all runs have stopped, `C62`; the hypothesis that `optimize` finishes excludes this.)
Missing from the full statement: schedulers that couple the runs (false, `C17_effective_false`). -/
theorem C17_covariance_partial (env : Env ℝ (ι → ℝ)) (r : ℕ) (p : (ι → ℝ) → ι → ℝ) (eigh : Matrix ι ι ℝ → (ι → ℝ) × Matrix ι ι ℝ) (sampling : Bool) (smp : ℕ → ℕ → ℕ → ι → ℝ)
    (g : List (ℝ × Flt ℝ × (ι → ℝ)) → ι → ℝ) (ga gl gs gd : ℝ → ℝ)
    (hcons : env.cons = .mean g) (hcorr : env.corr = .none) (hnoise : ∀ s, env.noise s = covNoise eigh sampling smp s) (hpm : PostMap env p)
    (hid : ∀ v, p (p v) = p v) (hp : PermOK env) (hno : NormOK env) (hsched : SchedLocal env ga gl gs gd) (hgd : ∀ v, 0 ≤ v → 0 ≤ gd v)
    (a : Args ℝ (ι → ℝ)) (hr : r < a.x0.rows) (hdt : 0 ≤ a.dt) (hsi : a.saveInt ≠ 0) (hterms : ∀ tm ∈ a.terms, BuiltIn tm)
    (s₀ s' : St ℝ (ι → ℝ)) (fuel : ℕ) (h0 : init env a = .ok s₀) (h : optimize env (cboInner env) fuel s₀ = .done s') :
    ∃ pos : ℕ → ℕ, (∀ c, pos c < a.x0.rows) ∧
      ∃ s₁ s₁', init (env.aloneCov r pos eigh sampling smp) (a.single r) = .ok s₁ ∧
        optimize (env.aloneCov r pos eigh sampling smp) (cboInner (env.aloneCov r pos eigh sampling smp)) fuel s₁ = .done s₁' ∧ SameResult r s' s₁' := by
  simp only [cboInner_eq] at h ⊢
  exact independent_quiet env r p (move := cboMove) (cboMove_ok env) (cboMove_quiet fun g' h => by rw [hcorr] at h; cases h)
    (fun _ _ _ he => cboMove_kit he) (keeps_local (cboMove_ok env) (cboMove_local env) hpm hp) (image_fixed hpm hid) hpm hp hno hsched hgd
    (fun pos => env.aloneCov r pos eigh sampling smp)
    (fun pos c₀ => simEnv_cov hcons hnoise hpm hsched pos c₀ (corrSim_none hcorr hcorr) fun _ g' h => (nomatch hcorr.symm.trans h))
    (fun pos N c m j hj => hp N c r j hj) a hr hdt hsi hterms s₀ s' fuel h0 h

/-- **C71, AdamCBO with covariance noise (partial).** Missing from the full statement: schedulers that couple the runs (false). -/
theorem C71_adam_covariance_partial (env : Env ℝ (ι → ℝ)) (A : AdamOps (ι → ℝ)) (β1 β2 : ℝ) (r : ℕ) (p : (ι → ℝ) → ι → ℝ) (eigh : Matrix ι ι ℝ → (ι → ℝ) × Matrix ι ι ℝ) (sampling : Bool)
    (smp : ℕ → ℕ → ℕ → ι → ℝ) (g : List (ℝ × Flt ℝ × (ι → ℝ)) → ι → ℝ) (ga gl gs gd : ℝ → ℝ)
    (hcons : env.cons = .mean g) (hcorr : env.corr = .none) (hnoise : ∀ s, env.noise s = covNoise eigh sampling smp s) (hpm : PostMap env p)
    (hid : ∀ v, p (p v) = p v) (hp : PermOK env) (hno : NormOK env) (hsched : SchedLocal env ga gl gs gd) (hgd : ∀ v, 0 ≤ v → 0 ≤ gd v)
    (a : Args ℝ (ι → ℝ)) (hr : r < a.x0.rows) (hdt : 0 ≤ a.dt) (hsi : a.saveInt ≠ 0) (hterms : ∀ tm ∈ a.terms, BuiltIn tm)
    (s₀ s' : St ℝ (ι → ℝ)) (fuel : ℕ) (h0 : init env a = .ok s₀) (h : optimize env (consThen env (adamMove env A β1 β2)) fuel s₀ = .done s') :
    ∃ pos : ℕ → ℕ, (∀ c, pos c < a.x0.rows) ∧
      ∃ s₁ s₁', init (env.aloneCov r pos eigh sampling smp) (a.single r) = .ok s₁ ∧
        optimize (env.aloneCov r pos eigh sampling smp) (consThen (env.aloneCov r pos eigh sampling smp) (adamMove (env.aloneCov r pos eigh sampling smp) A β1 β2)) fuel s₁ = .done s₁' ∧
        SameResult r s' s₁' :=
  independent_quiet env r p (move := fun e => adamMove e A β1 β2) (adamMove_ok env A β1 β2) (fun _ _ h => ⟨(adamMove_facts h).2.2.2.1, (adamMove_facts h).2.2.1⟩)
    (fun _ _ _ he => adamMove_kit he A β1 β2) (keeps_local (adamMove_ok env A β1 β2) (adamMove_local env A β1 β2) hpm hp) (image_fixed hpm hid) hpm hp hno hsched hgd
    (fun pos => env.aloneCov r pos eigh sampling smp)
    (fun pos c₀ => simEnv_cov hcons hnoise hpm hsched pos c₀ (corrSim_none hcorr hcorr) fun _ g' h => (nomatch hcorr.symm.trans h))
    (fun pos N c m j hj => hp N c r j hj) a hr hdt hsi hterms s₀ s' fuel h0 h

/-- **C71, MirrorCBO with covariance noise (partial).** Missing from the full statement: schedulers that couple the runs (false). -/
theorem C71_mirror_covariance_partial (env : Env ℝ (ι → ℝ)) (gc : (ι → ℝ) → ι → ℝ) (r : ℕ) (p : (ι → ℝ) → ι → ℝ) (eigh : Matrix ι ι ℝ → (ι → ℝ) × Matrix ι ι ℝ) (sampling : Bool)
    (smp : ℕ → ℕ → ℕ → ι → ℝ) (g : List (ℝ × Flt ℝ × (ι → ℝ)) → ι → ℝ) (ga gl gs gd : ℝ → ℝ)
    (hcons : env.cons = .mean g) (hcorr : env.corr = .none) (hnoise : ∀ s, env.noise s = covNoise eigh sampling smp s) (hpm : PostMap env p)
    (hp : PermOK env) (hno : NormOK env) (hsched : SchedLocal env ga gl gs gd) (hgd : ∀ v, 0 ≤ v → 0 ≤ gd v)
    (a : Args ℝ (ι → ℝ)) (hr : r < a.x0.rows) (hdt : 0 ≤ a.dt) (hsi : a.saveInt ≠ 0) (hterms : ∀ tm ∈ a.terms, BuiltIn tm)
    (s₀ s' : St ℝ (ι → ℝ)) (fuel : ℕ) (h0 : init env a = .ok s₀) (h : optimize env (consThen env (mirrorMove env gc)) fuel s₀ = .done s') :
    ∃ pos : ℕ → ℕ, (∀ c, pos c < a.x0.rows) ∧
      ∃ s₁ s₁', init (env.aloneCov r pos eigh sampling smp) (a.single r) = .ok s₁ ∧
        optimize (env.aloneCov r pos eigh sampling smp) (consThen (env.aloneCov r pos eigh sampling smp) (mirrorMove (env.aloneCov r pos eigh sampling smp) gc)) fuel s₁ = .done s₁' ∧
        SameResult r s' s₁' :=
  independent_quiet env r p (move := fun e => mirrorMove e gc) (mirrorMove_ok env gc) (mirrorMove_quiet (fun g' h => by rw [hcorr] at h; cases h) gc)
    (fun _ _ _ he => mirrorMove_kit he gc) (keeps_mirror hpm hp) (fun _ _ m h n _ => (mirrorStep_facts hpm h).1 m n) hpm hp hno hsched hgd
    (fun pos => env.aloneCov r pos eigh sampling smp)
    (fun pos c₀ => simEnv_cov hcons hnoise hpm hsched pos c₀ (corrSim_none hcorr hcorr) fun _ g' h => (nomatch hcorr.symm.trans h))
    (fun pos N c m j hj => hp N c r j hj) a hr hdt hsi hterms s₀ s' fuel h0 h

end

section
variable {K V : Type} [Field K] [LinearOrder K] [IsStrictOrderedRing K] [AddCommGroup V] [Module K V]

/-- **C17 with a Heaviside correction (partial).** CBO with a Heaviside correction `g`, row-wise noise, post processing particle by particle, criteria `energy_tol`, `diff_tol`, `max_it`, `max_time`, a scheduler
that treats the runs separately: if `optimize` finishes for all `M` runs together, then run `r` started alone finishes with the same positions, energies and best values.
Missing: the evaluation counts, which differ, and with them `max_eval` (`C17_heaviside_false`). -/
theorem C17_heaviside_partial (env : Env K V) (r : ℕ) (ν : ℕ → K → ℕ → ℕ → V → V) (p : V → V) (g : Flt K → V → V)
    (m : List (K × Flt K × V) → V) (ga gl gs gd : K → K)
    (hcons : env.cons = .mean m) (hcorr : env.corr = .heavi g) (hnoise : NoiseRows env ν) (hpm : PostMap env p)
    (hp : PermOK env) (hno : NormOK env) (hsched : SchedLocal env ga gl gs gd) (hgd : ∀ v, 0 ≤ v → 0 ≤ gd v)
    (a : Args K V) (hr : r < a.x0.rows) (hdt : 0 ≤ a.dt) (hsi : a.saveInt ≠ 0) (hterms : ∀ tm ∈ a.terms, BuiltIn tm ∧ ∀ n, tm ≠ .maxEval n)
    (s₀ s' : St K V) (fuel : ℕ) (h0 : init env a = .ok s₀) (h : optimize env (cboInner env) fuel s₀ = .done s') :
    ∃ pos : ℕ → ℕ, (∀ c, pos c < a.x0.rows) ∧
      ∃ s₁ s₁', init (env.alone r pos ν) (a.single r) = .ok s₁ ∧
        optimize (env.alone r pos ν) (cboInner (env.alone r pos ν)) fuel s₁ = .done s₁' ∧ SameValues r s' s₁' := by
  simp only [cboInner_eq] at h ⊢
  obtain ⟨pos, hpos, s₁, s₁', h1, h2, h3, -⟩ := independent_gen (cnt := False) env r p (move := cboMove) (J := fun _ => True) (cboMove_ok env)
    (fun _ _ _ he => cboMove_kit he) (fun _ _ _ _ _ _ => trivial) (fun s q hw _ _ _ hq hM hna hne _ => heavi_frozen hcorr hcons hp s q hw hq hM hna hne) (fun _ _ _ => trivial) hpm hp hno
    (fun s q hq hd => by rw [hsched s] at hq; injection hq with hq; subst hq; exact hgd _ hd) (fun pos => env.alone r pos ν)
    (fun pos c₀ => simEnv_rows hcons hnoise hpm hsched pos c₀ (corrSim_heavi hcorr hcorr rfl) fun h => h.elim)
    (fun pos N c m j hj => hp N c r j hj) a hr hdt hsi (fun tm htm => ⟨(hterms tm htm).1, .inr (hterms tm htm).2⟩) s₀ s' fuel h0 h
  exact ⟨pos, hpos, s₁, s₁', h1, h2, h3⟩

end

/-- The example environment with the Heaviside correction and noise that is the same for all rows. -/
def Example.envCount : Env ℚ ℚ := { Example.envHeavi with noise := fun s => match s.drift with
    | some d => .ok ⟨d.rows, d.cols, fun _ j => if j = s.draws then 1 / 2 else -1 / 2⟩
    | none => .error .attribute }

/-- The noise of this environment. -/
def Example.nuCount (c : ℕ) (_ : ℚ) (_ j : ℕ) (_ : ℚ) : ℚ := if j = c then 1 / 2 else -1 / 2

/-- **C17 fails with a Heaviside correction and `max_eval`.** The correction evaluates the objective once per run, but adds the number of all runs to the evaluation counter of each
(`correction.py:76`). So the other run makes run 1 stop earlier: with two runs of three particles and `max_eval = 10` run 1 stops after 1 iteration, alone after 2, whichever rows of random
numbers it is given, and ends elsewhere. All hypotheses of `C17_heaviside_partial` hold, except for the criterion. -/
theorem C17_heaviside_false : NoiseRows Example.envCount Example.nuCount ∧ Example.envCount.corr = .heavi heaviG ∧ PermOK Example.envCount ∧
    PostMap Example.envCount (fun v => max (-100) (min 100 v)) ∧ SchedLocal Example.envCount (fun v => 2 * v) id id id ∧
    ∃ s₀ s', init Example.envCount (Example.args [.maxEval 10] none) = .ok s₀ ∧ optimize Example.envCount (cboInner Example.envCount) 5 s₀ = .done s' ∧
      ∀ pos : ℕ → ℕ, ∃ s₁ s₁', init (Example.envCount.alone 1 pos Example.nuCount) ((Example.args [.maxEval 10] none).single 1) = .ok s₁ ∧
        optimize (Example.envCount.alone 1 pos Example.nuCount) (cboInner (Example.envCount.alone 1 pos Example.nuCount)) 5 s₁ = .done s₁' ∧
        s'.nEval 1 = 8 ∧ s₁'.nEval 0 = 11 ∧ s'.it = 1 ∧ s₁'.it = 2 ∧ ¬ SameValues 1 s' s₁' := by
  have h2 : (match init Example.envCount (Example.args [.maxEval 10] none), init (Example.envCount.alone 1 (fun _ => 0) Example.nuCount) ((Example.args [.maxEval 10] none).single 1) with
      | .ok s₀, .ok s₁ =>
        match optimize Example.envCount (cboInner Example.envCount) 5 s₀,
          optimize (Example.envCount.alone 1 (fun _ => 0) Example.nuCount) (cboInner (Example.envCount.alone 1 (fun _ => 0) Example.nuCount)) 5 s₁ with
        | .done s', .done s₁' => decide (s'.nEval 1 = 8 ∧ s₁'.nEval 0 = 11 ∧ s'.it = 1 ∧ s₁'.it = 2 ∧ s'.N = 3 ∧ s₁'.x.get 0 0 ≠ s'.x.get 1 0)
        | _, _ => false
      | _, _ => false) = true := by decide +kernel
  refine ⟨?_, rfl, ?_, fun s => rfl, fun s => rfl, ?_⟩
  · intro s d hd
    refine ⟨⟨d.rows, d.cols, fun _ j => if j = s.draws then 1 / 2 else -1 / 2⟩, ?_, rfl, rfl, fun i j => rfl⟩
    simp only [Example.envCount, hd]
  · intro N c m j hj
    simp only [Example.envCount, Example.envHeavi, Example.env, if_pos hj]
    exact Nat.mod_lt _ (by omega)
  · split at h2
    · next s₀ s₁ e0 e1 =>
      split at h2
      · next s' s₁' e2 e3 =>
        obtain ⟨a1, a2, a3, a4, a5, a6⟩ := of_decide_eq_true h2
        refine ⟨s₀, s', e0, e2, fun pos => ⟨s₁, s₁', e1, e3, a1, a2, a3, a4, fun h => a6 (h.x 0 (by omega))⟩⟩
      · cases h2
    · cases h2

/-- C17 with a correction: the hypotheses hold for the same dynamic with `max_it = 3`, and run 1 alone ends at the same positions with another count. -/
example : (match init Example.envCount (Example.args [.maxIt (some 3)] none), init (Example.envCount.alone 1 (fun _ => 1) Example.nuCount) ((Example.args [.maxIt (some 3)] none).single 1) with
      | .ok s₀, .ok s₁ =>
        match optimize Example.envCount (cboInner Example.envCount) 5 s₀,
          optimize (Example.envCount.alone 1 (fun _ => 1) Example.nuCount) (cboInner (Example.envCount.alone 1 (fun _ => 1) Example.nuCount)) 5 s₁ with
        | .done s', .done s₁' => decide (s₁'.x.get 0 0 = s'.x.get 1 0 ∧ s₁'.x.get 0 1 = s'.x.get 1 1 ∧ s₁'.x.get 0 2 = s'.x.get 1 2 ∧ s'.x.get 1 0 ≠ s₀.x.get 1 0 ∧
            s'.nEval 1 = 18 ∧ s₁'.nEval 0 = 15)
        | _, _ => false
      | _, _ => false) = true ∧ (∀ tm ∈ (Example.args [.maxIt (some 3)] none).terms, BuiltIn tm ∧ ∀ n, tm ≠ .maxEval n) := by
  refine ⟨by decide +kernel, fun tm htm => ?_⟩
  simp [Example.args] at htm
  subst htm
  exact ⟨trivial, fun n => nofun⟩

/-- C17, C71 with covariance noise: all hypotheses hold for two runs on the plane, all three dynamics finish, so the theorems apply. -/
example (eigh : Matrix (Fin 2) (Fin 2) ℝ → (Fin 2 → ℝ) × Matrix (Fin 2) (Fin 2) ℝ) (b : Bool) (x : ℕ → ℕ → Fin 2 → ℝ) :
    let env := Example.realEnv (covNoise eigh b Example.smp)
    let A : AdamOps (Fin 2 → ℝ) := ⟨fun v i => v i ^ 2, fun m v i => m i / (Real.sqrt (v i) + 1)⟩
    ∃ s₀ s s₂ s₃, init env (Example.covArgs x) = .ok s₀ ∧ optimize env (cboInner env) 8 s₀ = .done s ∧ optimize env (consThen env (mirrorMove env fun v => v)) 8 s₀ = .done s₂ ∧
      optimize env (consThen env (adamMove env A (9 / 10) (99 / 100))) 8 s₀ = .done s₃ ∧
      (∃ pos s₁ s₁', (∀ c, pos c < 2) ∧ init (env.aloneCov 1 pos eigh b Example.smp) ((Example.covArgs x).single 1) = .ok s₁ ∧
        optimize (env.aloneCov 1 pos eigh b Example.smp) (cboInner (env.aloneCov 1 pos eigh b Example.smp)) 8 s₁ = .done s₁' ∧ SameResult 1 s s₁') ∧
      (∃ pos s₁ s₁', (∀ c, pos c < 2) ∧ init (env.aloneCov 1 pos eigh b Example.smp) ((Example.covArgs x).single 1) = .ok s₁ ∧
        optimize (env.aloneCov 1 pos eigh b Example.smp) (consThen (env.aloneCov 1 pos eigh b Example.smp) (mirrorMove (env.aloneCov 1 pos eigh b Example.smp) fun v => v)) 8 s₁ = .done s₁' ∧
        SameResult 1 s₂ s₁') ∧
      ∃ pos s₁ s₁', (∀ c, pos c < 2) ∧ init (env.aloneCov 1 pos eigh b Example.smp) ((Example.covArgs x).single 1) = .ok s₁ ∧
        optimize (env.aloneCov 1 pos eigh b Example.smp) (consThen (env.aloneCov 1 pos eigh b Example.smp) (adamMove (env.aloneCov 1 pos eigh b Example.smp) A (9 / 10) (99 / 100))) 8 s₁ = .done s₁' ∧
        SameResult 1 s₃ s₁' := by
  intro env A
  obtain ⟨s₀, h0, ⟨s, e1⟩, ⟨s₂, e2⟩, s₃, e3⟩ := Example.cov_done eigh b x
  obtain ⟨hpm, hp⟩ := Example.covEnv_facts eigh b
  have he : ∀ v : Fin 2 → ℝ, 0 ≤ euclid v := fun v => Real.sqrt_nonneg _
  have hno : NormOK env := by
    refine ⟨fun l hl => ?_, fun l => ?_⟩
    · have : (l.map fun p : (Fin 2 → ℝ) × (Fin 2 → ℝ) => euclid (p.1 - p.2)).sum = 0 := by
        refine List.sum_eq_zero fun y hy => ?_
        obtain ⟨q, hq, rfl⟩ := List.mem_map.1 hy
        simp [hl q hq, euclid]
      simp only [env, Example.realEnv, this, zero_div]
    · have : 0 ≤ (l.map fun p : (Fin 2 → ℝ) × (Fin 2 → ℝ) => euclid (p.1 - p.2)).sum := List.sum_nonneg fun y hy => by
        obtain ⟨q, hq, rfl⟩ := List.mem_map.1 hy
        exact he _
      have : 0 ≤ (l.map fun p : (Fin 2 → ℝ) × (Fin 2 → ℝ) => euclid (p.1 - p.2)).sum / l.length := div_nonneg this (Nat.cast_nonneg _)
      simp only [env, Example.realEnv, Flt.lt, decide_eq_false_iff_not, not_lt]
      exact this
  have hsched : SchedLocal env (fun v => min (2 * v) 1000) id id id := fun s => rfl
  have hbu : ∀ tm ∈ (Example.covArgs x).terms, BuiltIn tm := by
    intro tm htm
    simp [Example.covArgs] at htm
    subst htm; trivial
  have hsi : (Example.covArgs x).saveInt ≠ 0 := by simp [Example.covArgs, Example.realArgs]
  have hdt : 0 ≤ (Example.covArgs x).dt := by norm_num [Example.covArgs, Example.realArgs]
  have hr : 1 < (Example.covArgs x).x0.rows := by simp [Example.covArgs, Example.realArgs]
  refine ⟨s₀, s, s₂, s₃, h0, e1, e2, e3, ?_, ?_, ?_⟩
  · obtain ⟨pos, hpos, s₁, s₁', a1, a2, a3⟩ := C17_covariance_partial env 1 _ eigh b Example.smp _ _ _ _ _ rfl rfl (fun _ => rfl) hpm (clipVec_idem 100 (by norm_num)) hp hno hsched (fun _ h => h) _ hr hdt hsi hbu s₀ s 8 h0 e1
    exact ⟨pos, s₁, s₁', hpos, a1, a2, a3⟩
  · obtain ⟨pos, hpos, s₁, s₁', a1, a2, a3⟩ := C71_mirror_covariance_partial env (fun v => v) 1 _ eigh b Example.smp _ _ _ _ _ rfl rfl (fun _ => rfl) hpm hp hno hsched (fun _ h => h) _ hr hdt hsi hbu s₀ s₂ 8 h0 e2
    exact ⟨pos, s₁, s₁', hpos, a1, a2, a3⟩
  · obtain ⟨pos, hpos, s₁, s₁', a1, a2, a3⟩ := C71_adam_covariance_partial env A _ _ 1 _ eigh b Example.smp _ _ _ _ _ rfl rfl (fun _ => rfl) hpm (clipVec_idem 100 (by norm_num)) hp hno hsched (fun _ h => h) _ hr hdt hsi hbu s₀ s₃ 8 h0 e3
    exact ⟨pos, s₁, s₁', hpos, a1, a2, a3⟩

end Verif
