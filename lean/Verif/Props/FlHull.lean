import Verif.Proofs.FlHull
import Verif.Proofs.FlMemory

/-! Property C90: the noise-free `CBO` in floating point arithmetic. -/

set_option linter.unusedSectionVars false

namespace Verif

section
variable {φ : FloatFmt} {ι : Type}

/-- **C90 (any rule).** Full claim (C24): with `sigma = 0` and `0 ≤ lamda*dt ≤ 1` an ensemble that starts in a box `[lo, hi]` stays there. In floating point arithmetic it fails, see below. What holds, with at least
3 bits, with or without batches, after construction and any sequence of operations: if the consensus rule gives points of the box up to the relative error `γ ≤ 1`, and the post processing
keeps all larger boxes invariant, then after `k` steps the ensemble has left the box by at most `((1 + γ + 10u)^k - 1) * B`, where `B` bounds the coordinates of the box and `u = 2^-p`. -/
theorem C90_hull_partial (hp : 3 ≤ φ.p) (env : Env (Fl φ) (ι → Fl φ)) (hcorr : env.corr = .none) (hno : NoiseShape env) (hperm : PermOK env)
    (g : List (Fl φ × Flt (Fl φ) × (ι → Fl φ)) → ι → Fl φ) (hg : env.cons = .mean g) (p : (ι → Fl φ) → ι → Fl φ) (hpm : PostMap env p) (a : Args (Fl φ) (ι → Fl φ)) (hb : a.batchSize ≠ some 0)
    (E : Fl φ → Flt (Fl φ) → Prop) (γ : ℝ) (hR : HullRule g a.x0.cols E γ) (γ0 : 0 ≤ γ) (γ1 : γ ≤ 1) (m : ℕ)
    (hn : FlNoiseFree a.sigma a.lamda a.dt) (hE : ∀ v, E a.alpha (env.f v))
    (hsched : ∀ q r, FlNoiseFree q.sigma q.lamda q.dt → (∀ v, E (q.alpha m) (env.f v)) → env.sched q = .ok r →
      FlNoiseFree r.sigma r.lamda r.dt ∧ ∀ v, E (r.alpha m) (env.f v))
    (lo hi : ι → ℝ) (B : ℝ) (B0 : 0 ≤ B) (hlo : ∀ i, |lo i| ≤ B) (hhi : ∀ i, |hi i| ≤ B) (hp' : ∀ ε, 0 ≤ ε → ∀ v, FlBox lo hi ε v → FlBox lo hi ε (p v))
    (hx : ∀ n < a.x0.cols, FlBox lo hi 0 (a.x0.get m n)) (s₀ s : St (Fl φ) (ι → Fl φ)) (ops : List Op) (h0 : init env a = .ok s₀)
    (h : execAll env (cboInner env) ops s₀ = .ok s) :
    ∀ n < a.x0.cols, FlBox lo hi (((1 + (γ + 10 * 2 ^ (-(φ.p : ℤ)))) ^ ops.count .step - 1) * B) (s.x.get m n) := by
  have hw := init_wf hperm h0
  have hbs := init_bs hb h0
  have e0 : s₀.x = a.x0 ∧ s₀.N = a.x0.cols ∧ s₀.sigma = a.sigma ∧ s₀.lamda = a.lamda ∧ s₀.dt = a.dt ∧ s₀.alpha m = a.alpha ∧ s₀.batchSize ≤ a.x0.cols := by
    unfold init at h0
    split_ifs at h0
    all_goals
      injection h0 with h0
      subst h0
      refine ⟨rfl, rfl, rfl, rfl, rfl, rfl, ?_⟩
      show batchSizeOf a.batchSize a.x0.cols ≤ a.x0.cols
      unfold batchSizeOf
      split
      · exact le_rfl
      · exact min_le_right _ _
  obtain ⟨e1, e2, e3, e4, e5, e6, e7⟩ := e0
  have := box_run hp hcorr hno hperm hg hpm hR γ0 γ1 hsched B0 hlo hhi hp' ops 0 s₀ s hw hbs e7 (by rw [e3, e4, e5]; exact hn) (by rw [e6]; exact hE)
    (by rw [e1, e2]; simpa using hx) h
  rw [Nat.zero_add, e2] at this
  exact this

/-- **C90 (default rule).** With the consensus rule of the code as it is computed (`logsumexp`, `exp`, products and sums rounded, sums in any order) and a finite objective with
`|alpha * f| ≤ W`: the relative error is `γ = 10uW + 130n²u` for `n` particles. -/
theorem C90_default_partial (hp : 3 ≤ φ.p) (env : Env (Fl φ) (ι → Fl φ)) (hcorr : env.corr = .none) (hno : NoiseShape env) (hperm : PermOK env)
    (t t' : ∀ n, SumTree (Fin (n + 1))) (ht : ∀ n, (t n).Covers) (ht' : ∀ n, (t' n).Covers)
    (hg : env.cons = .mean (flConsDefault t t')) (p : (ι → Fl φ) → ι → Fl φ) (hpm : PostMap env p) (a : Args (Fl φ) (ι → Fl φ)) (hb : a.batchSize ≠ some 0)
    (W : ℝ) (W0 : 0 ≤ W) (hv : 10 * (2 ^ (-(φ.p : ℤ)) * W) + 130 * ((a.x0.cols : ℝ) ^ 2 * 2 ^ (-(φ.p : ℤ))) ≤ 1) (m : ℕ)
    (hn : FlNoiseFree a.sigma a.lamda a.dt) (hE : ∀ v, BoundedWeight W a.alpha (env.f v))
    (hsched : ∀ q r, FlNoiseFree q.sigma q.lamda q.dt → (∀ v, BoundedWeight W (q.alpha m) (env.f v)) → env.sched q = .ok r →
      FlNoiseFree r.sigma r.lamda r.dt ∧ ∀ v, BoundedWeight W (r.alpha m) (env.f v))
    (lo hi : ι → ℝ) (B : ℝ) (B0 : 0 ≤ B) (hlo : ∀ i, |lo i| ≤ B) (hhi : ∀ i, |hi i| ≤ B) (hp' : ∀ ε, 0 ≤ ε → ∀ v, FlBox lo hi ε v → FlBox lo hi ε (p v))
    (hx : ∀ n < a.x0.cols, FlBox lo hi 0 (a.x0.get m n)) (s₀ s : St (Fl φ) (ι → Fl φ)) (ops : List Op) (h0 : init env a = .ok s₀)
    (h : execAll env (cboInner env) ops s₀ = .ok s) :
    ∀ n < a.x0.cols, FlBox lo hi (((1 + (10 * (2 ^ (-(φ.p : ℤ)) * W) + 130 * ((a.x0.cols : ℝ) ^ 2 * 2 ^ (-(φ.p : ℤ))) + 10 * 2 ^ (-(φ.p : ℤ)))) ^ ops.count .step - 1) * B) (s.x.get m n) := by
  have u0 := two_zpow_pos (-(φ.p : ℤ))
  exact C90_hull_partial hp env hcorr hno hperm _ hg p hpm a hb _ _ (hullRule_default t t' ht ht' a.x0.cols W hv) (by positivity) hv m hn hE hsched lo hi B B0 hlo hhi hp' hx s₀ s ops h0 h

/-- **C90 (rescaled rule).** With the rule that subtracts the smallest energy first, no bound on the energies is needed: `γ = 100n²u`. -/
theorem C90_rescaled_partial (hp : 3 ≤ φ.p) (env : Env (Fl φ) (ι → Fl φ)) (hcorr : env.corr = .none) (hno : NoiseShape env) (hperm : PermOK env)
    (t t' : ∀ n, SumTree (Fin (n + 1))) (ht : ∀ n, (t n).Covers) (ht' : ∀ n, (t' n).Covers)
    (hg : env.cons = .mean (flConsRescale t t')) (p : (ι → Fl φ) → ι → Fl φ) (hpm : PostMap env p) (a : Args (Fl φ) (ι → Fl φ)) (hb : a.batchSize ≠ some 0)
    (hv : 100 * ((a.x0.cols : ℝ) ^ 2 * 2 ^ (-(φ.p : ℤ))) ≤ 1) (m : ℕ) (hn : FlNoiseFree a.sigma a.lamda a.dt) (hf : ∀ v, ∃ x, env.f v = .fin x) (ha : 0 ≤ a.alpha.val)
    (hsched : ∀ q r, FlNoiseFree q.sigma q.lamda q.dt → 0 ≤ (q.alpha m).val → env.sched q = .ok r → FlNoiseFree r.sigma r.lamda r.dt ∧ 0 ≤ (r.alpha m).val)
    (lo hi : ι → ℝ) (B : ℝ) (B0 : 0 ≤ B) (hlo : ∀ i, |lo i| ≤ B) (hhi : ∀ i, |hi i| ≤ B) (hp' : ∀ ε, 0 ≤ ε → ∀ v, FlBox lo hi ε v → FlBox lo hi ε (p v))
    (hx : ∀ n < a.x0.cols, FlBox lo hi 0 (a.x0.get m n)) (s₀ s : St (Fl φ) (ι → Fl φ)) (ops : List Op) (h0 : init env a = .ok s₀)
    (h : execAll env (cboInner env) ops s₀ = .ok s) :
    ∀ n < a.x0.cols, FlBox lo hi (((1 + (100 * ((a.x0.cols : ℝ) ^ 2 * 2 ^ (-(φ.p : ℤ))) + 10 * 2 ^ (-(φ.p : ℤ)))) ^ ops.count .step - 1) * B) (s.x.get m n) := by
  have u0 := two_zpow_pos (-(φ.p : ℤ))
  refine C90_hull_partial hp env hcorr hno hperm _ hg p hpm a hb _ _ (hullRule_rescale t t' ht ht' a.x0.cols hv) (by positivity) hv m hn (fun v => ⟨ha, hf v⟩)
    (fun q r h1 h2 h3 => ?_) lo hi B B0 hlo hhi hp' hx s₀ s ops h0 h
  obtain ⟨h4, h5⟩ := hsched q r h1 (h2 0).1 h3
  exact ⟨h4, fun v => ⟨h5, hf v⟩⟩

end

/-- **C90 is false without the error term.** In every format and for every rule for ties: two particles at `2^-(p+2)` and `1`, the first of which is the consensus point, `sigma = 0`, `lamda = dt = 1`. After one step the
second particle is at `0`, outside the interval spanned by the ensemble; the objective is finite on that interval and `+inf` at `0`. -/
theorem C90_false (φ : FloatFmt) : ∃ s₀ s, init (Example.flMemEnv φ) (Example.flMemArgs φ) = .ok s₀ ∧ FlNoiseFree s₀.sigma s₀.lamda s₀.dt ∧
    (∀ n < 2, FlBox (fun _ => 2 ^ (-(φ.p : ℤ) - 2)) (fun _ => 1) 0 (s₀.x.get 0 n)) ∧ (∀ v, FlBox (fun _ => 2 ^ (-(φ.p : ℤ) - 2)) (fun _ => 1) 0 v → ∃ x, (Example.flMemEnv φ).f v = .fin x) ∧
    execAll (Example.flMemEnv φ) (cboInner (Example.flMemEnv φ)) [.step] s₀ = .ok s ∧ s.x.get 0 1 () = 0 ∧
    ¬ FlBox (fun _ => 2 ^ (-(φ.p : ℤ) - 2)) (fun _ => 1) 0 (s.x.get 0 1) ∧ (Example.flMemEnv φ).f (s.x.get 0 1) = .pinf := by
  have hp : PermOK (Example.flMemEnv φ) := fun _ _ _ _ h => h
  obtain ⟨s, h0, w, hsi, hM, hN, hbs, hbt, hact, e1, e2, e3, e4⟩ := flCbo_init (Example.flMemEnv φ) hp
  obtain ⟨s', h⟩ := cboStep_total (flMemEnv_ok φ) hp w hsi (fun h => by cases h)
  have ht : (0 : ℝ) < 2 ^ (-(φ.p : ℤ) - 2) := two_zpow_pos _
  have lt : (2 : ℝ) ^ (-(φ.p : ℤ) - 2) ≤ 1 := zpow_le_one_of_nonpos₀ (by norm_num) (by omega)
  have fr := step_frame (cboInner_frame _) h
  have hix := preStep_idx (Example.flMemEnv φ) hp w
  obtain ⟨c, d, ns, xm, cs⟩ := cboStep_facts rfl (flNoise φ).ok.shape (r := fun l => (l.map fun q => q.2.2).headD 0) rfl hp w h
  have hsel : s'.pIdx.Sel 0 1 := by
    rw [fr.pIdx, preStep_pSel hp w]
    exact ⟨by rw [hact]; simp, by rw [hN]; norm_num, fun h1 => by rw [hbt] at h1; cases h1⟩
  obtain ⟨i, hi, j, hj, r1, r2, r3⟩ := cs.sel 0 1 hsel
  have hi0 : i = 0 := by rw [hact] at hi; simpa using hi
  subst hi0
  have hcr : s'.cIdx.run 0 = 0 := by rw [fr.cIdx, hix.cRun 0 hi, hact]; rfl
  have hc : c.get 0 0 = s.x.get 0 (s'.cIdx.par 0 0) := by
    have hcols : s'.cIdx.cols = 2 := by rw [fr.cIdx, hix.cCols, hbs]
    rw [cs.cget 0 hi, sampleOf, hcols, hcr]
    rfl
  have hpar : s'.cIdx.par 0 0 = 0 := by
    rw [fr.cIdx]
    simp only [preStep, setBatch, hbt, setBatchUnbatched]
    rw [if_neg (by decide)]
    simp only
    rw [if_pos (by rw [hact, hM]; rfl)]
    rfl
  have hx1 : s'.x.get 0 1 = xm.get 0 1 := by
    obtain ⟨q, hq1, hq2⟩ := cs.post
    rw [← hq1]
    have : (Except.ok q.x : Except Err _) = .ok s'.x := hq2
    injection this with this
    rw [this]
  have key : s'.x.get 0 1 () = 0 := by
    rw [hx1, r3, cs.dget 0 hi j hj, r1, r2, hc, hpar, e1, e2, e3, e4]
    show (1 : Fl φ) + ((-1 * 1) * (1 - Example.flTiny φ) + 0 * ns.get 0 j ()) = 0
    rw [Fl.zero_mul', Fl.add_zero', Fl.neg_one_mul']
    refine Fl.ext ?_
    rw [Fl.val_add, Fl.val_neg, Fl.val_sub, Fl.val_one, flTiny_sub.1, add_neg_cancel, φ.near.zero, Fl.val_zero]
  refine ⟨s, s', h0, ?_, ?_, ?_, ?_, key, ?_, ?_⟩
  · rw [e1, e2, e3]
    exact ⟨rfl, by rw [Fl.val_one]; norm_num, by rw [Fl.val_one]; norm_num⟩
  · intro n _ u
    rw [e4]
    show _ ≤ (if n = 0 then Example.flTiny φ else 1).val ∧ (if n = 0 then Example.flTiny φ else 1).val ≤ _
    split_ifs
    · rw [flTiny_val]; constructor <;> linarith
    · rw [Fl.val_one]; constructor <;> linarith
  · intro v hv
    have := (hv ()).1
    refine ⟨v (), ?_⟩
    show (if 0 < v () then Flt.fin (v ()) else .pinf) = _
    rw [if_pos (by rw [Fl.lt_iff, Fl.val_zero]; linarith)]
  · simp only [execAll, exec, h]
    rfl
  · intro hbox
    have := (hbox ()).1
    rw [key, Fl.val_zero] at this
    linarith
  · show (if 0 < s'.x.get 0 1 () then Flt.fin (s'.x.get 0 1 ()) else .pinf) = _
    rw [key, if_neg (lt_irrefl _)]

/-- The example with the default or the rescaled rule and a bounded objective. -/
noncomputable def Example.flStepEnv (φ : FloatFmt) (g : List (Fl φ × Flt (Fl φ) × (Unit → Fl φ)) → Unit → Fl φ) : Env (Fl φ) (Unit → Fl φ) :=
  { Example.flMemEnv φ with f := fun v => .fin (if v () < 1 then 0 else 1), cons := .mean g }

/-- Non-vacuity: with both rules in double precision the construction and two steps meet all hypotheses of `C90_default_partial` and `C90_rescaled_partial` (hence those of `C90_hull_partial`), with `W = 1`. -/
example : (∀ n, (Example.tree n).Covers) ∧ ∀ g ∈ ({flConsDefault Example.tree Example.tree, flConsRescale Example.tree Example.tree} : Set _),
    (Example.flStepEnv Example.double g).corr = .none ∧ NoiseShape (Example.flStepEnv Example.double g) ∧ PermOK (Example.flStepEnv Example.double g) ∧
    PostMap (Example.flStepEnv Example.double g) id ∧ FlNoiseFree (Example.flMemArgs Example.double).sigma (Example.flMemArgs Example.double).lamda (Example.flMemArgs Example.double).dt ∧
    (∀ v, BoundedWeight 1 (Example.flMemArgs Example.double).alpha ((Example.flStepEnv Example.double g).f v)) ∧ 0 ≤ (Example.flMemArgs Example.double).alpha.val ∧
    10 * ((2 : ℝ) ^ (-((53 : ℕ) : ℤ)) * 1) + 130 * (((2 : ℕ) : ℝ) ^ 2 * 2 ^ (-((53 : ℕ) : ℤ))) ≤ 1 ∧
    (∀ q r, FlNoiseFree q.sigma q.lamda q.dt → (∀ v, BoundedWeight 1 (q.alpha 0) ((Example.flStepEnv Example.double g).f v)) → (Example.flStepEnv Example.double g).sched q = .ok r →
      FlNoiseFree r.sigma r.lamda r.dt ∧ ∀ v, BoundedWeight 1 (r.alpha 0) ((Example.flStepEnv Example.double g).f v)) ∧
    (∀ n < 2, FlBox (fun _ => 0) (fun _ => 1) 0 ((Example.flMemArgs Example.double).x0.get 0 n)) ∧
    ∃ s₀ s, init (Example.flStepEnv Example.double g) (Example.flMemArgs Example.double) = .ok s₀ ∧
      execAll (Example.flStepEnv Example.double g) (cboInner (Example.flStepEnv Example.double g)) [.step, .step] s₀ = .ok s := by
  refine ⟨Example.tree_covers, fun g _ => ?_⟩
  have hp : PermOK (Example.flStepEnv Example.double g) := fun _ _ _ _ h => h
  have he : EnvOK (Example.flStepEnv Example.double g) :=
    ⟨rfl, ⟨_, rfl⟩, fun s d h => ⟨d, by simp [Example.flStepEnv, Example.flMemEnv, h], rfl, rfl⟩, fun s => ⟨_, rfl, rfl, rfl⟩, fun s => ⟨_, rfl⟩⟩
  have hpm : PostMap (Example.flStepEnv Example.double g) id := fun s => by simp [Example.flStepEnv, Example.flMemEnv, Mat.map]
  obtain ⟨s, h0, w, hsi, -⟩ := flCbo_init (Example.flStepEnv Example.double g) hp
  obtain ⟨s₁, h1⟩ := cboStep_total he hp w hsi (fun h => by cases h)
  have w1 : WF s₁ := step_wf (cboMove_ok _) hpm.ok hp w (by rw [← cboInner_eq]; exact h1)
  obtain ⟨s₂, h2⟩ := cboStep_total he hp w1 (by rw [(step_frame (cboInner_frame _) h1).saveInt]; exact hsi) (fun h => by cases h)
  have one : (1 : Fl Example.double).val = 1 := Fl.val_one
  have ht : (0 : ℝ) < 2 ^ (-(Example.double.p : ℤ) - 2) := two_zpow_pos _
  have lt : (2 : ℝ) ^ (-(Example.double.p : ℤ) - 2) ≤ 1 := zpow_le_one_of_nonpos₀ (by norm_num) (by omega)
  refine ⟨rfl, he.noise.shape, hp, hpm, ⟨rfl, ?_, ?_⟩, fun v => ⟨_, rfl, ?_⟩, ?_, by norm_num, fun q r h3 h4 h5 => ?_, fun n _ u => ?_, s, s₂, h0, ?_⟩
  · show 0 ≤ (1 : Fl Example.double).val * (1 : Fl Example.double).val; rw [one]; norm_num
  · show (1 : Fl Example.double).val * (1 : Fl Example.double).val ≤ 1; rw [one]; norm_num
  · show |(1 : Fl Example.double).val * _| ≤ 1
    rw [one, one_mul]
    split_ifs
    · rw [Fl.val_zero]; norm_num
    · rw [one]; norm_num
  · show 0 ≤ (1 : Fl Example.double).val; rw [one]; norm_num
  · have h5 : (Except.ok _ : Except Err _) = .ok r := h5
    injection h5 with h5
    rw [← h5]
    exact ⟨h3, h4⟩
  · show _ ≤ (if n = 0 then Example.flTiny Example.double else 1).val ∧ (if n = 0 then Example.flTiny Example.double else 1).val ≤ _
    split_ifs
    · rw [flTiny_val]; constructor <;> linarith
    · rw [one]; norm_num
  · simp only [execAll, exec, h1, bind_ok]
    exact ⟨s₁, rfl, s₂, h2, rfl⟩

end Verif
