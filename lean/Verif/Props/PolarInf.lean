import Verif.Proofs.PolarInf
import Verif.Model.PolarInf
import Verif.Props.Polar
import Verif.Props.Relabel

/-! Property C105: `PolarCBO` with `kappa = np.inf` next to `CBO`. -/

set_option linter.unusedSectionVars false

namespace Verif

section
variable {K V : Type} [Zero K] [One K] [Neg K] [Add K] [Sub K] [Mul K] [Inv K] [Div K] [NatCast K] [Pow K ℕ] [LinearOrder K] [Add V] [Sub V] [SMul K V]

/-- **C105.** A polarised dynamic whose rule gives every particle the consensus point of its run performs the same run as `CBO`: for every sequence of operations that succeeds for `CBO` it succeeds too, and afterwards the two states differ
in the shape of the consensus only. Batches need `batch_partial=True` and no Heaviside correction (for `batch_partial=False` the polarised dynamic raises, `C50_batch_raises`), stopping criteria other than energy stagnation (`C105_stagnation_false`). -/
theorem C105_run (env : Env K V) (r : List (K × Flt K × V) → V) (ρ : List (K × Flt K × V) → ℕ → V) (hr : env.cons = .mean r) (hρ : ∀ L i, ρ L i = r L) (hb : ConsBlind env) (hp : PermOK env) (hpo : PostOK env) (a : Args K V)
    (hbat : ∀ b, a.batchSize = some b → b < a.x0.cols → a.batchPartial = true ∧ ∀ g, env.corr ≠ .heavi g) (hst : ∀ tm ∈ a.terms, Stateless tm) (ops : List Op) (s₀ s : St K V) (h0 : init env a = .ok s₀)
    (h : execAll env (cboInner env) ops s₀ = .ok s) :
    ∃ u, init { env with cons := .polar ρ } a = .ok s₀ ∧ execAll { env with cons := .polar ρ } (cboInner { env with cons := .polar ρ }) ops s₀ = .ok u ∧ SameButCons env s u := by
  obtain ⟨i1, i2, i3, i4, i5⟩ := init_setCons (ce := .polar ρ) h0
  obtain ⟨u, hu, hs⟩ := execAll_setCons hb hp hpo hr hρ ops s₀ s s₀ (init_wf hp h0) (fun hB => by obtain ⟨b, e1, e2⟩ := i5 hB; rw [i3]; exact hbat b e1 e2) (by rw [i4]; exact hst) i2 h
  exact ⟨u, i1, hu, hs⟩

/-- **C105, `optimize`.** The same for a call of `optimize`, which stops after the same number of iterations. -/
theorem C105_optimize (env : Env K V) (r : List (K × Flt K × V) → V) (ρ : List (K × Flt K × V) → ℕ → V) (hr : env.cons = .mean r) (hρ : ∀ L i, ρ L i = r L) (hb : ConsBlind env) (hp : PermOK env) (hpo : PostOK env) (a : Args K V)
    (hbat : ∀ b, a.batchSize = some b → b < a.x0.cols → a.batchPartial = true ∧ ∀ g, env.corr ≠ .heavi g) (hst : ∀ tm ∈ a.terms, Stateless tm) (fuel : ℕ) (s₀ s : St K V) (h0 : init env a = .ok s₀)
    (h : optimize env (cboInner env) fuel s₀ = .done s) :
    ∃ u, init { env with cons := .polar ρ } a = .ok s₀ ∧ optimize { env with cons := .polar ρ } (cboInner { env with cons := .polar ρ }) fuel s₀ = .done u ∧ SameButCons env s u ∧ u.bestP = s.bestP ∧ u.bestE = s.bestE ∧ u.it = s.it := by
  obtain ⟨i1, i2, i3, i4, i5⟩ := init_setCons (ce := .polar ρ) h0
  obtain ⟨u, hu, hs⟩ := optimize_setCons hb hp hpo hr hρ fuel s₀ s s₀ (init_wf hp h0) (fun hB => by obtain ⟨b, e1, e2⟩ := i5 hB; rw [i3]; exact hbat b e1 e2) (by rw [i4]; exact hst) i2 h
  exact ⟨u, i1, hu, hs, by rw [hs.rest], by rw [hs.rest], by rw [hs.rest]⟩

end

section kernels
variable {ι : Type} [Fintype ι]

/-- Kernels with `kappa = np.inf` do not distinguish points; the Taz kernel if not all particles coincide. -/
theorem C105_kernel (k : Kernel) (mx : ℝ) (hk : k = .taz → mx ≠ 0) (x y : ι → ℝ) : k.negLogInf mx x y = .fin 0 := by
  cases k with
  | gaussian => simp [Kernel.negLogInf]
  | laplace => simp [Kernel.negLogInf]
  | constant => simp [Kernel.negLogInf, powInf]
  | inverseQuadratic => simp [Kernel.negLogInf]
  | taz => simp [Kernel.negLogInf, divFin, hk rfl]

/-- **C105, consensus.** With `kappa = np.inf` every particle of every run has the consensus point of `CBO`, whatever the energies (also `+inf` and NaN, as far as the model of `Model/Consensus` goes) and the kernel factor are. -/
theorem C105_rule (nl : (ι → ℝ) → (ι → ℝ) → Flt ℝ) (hn : ∀ x y, nl x y = .fin 0) (kf : ℝ → ℝ) (L : List (ℝ × Flt ℝ × (ι → ℝ))) (i : ℕ) : polarRule nl kf L i = consDefault L := by
  have hw : ∀ p : ℝ × Flt ℝ × (ι → ℝ), ∀ v, expFin (polarWeight (kf p.1) (nl p.2.2 v) p.1 p.2.1) = expWeight p.1 p.2.1 := fun p v => by
    rw [hn]
    obtain ⟨a, e, x⟩ := p
    cases e with
    | fin e => simp [polarWeight, Flt.mul, Flt.sub, Flt.add, Flt.neg, expFin, expWeight]
    | nan => simp [polarWeight, Flt.mul, Flt.sub, Flt.add, Flt.neg, expFin, expWeight]
    | pinf =>
      simp only [polarWeight, Flt.mul, Flt.infTimes]
      split_ifs <;> rfl
    | ninf =>
      simp only [polarWeight, Flt.mul, Flt.infTimes]
      split_ifs <;> rfl
  unfold polarRule polarAt consDefault
  refine congrArg List.sum (List.map_congr_left fun p _ => ?_)
  congr 1
  have hl : ((polarRow nl kf L ((L.map fun p => p.2.2).getD i 0)).map expFin).sum = (L.map fun p => expWeight p.1 p.2.1).sum := by
    unfold polarRow
    rw [List.map_map]
    exact congrArg List.sum (List.map_congr_left fun p _ => hw p _)
  rw [hn]
  obtain ⟨a, e, x⟩ := p
  cases e with
  | fin e =>
    have e1 : polarWeight (kf a) (.fin 0) a (.fin e) = .fin (-a * e) := by simp [polarWeight, Flt.mul, Flt.sub, Flt.add, Flt.neg]
    simp only [e1, softmax, coeff, lseWeights, hl]
  | nan => rfl
  | pinf =>
    simp only [polarWeight, Flt.mul, Flt.infTimes]
    split_ifs <;> rfl
  | ninf =>
    simp only [polarWeight, Flt.mul, Flt.infTimes]
    split_ifs <;> rfl

/-- **C105, consensus of the class.** -/
theorem C105_consensus (k : Kernel) (mode : KernelMode) (wx : Mat (ℝ × Flt ℝ × (ι → ℝ))) (hk : k = .taz → maxDist (wx.map fun p => p.2.2) ≠ 0) (c : Mat (ι → ℝ)) (h : polarConsensusInf k mode wx = .ok c) :
    c.rows = wx.rows ∧ c.cols = wx.cols ∧ ∀ m i, c.get m i = consDefault (wx.row m) := by
  unfold polarConsensusInf at h
  split_ifs at h
  injection h with h
  subst h
  exact ⟨rfl, rfl, fun m i => C105_rule _ (fun x y => C105_kernel k _ hk x y) _ _ _⟩

/-- **C105 for the kernels of the library** (all but Taz): `PolarCBO` with `kappa = np.inf` and either kernel factor is `CBO`. Noise, post processing, criteria, correction and scheduler do not read the consensus; the covariance noise of `PolarCBO` is
another function than the one of `CBO` (`C50_covariance_false`). -/
theorem C105_kappa (k : Kernel) (hk : k ≠ .taz) (mode : KernelMode) (env : Env ℝ (ι → ℝ)) (hr : env.cons = .mean consDefault) (hb : ConsBlind env) (hp : PermOK env) (hpo : PostOK env) (a : Args ℝ (ι → ℝ))
    (hbat : ∀ b, a.batchSize = some b → b < a.x0.cols → a.batchPartial = true ∧ ∀ g, env.corr ≠ .heavi g) (hst : ∀ tm ∈ a.terms, Stateless tm) (ops : List Op) (s₀ s : St ℝ (ι → ℝ)) (h0 : init env a = .ok s₀)
    (h : execAll env (cboInner env) ops s₀ = .ok s) :
    ∃ u, init { env with cons := polarConsInf k mode } a = .ok s₀ ∧ execAll { env with cons := polarConsInf k mode } (cboInner { env with cons := polarConsInf k mode }) ops s₀ = .ok u ∧ SameButCons env s u :=
  C105_run env consDefault _ hr (C105_rule _ (fun x y => C105_kernel k 1 (fun e => absurd e hk) x y) mode.kf) hb hp hpo a hbat hst ops s₀ s h0 h

/-- **C105 is false for the Taz kernel** when all particles coincide: then every value of `neg_log` is NaN (and with it every weight), whereas `CBO` stays where it is. -/
theorem C105_taz_false (wx : Mat (ℝ × Flt ℝ × (ι → ℝ))) (v : ι → ℝ) (h : ∀ m i, (wx.get m i).2.2 = v) (kf a : ℝ) (e : Flt ℝ) :
    maxDist (wx.map fun p => p.2.2) = 0 ∧ Kernel.taz.negLogInf (maxDist (wx.map fun p => p.2.2)) v v = .nan ∧ polarWeight kf (Kernel.taz.negLogInf (maxDist (wx.map fun p => p.2.2)) v v) a e = .nan := by
  have hm : maxDist (wx.map fun p => p.2.2) = 0 := by
    unfold maxDist
    have hall : ∀ d ∈ ((List.range (wx.map fun p => p.2.2).rows).flatMap fun m => (List.range (wx.map fun p => p.2.2).cols).flatMap fun i => (List.range (wx.map fun p => p.2.2).cols).map fun j =>
        pdist ((wx.map fun p => p.2.2).get m j) ((wx.map fun p => p.2.2).get m i)), d = (0 : ℝ) := by
      intro d hd
      simp only [List.mem_flatMap, List.mem_map] at hd
      obtain ⟨m, -, i, -, j, -, rfl⟩ := hd
      show pdist (wx.get m j).2.2 (wx.get m i).2.2 = 0
      rw [h, h]
      simp [pdist, euclid]
    generalize ((List.range (wx.map fun p => p.2.2).rows).flatMap fun m => (List.range (wx.map fun p => p.2.2).cols).flatMap fun i => (List.range (wx.map fun p => p.2.2).cols).map fun j =>
        pdist ((wx.map fun p => p.2.2).get m j) ((wx.map fun p => p.2.2).get m i)) = L at hall
    induction L with
    | nil => rfl
    | cons d L ih =>
      rw [List.foldl_cons, hall d (by simp), max_self]
      exact ih fun d' hd' => hall d' (by simp [hd'])
  have hn : Kernel.taz.negLogInf (maxDist (wx.map fun p => p.2.2)) v v = .nan := by
    rw [hm]
    simp [Kernel.negLogInf, divFin]
  exact ⟨hm, hn, by rw [hn]; rfl⟩

end kernels

namespace Example

/-- The mean of the particles for every particle. -/
def polMean (l : List (ℚ × Flt ℚ × ℚ)) (_ : ℕ) : ℚ := (l.map fun p => p.2.2).sum / l.length

theorem env_consBlind : ConsBlind env where
  noise _ _ _ _ := rfl
  post _ _ _ _ := rfl
  custom _ _ _ _ _ := rfl
  corr _ h := by cases h
  sched _ _ _ _ := rfl

/-- Batches of two out of three particles with `batch_partial=True`, two runs, one of which stops before the other. -/
def polArgs : Args ℚ ℚ := { args [.energyTol (.fin (1 / 10)), .maxIt (some 5)] (some 2) with batchPartial := true, tracks := [.x, .consensus] }

/-- The hypotheses hold, both runs succeed, the consensus of the polarised dynamic has one point per particle of the batch. -/
example : env.cons = .mean (fun l => polMean l 0) ∧ polArgs.batchSize = some 2 ∧ 2 < polArgs.x0.cols ∧ (∀ tm ∈ polArgs.terms, Stateless tm) ∧ PermOK env ∧
    (match init env polArgs with
      | .ok s => (match execAll env (cboInner env) [.select, .step, .sched, .select, .step, .sched, .select, .step] s, execAll { env with cons := .polar polMean } (cboInner { env with cons := .polar polMean }) [.select, .step, .sched, .select, .step, .sched, .select, .step] s with
        | .ok s, .ok u => decide (s.active.length = 1 ∧ u.active = s.active ∧ u.x.get 1 0 = s.x.get 1 0 ∧ s.x.get 1 0 ≠ polArgs.x0.get 1 0 ∧ (s.cons.map fun c => c.cols) = some 1 ∧ (u.cons.map fun c => c.cols) = some 2 ∧ (u.hist .consensus).length = 3)
        | _, _ => false)
      | _ => false) = true := by
  refine ⟨rfl, rfl, by decide, by simp [polArgs, args, Stateless], fun N c m j hj => ?_, by decide +kernel⟩
  simp only [env, if_pos hj]; exact Nat.mod_lt _ (by omega)

end Example

/-- **C105 is false with energy stagnation**: for `CBO` with one run the criterion is evaluated, for the polarised dynamic (one consensus point per particle) it raises. -/
theorem C105_stagnation_false : ∃ (env : Env ℚ ℚ) (r : List (ℚ × Flt ℚ × ℚ) → ℚ) (a : Args ℚ ℚ) (s₀ s : St ℚ ℚ) (e : Err), env.cons = .mean r ∧ ConsBlind env ∧ a.batchSize = none ∧ init env a = .ok s₀ ∧
    execAll env (cboInner env) [.select, .step, .select] s₀ = .ok s ∧ execAll { env with cons := .polar fun l _ => r l } (cboInner { env with cons := .polar fun l _ => r l }) [.select, .step, .select] s₀ = .error e := by
  have key : (match init Example.quietEnv { Example.tieArgs with terms := [.energyStag 2 (.fin 0) none] } with
      | .ok s => (match execAll Example.quietEnv (cboInner Example.quietEnv) [.select, .step, .select] s, execAll { Example.quietEnv with cons := .polar Example.polMean } (cboInner { Example.quietEnv with cons := .polar Example.polMean }) [.select, .step, .select] s with
        | .ok _, .error _ => true
        | _, _ => false)
      | _ => false) = true := by decide +kernel
  split at key
  · next s₀ h1 =>
    split at key
    · next s e h3 h4 =>
      exact ⟨Example.quietEnv, fun l => Example.polMean l 0, _, s₀, s, e, rfl, ⟨fun _ _ _ _ => rfl, fun _ _ _ _ => rfl, fun _ _ _ _ _ => rfl, fun _ h => (by cases h), fun _ _ _ _ => rfl⟩, rfl, h1, h3, h4⟩
    · cases key
  · cases key

end Verif
