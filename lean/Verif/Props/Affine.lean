import Verif.Proofs.AffineLaw
import Verif.Proofs.Cbs
import Verif.Props.Rotation
import Mathlib.Probability.Independence.InfinitePi
import Verif.Proofs.Moments

/-! # C112: CBO with covariance noise commutes with affine maps -/

set_option linter.unusedSectionVars false

namespace Verif

open Matrix MeasureTheory ProbabilityTheory

section
variable {ι : Type} [Fintype ι] [DecidableEq ι]

/-- **C112 (steps).** CBO with covariance noise (`CBS` included), no batches, all runs active, along any sequence of steps `σ 0, σ 1, …`. There are orthogonal matrices `Q k m` such that for every affine image of the dynamic (objective
`f' (A v + b) = f v`, post processing carried along, `A` any matrix) that starts at the image of the ensemble and draws the vectors `Q k m z` where the first one draws `z`, every step succeeds and after every number of steps the
ensemble and the consensus points are the images of those of the first dynamic. A rotated standard normal vector is a standard normal vector, so the dynamic is invariant under affine maps in law (`C112_law`). -/
theorem C112_steps (env : Env ℝ (ι → ℝ)) (f : (ι → ℝ) → ℝ) (p : (ι → ℝ) → ι → ℝ) (eigh : Matrix ι ι ℝ → (ι → ℝ) × Matrix ι ι ℝ) (sampling : Bool) (smp : ℕ → ℕ → ℕ → ι → ℝ)
    (hE : CovCBO env f p eigh sampling smp) (A : Matrix ι ι ℝ) (b : ι → ℝ) (eigh' : Matrix ι ι ℝ → (ι → ℝ) × Matrix ι ι ℝ) (he' : EighOK eigh')
    (a : Args ℝ (ι → ℝ)) (s₀ : St ℝ (ι → ℝ)) (ops : List Op) (σ : ℕ → St ℝ (ι → ℝ)) (h0 : init env a = .ok s₀) (h : execAll env (cboInner env) ops s₀ = .ok (σ 0))
    (hact : (σ 0).active = List.range (σ 0).M) (hbat : (σ 0).batched = false) (hσ : ∀ k, step env (cboInner env) (σ k) = .ok (σ (k + 1))) :
    ∃ Q : ℕ → ℕ → Matrix ι ι ℝ, (∀ k m, (Q k m)ᵀ * Q k m = 1) ∧
      ∀ (env' : Env ℝ (ι → ℝ)) (f' : (ι → ℝ) → ℝ) (p' : (ι → ℝ) → ι → ℝ), CovCBO env' f' p' eigh' sampling (fun k m n => Q k m *ᵥ smp k m n) →
        (∀ v, f' (A *ᵥ v + b) = f v) → (∀ v, p' (A *ᵥ v + b) = A *ᵥ p v + b) →
        ∀ (a' : Args ℝ (ι → ℝ)) (t₀ t : St ℝ (ι → ℝ)) (ops' : List Op), init env' a' = .ok t₀ → execAll env' (cboInner env') ops' t₀ = .ok t →
          t.saveInt ≠ 0 → 0 < t.M → AffMatch A b (σ 0) t →
          ∃ τ : ℕ → St ℝ (ι → ℝ), τ 0 = t ∧ (∀ k, step env' (cboInner env') (τ k) = .ok (τ (k + 1))) ∧
            ∀ k, AffMatch A b (σ k) (τ k) ∧ ∃ c c', (σ (k + 1)).cons = some c ∧ (τ (k + 1)).cons = some c' ∧ ∀ m < (σ 0).M, c'.get m 0 = A *ᵥ c.get m 0 + b := by
  have hpo := hE.post.ok
  have hi : InnerFrame (cboInner env) := by rw [cboInner_eq]; exact consThen_frame (cboMove_ok env)
  have inv : ∀ k, WF (σ k) ∧ (σ k).active = List.range (σ k).M ∧ (σ k).batched = false ∧ (σ k).M = (σ 0).M ∧ (σ k).draws = (σ 0).draws + k := by
    intro k
    induction k with
    | zero => exact ⟨reach_wf hpo hE.perm h0 h, hact, hbat, rfl, rfl⟩
    | succ k ih =>
      obtain ⟨w, i1, i2, i3, i4⟩ := ih
      have fr := step_frame hi (hσ k)
      obtain ⟨c, d, n, xm, cs⟩ := cboStep_facts hE.corr (covNoise_shape hE.noise) hE.cons hE.perm w (hσ k)
      refine ⟨step_wf (cboMove_ok env) hpo hE.perm w (by rw [← cboInner_eq]; exact hσ k), by rw [fr.active, fr.M, i1], by rw [fr.batched, i2], by rw [fr.M, i3], ?_⟩
      rw [cs.draws, i4]
      omega
  have hR := fun k m => affRot_exists hE.eig he' A (fullCov f (σ k) m) (weightedCov_psd _ _ _ _ _)
  choose R R1 R2 using hR
  refine ⟨fun d m => R (d - (σ 0).draws) m, fun d m => R1 _ _, ?_⟩
  intro env' f' p' hE' hff hpp a' t₀ t ops' g0 g hsi hM0 hmatch
  have hi' : InnerFrame (cboInner env') := by rw [cboInner_eq]; exact consThen_frame (cboMove_ok env')
  let Good : ℕ → St ℝ (ι → ℝ) → Prop := fun k q => WF q ∧ AffMatch A b (σ k) q ∧ q.saveInt ≠ 0 ∧ 0 < q.M
  have next : ∀ k q, Good k q → ∃ q', step env' (cboInner env') q = .ok q' ∧ Good (k + 1) q' ∧
      ∃ c c', (σ (k + 1)).cons = some c ∧ q'.cons = some c' ∧ ∀ m < (σ 0).M, c'.get m 0 = A *ᵥ c.get m 0 + b := by
    rintro k q ⟨w, hm, hsi, hM0⟩
    obtain ⟨wk, i1, i2, i3, i4⟩ := inv k
    have qa : q.active = List.range q.M := by rw [hm.active, hm.M, i1]
    have qb : q.batched = false := by rw [hm.batched, i2]
    obtain ⟨q', hq'⟩ := covStep_total hE'.corr hE'.cons hE'.obj hE'.noise hE'.post hE'.perm w qa qb hM0 hsi
    have fr := step_frame hi (hσ k)
    have fr' := step_frame hi' hq'
    obtain ⟨c, d, n, xm, cs⟩ := cboStep_facts hE.corr (covNoise_shape hE.noise) hE.cons hE.perm wk (hσ k)
    obtain ⟨c', d', n', xm', cs'⟩ := cboStep_facts hE'.corr (covNoise_shape hE'.noise) hE'.cons hE'.perm w hq'
    obtain ⟨e1, e2⟩ := affine_step (A := A) (b := b) hE.corr hE.cons hE.obj hE.noise hE.post hE.perm hE'.corr hE'.cons hE'.obj hE'.noise hE'.post hE'.perm hff hpp wk w i1 i2 hm.M hm.N hm.active hm.batched
      (fun m _ => by rw [hm.alpha]) hm.lamda hm.dt hm.sigma hm.x (hσ k) hq' (R k) (fun m _ => R2 k m) (fun m _ n _ => by
        have : (σ 0).draws + k - (σ 0).draws = k := by omega
        simp only [hm.draws, i4, this])
    obtain ⟨⟨cm, cm1, cm2⟩, -⟩ := cov_full hE.corr hE.cons hE.obj hE.noise hE.post hE.perm wk i1 i2 (hσ k)
    obtain ⟨⟨cm', cm1', cm2'⟩, -⟩ := cov_full hE'.corr hE'.cons hE'.obj hE'.noise hE'.post hE'.perm w qa qb hq'
    refine ⟨q', hq', ⟨step_wf (cboMove_ok env') hE'.post.ok hE'.perm w (by rw [← cboInner_eq]; exact hq'), ?_, by rw [fr'.saveInt]; exact hsi, by rw [fr'.M]; exact hM0⟩,
      cm, cm', cm1, cm1', fun m hm' => ?_⟩
    · exact ⟨by rw [fr'.M, fr.M, hm.M], by rw [fr'.N, fr.N, hm.N], by rw [fr'.active, fr.active, hm.active], by rw [fr'.batched, fr.batched, hm.batched], by rw [fr'.alpha, fr.alpha, hm.alpha],
        by rw [fr'.lamda, fr.lamda, hm.lamda], by rw [fr'.dt, fr.dt, hm.dt], by rw [fr'.sigma, fr.sigma, hm.sigma], by rw [cs'.draws, cs.draws, hm.draws], by rw [fr.M, fr.N]; exact e2⟩
    · rw [cm2 m (by omega), cm2' m (by rw [hm.M]; omega), e1 m (by omega)]
      rfl
  choose! F F1 F2 F3 using next
  let τ : ℕ → St ℝ (ι → ℝ) := fun k => Nat.rec t (fun k q => F k q) k
  have hτ : ∀ k, Good k (τ k) := by
    intro k
    induction k with
    | zero => exact ⟨reach_wf hE'.post.ok hE'.perm g0 g, hmatch, hsi, hM0⟩
    | succ k ih => exact F2 k _ ih
  exact ⟨τ, rfl, fun k => F1 k _ (hτ k), fun k => ⟨(hτ k).2.1, F3 k _ (hτ k)⟩⟩

/-- **C112 (law of a step).** The same with independent standard normal vectors for both dynamics, in law: from a state and its image, every event about the image of the new ensemble of the first dynamic has the probability of the same
event about the new ensemble of the second; the consensus points are images of each other. For whole trajectories see `C112_trajectories`. -/
theorem C112_law (env env' : (ℕ → ℕ → ℕ → ι → ℝ) → Env ℝ (ι → ℝ)) (f f' : (ι → ℝ) → ℝ) (p p' : (ι → ℝ) → ι → ℝ) (eigh eigh' : Matrix ι ι ℝ → (ι → ℝ) × Matrix ι ι ℝ) (sampling : Bool)
    (hE : ∀ smp, CovCBO (env smp) f p eigh sampling smp) (hE' : ∀ smp, CovCBO (env' smp) f' p' eigh' sampling smp)
    (A : Matrix ι ι ℝ) (b : ι → ℝ) (hff : ∀ v, f' (A *ᵥ v + b) = f v) (hpp : ∀ v, p' (A *ᵥ v + b) = A *ᵥ p v + b)
    (a a' : Args ℝ (ι → ℝ)) (s₀ s t₀ t : St ℝ (ι → ℝ)) (ops ops' : List Op) (smp₀ smp₁ : ℕ → ℕ → ℕ → ι → ℝ)
    (h0 : init (env smp₀) a = .ok s₀)
    (h : execAll (env smp₀) (cboInner (env smp₀)) ops s₀ = .ok s)
    (g0 : init (env' smp₁) a' = .ok t₀)
    (g : execAll (env' smp₁) (cboInner (env' smp₁)) ops' t₀ = .ok t)
    (hact : s.active = List.range s.M) (hbat : s.batched = false) (hm : AffMatch A b s t) (s' t' : (ℕ × ℕ × ℕ → ι → ℝ) → St ℝ (ι → ℝ))
    (hs : ∀ z, step (env fun k i j => z (k, i, j)) (cboInner (env fun k i j => z (k, i, j))) s = .ok (s' z))
    (ht : ∀ z, step (env' fun k i j => z (k, i, j)) (cboInner (env' fun k i j => z (k, i, j))) t = .ok (t' z)) :
    (∃ c c' : ℕ → ι → ℝ, (∀ z, ∃ cm, (s' z).cons = some cm ∧ ∀ m < s.M, cm.get m 0 = c m) ∧ (∀ z, ∃ cm, (t' z).cons = some cm ∧ ∀ m < s.M, cm.get m 0 = c' m) ∧ ∀ m < s.M, c' m = A *ᵥ c m + b) ∧
    ∀ S : Set (Fin s.M → Fin s.N → ι → ℝ), normalLaw ι {z | (fun (m : Fin s.M) (n : Fin s.N) => A *ᵥ (s' z).x.get m n + b) ∈ S} = normalLaw ι {z | (fun (m : Fin s.M) (n : Fin s.N) => (t' z).x.get m n) ∈ S} := by
  have hw := reach_wf (hE smp₀).post.ok (hE smp₀).perm h0 h
  have hw' := reach_wf (hE' smp₁).post.ok (hE' smp₁).perm g0 g
  have hta : t.active = List.range t.M := by rw [hm.active, hm.M, hact]
  have htb : t.batched = false := by rw [hm.batched, hbat]
  choose R R1 R2 using fun m => affRot_exists (hE smp₀).eig (hE' smp₁).eig A (fullCov f s m) (weightedCov_psd _ _ _ _ _)
  have key : ∀ z : ℕ × ℕ × ℕ → ι → ℝ, (∀ m < s.M, fullCons f' t m = affMap A b (fullCons f s m)) ∧
      ∀ m < s.M, ∀ n < s.N, (t' fun q => R q.2.1 *ᵥ z q).x.get m n = affMap A b ((s' z).x.get m n) := by
    intro z
    have e1 := hs z
    have e2 := ht fun q => R q.2.1 *ᵥ z q
    have k1 := hE fun k i j => z (k, i, j)
    have k2 := hE' fun k i j => R i *ᵥ z (k, i, j)
    exact affine_match k1 k2 hff hpp hw hw' hact hbat hm e1 e2 R (fun m _ => R2 m) (fun m _ n _ => by simp only [hm.draws])
  refine ⟨⟨fullCons f s, fullCons f' t, fun z => ?_, fun z => ?_, ?_⟩, fun S => ?_⟩
  · have e := hE fun k i j => z (k, i, j)
    exact (cov_full e.corr e.cons e.obj e.noise e.post e.perm hw hact hbat (hs z)).1
  · have e := hE' fun k i j => z (k, i, j)
    have := (cov_full e.corr e.cons e.obj e.noise e.post e.perm hw' hta htb (ht z)).1
    rwa [hm.M] at this
  · exact (key fun _ => 0).1
  · refine Eq.trans ?_ (normalLaw_rots (Q := fun q => R q.2.1) (fun q => R1 _) _)
    congr 1
    ext z
    have e : (fun (m : Fin s.M) (n : Fin s.N) => A *ᵥ (s' z).x.get m n + b) = fun (m : Fin s.M) (n : Fin s.N) => (t' fun q => R q.2.1 *ᵥ z q).x.get m n := by
      funext m n
      exact ((key z).2 m m.2 n n.2).symm
    simp only [Set.mem_setOf_eq, e]

/-- **C112 (law of the trajectories).** Both dynamics draw independent standard normal vectors, each its own. Start the first at a state, the second at its image (objective and post processing measurable and carried along): the
sequence of the images of the ensembles of the first has the law of the sequence of the ensembles of the second. -/
theorem C112_trajectories (env env' : (ℕ → ℕ → ℕ → ι → ℝ) → Env ℝ (ι → ℝ)) (f f' : (ι → ℝ) → ℝ) (p p' : (ι → ℝ) → ι → ℝ) (eigh eigh' : Matrix ι ι ℝ → (ι → ℝ) × Matrix ι ι ℝ) (sampling : Bool)
    (hE : ∀ smp, CovCBO (env smp) f p eigh sampling smp) (hE' : ∀ smp, CovCBO (env' smp) f' p' eigh' sampling smp)
    (A : Matrix ι ι ℝ) (b : ι → ℝ) (hff : ∀ v, f' (A *ᵥ v + b) = f v) (hpp : ∀ v, p' (A *ᵥ v + b) = A *ᵥ p v + b) (hf' : Measurable f') (hp : Measurable p) (hp' : Measurable p')
    (a a' : Args ℝ (ι → ℝ)) (s₀ s t₀ t : St ℝ (ι → ℝ)) (ops ops' : List Op) (smp₀ smp₁ : ℕ → ℕ → ℕ → ι → ℝ)
    (h0 : init (env smp₀) a = .ok s₀) (h : execAll (env smp₀) (cboInner (env smp₀)) ops s₀ = .ok s)
    (g0 : init (env' smp₁) a' = .ok t₀) (g : execAll (env' smp₁) (cboInner (env' smp₁)) ops' t₀ = .ok t)
    (hact : s.active = List.range s.M) (hbat : s.batched = false) (hm : AffMatch A b s t)
    (Ω Ω' : Type) [MeasurableSpace Ω] [MeasurableSpace Ω'] (P : Measure Ω) (P' : Measure Ω') [IsProbabilityMeasure P] [IsProbabilityMeasure P']
    (Z : ℕ → Ω → ℕ × ℕ → ι → ℝ) (hZ : IidDraws P Z) (Z' : ℕ → Ω' → ℕ × ℕ → ι → ℝ) (hZ' : IidDraws P' Z')
    (σ : Ω → ℕ → St ℝ (ι → ℝ)) (hσ0 : ∀ ω, σ ω 0 = s)
    (hσ : ∀ ω k, step (env fun k i j => Z k ω (i, j)) (cboInner (env fun k i j => Z k ω (i, j))) (σ ω k) = .ok (σ ω (k + 1)))
    (τ : Ω' → ℕ → St ℝ (ι → ℝ)) (hτ0 : ∀ ω, τ ω 0 = t)
    (hτ : ∀ ω k, step (env' fun k i j => Z' k ω (i, j)) (cboInner (env' fun k i j => Z' k ω (i, j))) (τ ω k) = .ok (τ ω (k + 1)))
    (S : Set (ℕ → Fin s.M → Fin s.N → ι → ℝ)) (hS : MeasurableSet S) :
    P {ω | (fun k (m : Fin s.M) (n : Fin s.N) => A *ᵥ (σ ω k).x.get m n + b) ∈ S} = P' {ω | (fun k (m : Fin s.M) (n : Fin s.N) => (τ ω k).x.get m n) ∈ S} := by
  have hw := reach_wf (hE smp₀).post.ok (hE smp₀).perm h0 h
  have hw' := reach_wf (hE' smp₁).post.ok (hE' smp₁).perm g0 g
  have hT : Measurable fun v : ι → ℝ => A *ᵥ v + b := ((Continuous.matrix_mulVec continuous_const continuous_id).add continuous_const).measurable
  have hf : Measurable f := by
    have : f = f' ∘ fun v => A *ᵥ v + b := by funext v; exact (hff v).symm
    rw [this]
    exact hf'.comp hT
  set Ψ := ensNext f p eigh sampling s.alpha s.lamda s.dt s.sigma s.N with hΨ
  set Ψ' := ensNext f' p' eigh' sampling s.alpha s.lamda s.dt s.sigma s.N with hΨ'
  let G : (ℕ → ℕ → ι → ℝ) → ℕ → ℕ → ι → ℝ := fun y m n => affMap A b (y m n)
  have hG : Measurable G := measurable_pi_lambda _ fun m => measurable_pi_lambda _ fun n => hT.comp ((measurable_pi_apply n).comp (measurable_pi_apply m))
  have hinj : Function.Injective fun j : ℕ => s.draws + j := fun i j h => by simpa using h
  have mΨ := ensNext_measurable hf hp (hE smp₀).eig sampling s.alpha s.lamda s.dt s.sigma s.N
  have mΨ' := ensNext_measurable hf' hp' (hE' smp₁).eig sampling s.alpha s.lamda s.dt s.sigma s.N
  have key := traj_law (P := P) (P' := P') mΨ mΨ' hG s.x.get (Z := fun j => Z (s.draws + j)) (fun j => hZ.meas _) (hZ.indep.precomp hinj)
    (Z' := fun j => Z' (s.draws + j)) (fun j => hZ'.meas _) (hZ'.indep.precomp hinj) (μ := stepLaw ι) (fun j => hZ.law _) (fun j => hZ'.law _)
    (fun y S hS => ensNext_law (hE smp₀).eig (hE' smp₁).eig hf' hp' hff hpp sampling s.alpha s.lamda s.dt s.sigma hw.pos y S hS)
  let R : (ℕ → ℕ → ℕ → ι → ℝ) → ℕ → Fin s.M → Fin s.N → ι → ℝ := fun u k m n => u k m n
  have hR : Measurable R := measurable_pi_lambda _ fun k => measurable_pi_lambda _ fun m => measurable_pi_lambda _ fun n =>
    (measurable_pi_apply (n : ℕ)).comp ((measurable_pi_apply (m : ℕ)).comp (measurable_pi_apply k))
  have m1 : Measurable fun ω k => G (recur (fun _ => Ψ) s.x.get (fun j => Z (s.draws + j) ω) k) :=
    measurable_pi_lambda _ fun k => hG.comp ((recur_measurable (fun _ => mΨ) _ k).comp (measurable_pi_lambda _ fun j => hZ.meas _))
  have m2 : Measurable fun ω k => recur (fun _ => Ψ') (G s.x.get) (fun j => Z' (s.draws + j) ω) k :=
    measurable_pi_lambda _ fun k => (recur_measurable (fun _ => mΨ') _ k).comp (measurable_pi_lambda _ fun j => hZ'.meas _)
  have e1 : ∀ ω, (fun k (m : Fin s.M) (n : Fin s.N) => A *ᵥ (σ ω k).x.get m n + b) = R fun k => G (recur (fun _ => Ψ) s.x.get (fun j => Z (s.draws + j) ω) k) := by
    intro ω
    funext k m n
    have := cov_recur (z := fun k => Z k ω) (hE _) (σ := σ ω) (by rw [hσ0]; exact hw) (by rw [hσ0]; exact hact) (by rw [hσ0]; exact hbat) (hσ ω) k m (by rw [hσ0]; exact m.2) n (by rw [hσ0]; exact n.2)
    rw [this, hσ0]
    rfl
  have e2 : ∀ ω, (fun k (m : Fin s.M) (n : Fin s.N) => (τ ω k).x.get m n) = R fun k => recur (fun _ => Ψ') (G s.x.get) (fun j => Z' (s.draws + j) ω) k := by
    intro ω
    funext k m n
    have := cov_recur (z := fun k => Z' k ω) (hE' _) (σ := τ ω) (by rw [hτ0]; exact hw') (by rw [hτ0, hm.active, hm.M]; exact hact) (by rw [hτ0, hm.batched]; exact hbat) (hτ ω) k m
      (by rw [hτ0, hm.M]; exact m.2) n (by rw [hτ0, hm.N]; exact n.2)
    rw [this, hτ0, hm.alpha, hm.lamda, hm.dt, hm.sigma, hm.N, hm.draws]
    exact ens_recur_congr f' p' eigh' sampling _ _ _ _ (fun m hm' n hn => hm.x m hm' n hn) _ k m m.2 n n.2
  have k2 : (P.map fun ω k => G (recur (fun _ => Ψ) s.x.get (fun j => Z (s.draws + j) ω) k)) (R ⁻¹' S) = (P'.map fun ω k => recur (fun _ => Ψ') (G s.x.get) (fun j => Z' (s.draws + j) ω) k) (R ⁻¹' S) :=
    congrArg (fun ν => ν (R ⁻¹' S)) key
  rw [Measure.map_apply m1 (hR hS), Measure.map_apply m2 (hR hS)] at k2
  simp only [e1, e2]
  exact k2

end

namespace Example

/-- A shear of the plane with different scales. -/
noncomputable def shear : Matrix (Fin 2) (Fin 2) ℝ := !![3, 1; 0, 1 / 2]

/-- The objective `x₀² + x₁²` carried along by `shear`: `(w₀ - 2 w₁)²/9 + 4 w₁²` around `b`. -/
noncomputable def shearObj (b w : Fin 2 → ℝ) : ℝ := (((w 0 - b 0) - 2 * (w 1 - b 1)) / 3) ^ 2 + (2 * (w 1 - b 1)) ^ 2

theorem shearObj_eq (b v : Fin 2 → ℝ) : shearObj b (shear *ᵥ v + b) = v 0 ^ 2 + v 1 ^ 2 := by
  simp [shearObj, shear, dotProduct, Fin.sum_univ_two]

noncomputable def shearEnv (noise : St ℝ (Fin 2 → ℝ) → Except Err (Mat (Fin 2 → ℝ))) (b : Fin 2 → ℝ) : Env ℝ (Fin 2 → ℝ) := { realEnv noise with f := fun w => .fin (shearObj b w), post := fun s => .ok s.x }

noncomputable def ellEnv (noise : St ℝ (Fin 2 → ℝ) → Except Err (Mat (Fin 2 → ℝ))) : Env ℝ (Fin 2 → ℝ) := { realEnv noise with post := fun s => .ok s.x }

theorem plane_cov (eigh : Matrix (Fin 2) (Fin 2) ℝ → (Fin 2 → ℝ) × Matrix (Fin 2) (Fin 2) ℝ) (he : EighOK eigh) (sampling : Bool) (smp : ℕ → ℕ → ℕ → Fin 2 → ℝ) :
    CovCBO (ellEnv (covNoise eigh sampling smp)) (fun v => v 0 ^ 2 + v 1 ^ 2) id eigh sampling smp :=
  ⟨rfl, rfl, fun _ => rfl, he, rfl, fun _ => rfl, perm_ok (covNoise eigh sampling smp)⟩

theorem shear_cov (b : Fin 2 → ℝ) (eigh : Matrix (Fin 2) (Fin 2) ℝ → (Fin 2 → ℝ) × Matrix (Fin 2) (Fin 2) ℝ) (he : EighOK eigh) (sampling : Bool) (smp : ℕ → ℕ → ℕ → Fin 2 → ℝ) :
    CovCBO (shearEnv (covNoise eigh sampling smp) b) (shearObj b) id eigh sampling smp :=
  ⟨rfl, rfl, fun _ => rfl, he, rfl, fun _ => rfl, perm_ok (covNoise eigh sampling smp)⟩

/-- Four particles on the plane in two runs, and their image. -/
noncomputable def ellArgs : Args ℝ (Fin 2 → ℝ) := realArgs (fun m n => ![n + m, 2 - n]) 3 none

noncomputable def shearArgs (b : Fin 2 → ℝ) : Args ℝ (Fin 2 → ℝ) := { ellArgs with x0 := ellArgs.x0.map fun v => shear *ᵥ v + b }

theorem affine_start (b : Fin 2 → ℝ) (noise noise') : ∃ s t, init (ellEnv noise) ellArgs = .ok s ∧ init (shearEnv noise' b) (shearArgs b) = .ok t ∧ AffMatch shear b s t ∧ s.active = List.range s.M ∧
    s.batched = false ∧ s.saveInt ≠ 0 ∧ t.saveInt ≠ 0 ∧ s.M = 2 ∧ s.N = 4 := by
  have h1 : ∃ s, init (ellEnv noise) ellArgs = .ok s ∧ s.M = 2 ∧ s.N = 4 ∧ s.active = [0, 1] ∧ s.batched = false ∧ s.alpha = (fun _ => ellArgs.alpha) ∧ s.lamda = ellArgs.lamda ∧ s.dt = ellArgs.dt ∧
      s.sigma = ellArgs.sigma ∧ s.draws = 1 ∧ s.x = ellArgs.x0 ∧ s.saveInt ≠ 0 := by
    unfold init
    rw [if_neg (by simp [ellArgs, realArgs])]
    exact ⟨_, rfl, rfl, rfl, rfl, rfl, rfl, rfl, rfl, rfl, rfl, rfl, show (2 : ℕ) ≠ 0 by omega⟩
  have h2 : ∃ s, init (shearEnv noise' b) (shearArgs b) = .ok s ∧ s.M = 2 ∧ s.N = 4 ∧ s.active = [0, 1] ∧ s.batched = false ∧ s.alpha = (fun _ => ellArgs.alpha) ∧ s.lamda = ellArgs.lamda ∧ s.dt = ellArgs.dt ∧
      s.sigma = ellArgs.sigma ∧ s.draws = 1 ∧ s.x = (shearArgs b).x0 ∧ s.saveInt ≠ 0 := by
    unfold init
    rw [if_neg (by simp [shearArgs, ellArgs, realArgs, Mat.map])]
    exact ⟨_, rfl, rfl, rfl, rfl, rfl, rfl, rfl, rfl, rfl, rfl, rfl, show (2 : ℕ) ≠ 0 by omega⟩
  obtain ⟨s, s0, s1, s2, s3, s4, s5, s6, s7, s8, s9, s10, s11⟩ := h1
  obtain ⟨t, t0, t1, t2, t3, t4, t5, t6, t7, t8, t9, t10, t11⟩ := h2
  refine ⟨s, t, s0, t0, ⟨?_, ?_, ?_, ?_, ?_, ?_, ?_, ?_, ?_, fun m _ n _ => ?_⟩, by rw [s3, s1]; rfl, s4, s11, t11, s1, s2⟩
  · rw [t1, s1]
  · rw [t2, s2]
  · rw [t3, s3]
  · rw [t4, s4]
  · rw [t5, s5]
  · rw [t6, s6]
  · rw [t7, s7]
  · rw [t8, s8]
  · rw [t9, s9]
  · rw [t10, s10]
    rfl

/-- A sequence of steps exists. -/
theorem cov_path {ι : Type} [Fintype ι] [DecidableEq ι] {env : Env ℝ (ι → ℝ)} {f : (ι → ℝ) → ℝ} {p : (ι → ℝ) → ι → ℝ} {eigh : Matrix ι ι ℝ → (ι → ℝ) × Matrix ι ι ℝ} {sampling : Bool} {smp : ℕ → ℕ → ℕ → ι → ℝ}
    (hE : CovCBO env f p eigh sampling smp) {s : St ℝ (ι → ℝ)} (hw : WF s) (hact : s.active = List.range s.M) (hbat : s.batched = false) (hM : 0 < s.M) (hsi : s.saveInt ≠ 0) :
    ∃ σ : ℕ → St ℝ (ι → ℝ), σ 0 = s ∧ ∀ k, step env (cboInner env) (σ k) = .ok (σ (k + 1)) := by
  have hi : InnerFrame (cboInner env) := by rw [cboInner_eq]; exact consThen_frame (cboMove_ok env)
  let Good : St ℝ (ι → ℝ) → Prop := fun q => WF q ∧ q.active = List.range q.M ∧ q.batched = false ∧ 0 < q.M ∧ q.saveInt ≠ 0
  have next : ∀ q, Good q → ∃ q', step env (cboInner env) q = .ok q' ∧ Good q' := by
    rintro q ⟨w, a1, a2, a3, a4⟩
    obtain ⟨q', hq'⟩ := covStep_total hE.corr hE.cons hE.obj hE.noise hE.post hE.perm w a1 a2 a3 a4
    have fr := step_frame hi hq'
    exact ⟨q', hq', step_wf (cboMove_ok env) hE.post.ok hE.perm w (by rw [← cboInner_eq]; exact hq'), by rw [fr.active, fr.M, a1], by rw [fr.batched, a2], by rw [fr.M]; exact a3, by rw [fr.saveInt]; exact a4⟩
  choose! F F1 F2 using next
  let σ : ℕ → St ℝ (ι → ℝ) := fun k => Nat.rec s (fun _ q => F q) k
  have hσ : ∀ k, Good (σ k) := by
    intro k
    induction k with
    | zero => exact ⟨hw, hact, hbat, hM, hsi⟩
    | succ k ih => exact F2 _ ih
  exact ⟨σ, rfl, fun k => F1 _ (hσ k)⟩

end Example

/-- C112, steps: two runs of four particles on the plane in the mode 'sampling', sheared and moved: there are orthogonal matrices for which the sheared dynamic, started at the sheared ensemble, stays the image of the first. -/
example (b : Fin 2 → ℝ) (sampling : Bool) : ∃ eigh : Matrix (Fin 2) (Fin 2) ℝ → (Fin 2 → ℝ) × Matrix (Fin 2) (Fin 2) ℝ, EighOK eigh ∧
    ∃ (Q : ℕ → ℕ → Matrix (Fin 2) (Fin 2) ℝ) (σ τ : ℕ → St ℝ (Fin 2 → ℝ)), (∀ k m, (Q k m)ᵀ * Q k m = 1) ∧
      let env := Example.ellEnv (covNoise eigh sampling Example.smp)
      let env' := Example.shearEnv (covNoise eigh sampling fun k m n => Q k m *ᵥ Example.smp k m n) b
      init env Example.ellArgs = .ok (σ 0) ∧ init env' (Example.shearArgs b) = .ok (τ 0) ∧ (∀ k, step env (cboInner env) (σ k) = .ok (σ (k + 1))) ∧
      (∀ k, step env' (cboInner env') (τ k) = .ok (τ (k + 1))) ∧ ∀ k, ∀ m < 2, ∀ n < 4, (τ k).x.get m n = Example.shear *ᵥ (σ k).x.get m n + b := by
  obtain ⟨eigh, he⟩ := eigh_exists (ι := Fin 2)
  refine ⟨eigh, he, ?_⟩
  have hE := Example.plane_cov eigh he sampling Example.smp
  obtain ⟨s, -, s0, -, -, s1, s2, s3, -, s4, s5⟩ := Example.affine_start b (covNoise eigh sampling Example.smp) (covNoise eigh sampling Example.smp)
  obtain ⟨σ, σ0, hσ⟩ := Example.cov_path hE (init_wf hE.perm s0) s1 s2 (by omega) s3
  obtain ⟨Q, hQ, key⟩ := C112_steps _ _ _ eigh sampling Example.smp hE Example.shear b eigh he Example.ellArgs s [] σ s0 (by rw [σ0]; rfl) (by rw [σ0]; exact s1) (by rw [σ0]; exact s2) hσ
  obtain ⟨s', t, s0', t0, hm, -, -, -, t3, -⟩ := Example.affine_start b (covNoise eigh sampling Example.smp) (covNoise eigh sampling fun k m n => Q k m *ᵥ Example.smp k m n)
  have ess : s' = s := by
    rw [s0] at s0'
    injection s0' with h
    exact h.symm
  subst ess
  obtain ⟨τ, τ0, hτ, hk⟩ := key _ _ _ (Example.shear_cov b eigh he sampling _) (Example.shearObj_eq b) (fun _ => rfl) (Example.shearArgs b) t t [] t0 rfl t3 (by rw [hm.M]; omega) (by rw [σ0]; exact hm)
  have hMN : ∀ k, (σ k).M = 2 ∧ (σ k).N = 4 := by
    intro k
    induction k with
    | zero => rw [σ0]; exact ⟨s4, s5⟩
    | succ k ih =>
      have fr := step_frame (by rw [cboInner_eq]; exact consThen_frame (cboMove_ok _)) (hσ k)
      rw [fr.M, fr.N]
      exact ih
  exact ⟨Q, σ, τ, hQ, by rw [σ0]; exact s0, by rw [τ0]; exact t0, hσ, hτ, fun k m hm n hn => (hk k).1.x m (by rw [(hMN k).1]; exact hm) n (by rw [(hMN k).2]; exact hn)⟩

/-- Independent draws of standard normal vectors exist. -/
theorem iidDraws_exists (ι : Type) [Fintype ι] [DecidableEq ι] : ∃ P : Measure (ℕ → ℕ × ℕ → ι → ℝ), IsProbabilityMeasure P ∧ IidDraws P fun k ω => ω k := by
  refine ⟨Measure.infinitePi fun _ : ℕ => stepLaw ι, inferInstance, fun k => measurable_pi_apply k, fun k => Measure.infinitePi_map_eval (fun _ : ℕ => stepLaw ι) k, ?_⟩
  exact iIndepFun_infinitePi (P := fun _ : ℕ => stepLaw ι) (X := fun _ ω => ω) fun _ => measurable_id

/-- C112, law: the trajectories of the two runs on the plane and of the sheared ensemble. All hypotheses are met; here for the event that the first particle of the first run ever reaches a given disc. -/
example (b c : Fin 2 → ℝ) (r : ℝ) : ∃ (eigh : Matrix (Fin 2) (Fin 2) ℝ → (Fin 2 → ℝ) × Matrix (Fin 2) (Fin 2) ℝ) (P : Measure (ℕ → ℕ × ℕ → Fin 2 → ℝ)) (σ τ : (ℕ → ℕ × ℕ → Fin 2 → ℝ) → ℕ → St ℝ (Fin 2 → ℝ)),
    IsProbabilityMeasure P ∧
    (let env := fun ω : ℕ → ℕ × ℕ → Fin 2 → ℝ => Example.ellEnv (covNoise eigh true fun k i j => ω k (i, j))
     let env' := fun ω : ℕ → ℕ × ℕ → Fin 2 → ℝ => Example.shearEnv (covNoise eigh true fun k i j => ω k (i, j)) b
     ∀ ω, init (env ω) Example.ellArgs = .ok (σ ω 0) ∧ (∀ k, step (env ω) (cboInner (env ω)) (σ ω k) = .ok (σ ω (k + 1))) ∧
       init (env' ω) (Example.shearArgs b) = .ok (τ ω 0) ∧ ∀ k, step (env' ω) (cboInner (env' ω)) (τ ω k) = .ok (τ ω (k + 1))) ∧
    P {ω | ∃ k, dist (Example.shear *ᵥ (σ ω k).x.get 0 0 + b) c ≤ r} = P {ω | ∃ k, dist ((τ ω k).x.get 0 0) c ≤ r} := by
  obtain ⟨eigh, he⟩ := eigh_exists (ι := Fin 2)
  obtain ⟨P, hP, hZ⟩ := iidDraws_exists (Fin 2)
  obtain ⟨s, t, s0, t0, hm, s1, s2, s3, t3, s4, s5⟩ := Example.affine_start b (covNoise eigh true Example.smp) (covNoise eigh true Example.smp)
  have i1 : ∀ ω : ℕ → ℕ × ℕ → Fin 2 → ℝ, init (Example.ellEnv (covNoise eigh true fun k i j => ω k (i, j))) Example.ellArgs = .ok s := fun ω => s0
  have i2 : ∀ ω : ℕ → ℕ × ℕ → Fin 2 → ℝ, init (Example.shearEnv (covNoise eigh true fun k i j => ω k (i, j)) b) (Example.shearArgs b) = .ok t := fun ω => t0
  have p1 := fun ω : ℕ → ℕ × ℕ → Fin 2 → ℝ => Example.cov_path (Example.plane_cov eigh he true fun k i j => ω k (i, j)) (init_wf (Example.plane_cov eigh he true fun k i j => ω k (i, j)).perm (i1 ω)) s1 s2 (by omega) s3
  have p2 := fun ω : ℕ → ℕ × ℕ → Fin 2 → ℝ => Example.cov_path (Example.shear_cov b eigh he true fun k i j => ω k (i, j)) (init_wf (Example.shear_cov b eigh he true fun k i j => ω k (i, j)).perm (i2 ω))
    (by rw [hm.active, hm.M]; exact s1) (by rw [hm.batched]; exact s2) (by rw [hm.M]; omega) t3
  choose σ σ0 hσ using p1
  choose τ τ0 hτ using p2
  refine ⟨eigh, P, σ, τ, hP, fun ω => ⟨by rw [σ0]; exact i1 ω, hσ ω, by rw [τ0]; exact i2 ω, hτ ω⟩, ?_⟩
  let S : Set (ℕ → Fin s.M → Fin s.N → Fin 2 → ℝ) := {u | ∃ k, dist (u k ⟨0, by omega⟩ ⟨0, by omega⟩) c ≤ r}
  have hS : MeasurableSet S := by
    have : S = ⋃ k, {u | dist (u k ⟨0, by omega⟩ ⟨0, by omega⟩) c ≤ r} := by ext u; simp [S]
    rw [this]
    refine MeasurableSet.iUnion fun k => measurableSet_le ?_ measurable_const
    exact (((measurable_pi_apply _).comp ((measurable_pi_apply _).comp (measurable_pi_apply k)))).dist measurable_const
  exact C112_trajectories (fun smp => Example.ellEnv (covNoise eigh true smp)) (fun smp => Example.shearEnv (covNoise eigh true smp) b) _ _ _ _ eigh eigh true (Example.plane_cov eigh he true) (Example.shear_cov b eigh he true)
    Example.shear b (Example.shearObj_eq b) (fun _ => rfl) (by unfold Example.shearObj; fun_prop) measurable_id measurable_id Example.ellArgs (Example.shearArgs b) s s t t [] [] Example.smp Example.smp s0 rfl t0 rfl s1 s2 hm
    _ _ P P (fun k ω => ω k) hZ (fun k ω => ω k) hZ σ σ0 hσ τ τ0 hτ S hS

/-- C112 fails for isotropic noise: for a drift `d` and the map `diag(2, 1)` no orthogonal transformation of the random vectors turns the noise of the image of the drift into the image of the noise. -/
theorem C112_isotropic_false : ∃ (A : Matrix (Fin 2) (Fin 2) ℝ) (d : Fin 2 → ℝ), ¬ ∃ U : Matrix (Fin 2) (Fin 2) ℝ, Uᵀ * U = 1 ∧ ∀ z, isoRule (A *ᵥ d) (U *ᵥ z) = A *ᵥ isoRule d z := by
  refine ⟨!![2, 0; 0, 1], ![0, 1], ?_⟩
  rintro ⟨U, hU, h⟩
  have e : ∀ d z : Fin 2 → ℝ, isoRule d z = euclid d • z := fun d z => by funext i; simp [isoRule, mul_comm]
  have h1 := h ![1, 0]
  have hd : (!![2, 0; 0, 1] : Matrix (Fin 2) (Fin 2) ℝ) *ᵥ ![0, 1] = ![0, 1] := by
    funext i; fin_cases i <;> simp
  have hn : euclid (![0, 1] : Fin 2 → ℝ) = 1 := by simp [euclid]
  have hz : (!![2, 0; 0, 1] : Matrix (Fin 2) (Fin 2) ℝ) *ᵥ ![1, 0] = ![2, 0] := by
    funext i; fin_cases i <;> simp
  rw [hd, e, e, hn, one_smul, one_smul, hz] at h1
  have h2 := euclid_orth hU (![1, 0] : Fin 2 → ℝ)
  rw [h1] at h2
  simp [euclid] at h2

end Verif
