import Verif.Spec.Subspace
import Verif.Props.Hull
import Verif.Props.Noise
import Verif.Proofs.Rotation
import Verif.Proofs.Moments
import Mathlib.LinearAlgebra.AffineSpace.FiniteDimensional
import Mathlib.LinearAlgebra.Dual.Lemmas
import Mathlib.Analysis.Convex.Basic

/-! Affine subspaces that an ensemble cannot leave (for C113). -/

set_option linter.unusedSectionVars false

namespace Verif

section
variable {V : Type} [AddCommGroup V] [Module ℝ V]

theorem subspace_step {env : Env ℝ V} {f : V → ℝ} {p : V → V} (hcorr : env.corr = .none) (hcons : env.cons = .mean consDefault)
    (hf : ∀ v, env.f v = .fin (f v)) (hsh : NoiseShape env) {A : AffineSubspace ℝ V} (hz : NoiseIn env A.direction) (hpm : PostMap env p) (hp : PermOK env)
    {s s' : St ℝ V} (hw : WF s) (hb : 1 ≤ s.batchSize) {m : ℕ} (hv : ∀ v ∈ A, p v ∈ A)
    (hx : ∀ n < s.N, s.x.get m n ∈ A) (h : step env (cboInner env) s = .ok s') :
    ∀ n < s.N, s'.x.get m n ∈ A := by
  intro k hk
  obtain ⟨c, d, n, xm, cs⟩ := cboStep_facts hcorr hsh hcons hp hw h
  have fr := step_frame (by rw [cboInner_eq]; exact consThen_frame (cboMove_ok env)) h
  have hix := preStep_idx env hp hw
  have hpost : s'.x.get m k = p (xm.get m k) := by
    obtain ⟨q, hq1, hq2⟩ := cs.post
    rw [hpm q, hq1] at hq2
    injection hq2 with hq2
    rw [← hq2]; rfl
  rw [hpost]
  refine hv _ ?_
  by_cases hsel : s'.pIdx.Sel m k
  · obtain ⟨i, hi, j, hj, e1, e2, e3⟩ := cs.sel m k hsel
    have hmi : s.active.getD i 0 = m := by
      rw [← e1, fr.pIdx, hix.pRun i hi]
    have hcv : c.get i 0 ∈ A := by
      rw [cs.cget i hi]
      have hl : sampleOf env { s with cIdx := s'.cIdx } i =
          finSample (s.alpha m) ((List.range s'.cIdx.cols).map fun j =>
            (f (s.x.get (s'.cIdx.run i) (s'.cIdx.par i j)), s.x.get (s'.cIdx.run i) (s'.cIdx.par i j))) := by
        simp only [sampleOf, finSample, List.map_map, hmi]
        apply List.map_congr_left
        intro j _
        simp only [Function.comp_apply, hf]
      rw [hl]
      exact C20_convex (s.alpha m) ((List.range s'.cIdx.cols).map fun j =>
            (f (s.x.get (s'.cIdx.run i) (s'.cIdx.par i j)), s.x.get (s'.cIdx.run i) (s'.cIdx.par i j)))
        (by
          intro h0
          have := congrArg List.length h0
          simp only [List.length_map, List.length_range, List.length_nil] at this
          rw [fr.cIdx, hix.cCols] at this
          omega) (A : Set V) A.convex (by
          intro q hq
          simp only [List.mem_map, List.mem_range] at hq
          obtain ⟨j, hj, rfl⟩ := hq
          simp only
          have hin := hix.cIn i (by rw [hix.cRows]; exact hi) j (by rw [← fr.cIdx]; exact hj)
          rw [fr.cIdx, hix.cRun i hi, hmi]
          exact hx _ hin.2)
    have hd0 : ∀ j < d.cols, d.get i j ∈ A.direction := by
      intro j hj
      rw [cs.dc] at hj
      rw [cs.dget i hi j hj]
      have hin := hix.pIn i (by rw [hix.pRows]; exact hi) j (by rw [← fr.pIdx]; exact hj)
      rw [fr.pIdx, hix.pRun i hi, hmi]
      exact AffineSubspace.vsub_mem_direction (hx _ hin.2) hcv
    obtain ⟨q, q1, q2, -⟩ := cs.noise
    have hn0 := hz q d n q2 q1 (by rw [cs.nr, cs.dr]) i (by rw [cs.dr]; exact hi) hd0 j (by rw [cs.dc]; exact hj)
    rw [e3, add_comm, ← vadd_eq_add]
    refine AffineSubspace.vadd_mem_of_mem_direction ?_ (hx k hk)
    exact add_mem (Submodule.smul_mem _ _ (hd0 j (by rw [cs.dc]; exact hj))) (Submodule.smul_mem _ _ hn0)
  · rw [cs.unsel m k hsel]; exact hx k hk

theorem subspace_run {env : Env ℝ V} {f : V → ℝ} {p : V → V} (hcorr : env.corr = .none)
    (hcons : env.cons = .mean consDefault) (hf : ∀ v, env.f v = .fin (f v)) (hsh : NoiseShape env) {A : AffineSubspace ℝ V} (hz : NoiseIn env A.direction)
    (hpm : PostMap env p) (hp : PermOK env) {a : Args ℝ V} (hb : a.batchSize ≠ some 0) {s₀ s s' : St ℝ V}
    {ops ops' : List Op} (h0 : init env a = .ok s₀) (h1 : execAll env (cboInner env) ops s₀ = .ok s) {m : ℕ}
    (hv : ∀ v ∈ A, p v ∈ A) (hx : ∀ n < s.N, s.x.get m n ∈ A) (h2 : execAll env (cboInner env) ops' s = .ok s') :
    ∀ n < s.N, s'.x.get m n ∈ A := by
  rw [cboInner_eq] at h1 h2
  obtain ⟨hw, hbs⟩ := execAll_induct (cboMove_ok env) hpm.ok hp (P := fun s => 1 ≤ s.batchSize)
    (fun o s s' _ hs h => by rw [(exec_bs (consThen_frame (cboMove_ok env)) h).1]; exact hs) ops s₀ s (init_wf hp h0)
    (init_bs hb h0) h1
  obtain ⟨-, -, hN, hx'⟩ := execAll_induct (cboMove_ok env) hpm.ok hp
    (P := fun q => 1 ≤ q.batchSize ∧ q.N = s.N ∧ ∀ n < q.N, q.x.get m n ∈ A)
    (fun o q q' hwq hq h => by
      obtain ⟨e1, -, e3⟩ := exec_bs (consThen_frame (cboMove_ok env)) h
      refine ⟨by rw [e1]; exact hq.1, by rw [e3]; exact hq.2.1, ?_⟩
      rw [e3]
      by_cases ho : o = .step
      · subst ho
        rw [← cboInner_eq] at h
        exact subspace_step hcorr hcons hf hsh hz hpm hp hwq hq.1 hv hq.2.2 h
      · rw [exec_x ho h]; exact hq.2.2) ops' s s' hw ⟨hbs, rfl, hx⟩ h2
  rw [← hN]; exact hx'

end

section
variable {ι : Type} [Fintype ι] [DecidableEq ι]

open Matrix

/-- A linear functional is a scalar product. -/
theorem dual_dot (g : Module.Dual ℝ (ι → ℝ)) (v : ι → ℝ) : g v = (fun i => g (Pi.single i 1)) ⬝ᵥ v := by
  conv_lhs => rw [pi_eq_sum_univ' v]
  simp only [map_sum, map_smul, smul_eq_mul, dotProduct]
  refine Finset.sum_congr rfl fun i _ => ?_
  rw [mul_comm]

/-- A vector is in a subspace if it is orthogonal to everything orthogonal to the subspace. -/
theorem mem_of_orth {W : Submodule ℝ (ι → ℝ)} {v : ι → ℝ} (h : ∀ w : ι → ℝ, (∀ u ∈ W, w ⬝ᵥ u = 0) → w ⬝ᵥ v = 0) : v ∈ W := by
  by_contra hv
  obtain ⟨g, g1, g2⟩ := Submodule.exists_dual_map_eq_bot_of_notMem hv inferInstance
  refine g1 ?_
  rw [dual_dot]
  refine h _ fun u hu => ?_
  rw [← dual_dot]
  have : g u ∈ W.map g := Submodule.mem_map_of_mem hu
  rw [g2] at this
  simpa using this

/-- The square root of a positive combination of outer products of vectors of `W` maps into `W`. -/
theorem matSqrt_range {eigh : Matrix ι ι ℝ → (ι → ℝ) × Matrix ι ι ℝ} (he : EighOK eigh) {W : Submodule ℝ (ι → ℝ)} (l : List (ℝ × (ι → ℝ)))
    (hl : ∀ q ∈ l, 0 ≤ q.1 ∧ q.2 ∈ W) (z : ι → ℝ) : matSqrt eigh (l.map fun q => q.1 • outer q.2).sum *ᵥ z ∈ W := by
  obtain ⟨⟨sy, -⟩, sq⟩ := C52_sqrt eigh he _ (C52_psd l fun q hq => (hl q hq).1)
  set S := matSqrt eigh (l.map fun q => q.1 • outer q.2).sum with hS
  refine mem_of_orth fun w hw => ?_
  have h0 : (l.map fun q => q.1 • outer q.2).sum *ᵥ w = 0 := by
    clear sq sy hS S
    induction l with
    | nil => simp
    | cons q l ih =>
      simp only [List.map_cons, List.sum_cons, add_mulVec]
      rw [ih fun r hr => hl r (List.mem_cons_of_mem _ hr), add_zero, smul_mulVec]
      have : outer q.2 *ᵥ w = (w ⬝ᵥ q.2) • q.2 := by
        funext i
        simp only [mulVec, dotProduct, outer, of_apply, Pi.smul_apply, smul_eq_mul, Finset.sum_mul]
        refine Finset.sum_congr rfl fun j _ => ?_
        ring
      rw [this, hw _ (hl q List.mem_cons_self).2]
      simp
  have h1 : S *ᵥ w = 0 := by
    have e : (S *ᵥ w) ⬝ᵥ (S *ᵥ w) = w ⬝ᵥ ((S * S) *ᵥ w) := by
      rw [← mulVec_mulVec, dotProduct_mulVec w, ← mulVec_transpose, sy]
    rw [sq, h0, dotProduct_zero] at e
    exact dotProduct_self_eq_zero.1 e
  rw [dotProduct_mulVec, ← mulVec_transpose, sy, h1, zero_dotProduct]

theorem covNoise_in {env : Env ℝ (ι → ℝ)} {eigh : Matrix ι ι ℝ → (ι → ℝ) × Matrix ι ι ℝ} (he : EighOK eigh) {b : Bool}
    {smp : ℕ → ℕ → ℕ → ι → ℝ} (h : env.noise = covNoise eigh b smp) (W : Submodule ℝ (ι → ℝ)) : NoiseIn env W := by
  intro s d n hd hn hrows i hi hz j hj
  rw [h] at hn
  obtain ⟨C, e, hC, he1, hn1⟩ := covNoise_ok hd hn
  obtain ⟨co, D, hco, hD, c1, c2, c3⟩ := updateCovariance_ok hd hC
  obtain ⟨D1, D2, D3⟩ := Mat.bin_ok hD
  obtain ⟨e1, e2, e3⟩ := Mat.bin_ok he1
  obtain ⟨n1, n2, n3⟩ := Mat.bin_ok hn1
  simp only [Mat.map] at D1 D2 D3 e1 e2 e3
  have hb1 := Mat.bdim_eq_some D1
  have hb2 := Mat.bdim_eq_some e1
  have hb3 := Mat.bdim_eq_some n1
  have hco0 : ∀ i j, 0 ≤ co.get i j := by
    simp only [covCoeffs, bind_ok, pure_ok] at hco
    obtain ⟨w, -, rfl⟩ := hco
    exact fun i j => coeff_nonneg _ _
  rw [n3, e3, c3]
  refine Submodule.smul_mem _ _ ?_
  set r := Mat.bpos C.rows (Mat.bpos e.rows i) with hr
  have hrow : Mat.bpos d.rows r = i := by
    rw [hr]
    unfold Mat.bpos
    split_ifs <;> omega
  have hsum : (D.row r).sum = (((List.range D.cols).map fun l => (co.get (Mat.bpos co.rows r) (Mat.bpos co.cols l), d.get i (Mat.bpos d.cols l))).map fun q => q.1 • outer q.2).sum := by
    simp only [Mat.row, List.map_map]
    congr 1
    refine List.map_congr_left fun l _ => ?_
    rw [D3, hrow]
    rfl
  rw [hsum]
  refine matSqrt_range he _ (fun q hq => ?_) _
  simp only [List.mem_map, List.mem_range] at hq
  obtain ⟨l, hl, rfl⟩ := hq
  refine ⟨hco0 _ _, hz _ ?_⟩
  have := Mat.bdim_eq_some D2
  unfold Mat.bpos
  split_ifs <;> omega

theorem anisoNoise_in {env : Env ℝ (ι → ℝ)} {smp : ℕ → ℕ → ℕ → ι → ℝ} (h : env.noise = rowNoise anisoRule smp) (k : ι) :
    NoiseIn env (LinearMap.ker (LinearMap.proj k : (ι → ℝ) →ₗ[ℝ] ℝ)) := by
  intro s d n hd hn _ i _ hz j hj
  rw [h] at hn
  simp only [rowNoise, hd] at hn
  injection hn with hn
  subst hn
  have := hz j hj
  simp only [LinearMap.mem_ker, LinearMap.proj_apply] at this ⊢
  simp [anisoRule, this]

end

section
open MeasureTheory ProbabilityTheory Matrix
variable {Ω ι : Type} [MeasurableSpace Ω] {μ : Measure Ω} [IsProbabilityMeasure μ] [Fintype ι] [DecidableEq ι]

/-- A linear combination of independent standard normal numbers, not all coefficients 0, has no atoms. -/
theorem normal_comb {z : Ω → ℕ → ℕ → ι → ℝ} (hz : StdNormalTape μ z) (i j : ℕ) {w : ι → ℝ} (hw : w ≠ 0) (t : ℝ) : μ {ω | w ⬝ᵥ z ω i j = t} = 0 := by
  obtain ⟨k, hk⟩ : ∃ k, w k ≠ 0 := by
    by_contra h
    push Not at h
    exact hw (funext h)
  have hm : ∀ l, AEMeasurable (fun ω => z ω i j l) μ := fun l => (hz.law i j l).aemeasurable
  have hi : iIndepFun (fun l ω => w l * z ω i j l) μ := by
    have h1 : iIndepFun (fun (l : ι) ω => z ω i j l) μ := hz.indep.precomp (g := fun l : ι => (i, j, l)) fun a b e => by simpa using e
    exact h1.comp (fun l x => w l * x) fun l => by fun_prop
  have hm' : ∀ l, AEMeasurable (fun ω => w l * z ω i j l) μ := fun l => (hm l).const_mul _
  let R : Ω → ℝ := ∑ l ∈ Finset.univ.erase k, fun ω => w l * z ω i j l
  have hind : IndepFun R (fun ω => w k * z ω i j k) μ := hi.indepFun_finsetSum_of_notMem₀ hm' (Finset.notMem_erase k _)
  have hR : AEMeasurable R μ := Finset.aemeasurable_sum _ fun l _ => hm' l
  have hat : ∀ u, μ.map (fun ω => w k * z ω i j k) {u} = 0 := by
    intro u
    rw [Measure.map_apply_of_aemeasurable (hm' k) (measurableSet_singleton u)]
    have : (fun ω => w k * z ω i j k) ⁻¹' {u} = (fun ω => z ω i j k) ⁻¹' {u / w k} := by
      ext ω
      simp only [Set.mem_preimage, Set.mem_singleton_iff]
      rw [eq_div_iff hk, mul_comm]
    rw [this, ← Measure.map_apply_of_aemeasurable (hm k) (measurableSet_singleton _), (hz.law i j k).map_eq]
    have := noAtoms_gaussianReal (μ := 0) (v := 1) one_ne_zero
    exact measure_singleton _
  have hms : MeasurableSet {q : ℝ × ℝ | q.1 + q.2 = t} := measurableSet_eq_fun (by fun_prop) (by fun_prop)
  have e : {ω | w ⬝ᵥ z ω i j = t} = (fun ω => (R ω, w k * z ω i j k)) ⁻¹' {q : ℝ × ℝ | q.1 + q.2 = t} := by
    ext ω
    simp only [Set.mem_ofPred_eq, Set.mem_preimage, dotProduct, R, Finset.sum_apply]
    rw [Finset.sum_erase_add _ _ (Finset.mem_univ k)]
  rw [e, ← Measure.map_apply_of_aemeasurable (hR.prodMk (hm' k)) hms, (indepFun_iff_map_prod_eq_prod_map_map hR (hm' k)).1 hind]
  have : IsProbabilityMeasure (μ.map R) := Measure.isProbabilityMeasure_map hR
  have : IsProbabilityMeasure (μ.map fun ω => w k * z ω i j k) := Measure.isProbabilityMeasure_map (hm' k)
  rw [Measure.measure_prod_null hms]
  refine Filter.Eventually.of_forall fun x => ?_
  have : Prod.mk x ⁻¹' {q : ℝ × ℝ | q.1 + q.2 = t} = {t - x} := by
    ext y
    simp only [Set.mem_preimage, Set.mem_ofPred_eq, Set.mem_singleton_iff]
    constructor <;> intro h <;> linarith
  show μ.map (fun ω => w k * z ω i j k) (Prod.mk x ⁻¹' {q : ℝ × ℝ | q.1 + q.2 = t}) = 0
  rw [this]
  exact hat _

theorem normal_leaves {z : Ω → ℕ → ℕ → ι → ℝ} (hz : StdNormalTape μ z) (i j : ℕ) (u : ι → ℝ) {g : ℝ} (hg : g ≠ 0) {A : AffineSubspace ℝ (ι → ℝ)} (hA : A ≠ ⊤) :
    ∀ᵐ ω ∂μ, u + g • z ω i j ∉ A := by
  rcases A.eq_bot_or_nonempty with rfl | ⟨v₀, hv⟩
  · exact Filter.Eventually.of_forall fun ω => AffineSubspace.notMem_bot _ _ _
  have hd : A.direction < ⊤ := by
    rw [lt_top_iff_ne_top]
    intro h
    exact hA ((AffineSubspace.direction_eq_top_iff_of_nonempty ⟨v₀, hv⟩).1 h)
  obtain ⟨φ, φ1, φ2⟩ := Submodule.exists_dual_map_eq_bot_of_lt_top hd inferInstance
  let w : ι → ℝ := fun i => φ (Pi.single i 1)
  have hw : w ≠ 0 := by
    intro h
    refine φ1 (LinearMap.ext fun v => ?_)
    rw [dual_dot]
    show w ⬝ᵥ v = _
    rw [h]
    simp
  have h0 := normal_comb hz i j hw ((w ⬝ᵥ (v₀ - u)) / g)
  rw [ae_iff]
  refine measure_mono_null (fun ω hω => ?_) h0
  simp only [Set.mem_ofPred_eq, not_not] at hω ⊢
  have h1 := AffineSubspace.vsub_mem_direction hω hv
  have h2 : φ (u + g • z ω i j - v₀) ∈ A.direction.map φ := Submodule.mem_map_of_mem h1
  rw [φ2, Submodule.mem_bot, dual_dot] at h2
  change w ⬝ᵥ (u + g • z ω i j - v₀) = 0 at h2
  rw [dotProduct_sub, dotProduct_add, dotProduct_smul, smul_eq_mul] at h2
  rw [eq_div_iff hg, dotProduct_sub]
  linarith

end

end Verif
