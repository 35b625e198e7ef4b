import Verif.Proofs.CovStep
import Verif.Proofs.Normal
import Verif.Props.Hull
import Mathlib.Analysis.Matrix.Spectrum

/-! Properties C52 (covariance square root) and C53 (noise models). -/

set_option linter.unusedSectionVars false

namespace Verif

section sqrt
variable {ι : Type} [Fintype ι] [DecidableEq ι]

open Matrix

theorem quad_eq (A : Matrix ι ι ℝ) (x : ι → ℝ) : ∑ i, ∑ j, x i * A i j * x j = x ⬝ᵥ (A *ᵥ x) := by
  simp only [dotProduct, mulVec, Finset.mul_sum, mul_assoc]

theorem quad_conj (Q : Matrix ι ι ℝ) (b x : ι → ℝ) :
    x ⬝ᵥ ((Q * diagonal b * Qᵀ) *ᵥ x) = ∑ i, b i * (Qᵀ *ᵥ x) i ^ 2 := by
  rw [← mulVec_mulVec, ← mulVec_mulVec, dotProduct_mulVec, ← mulVec_transpose]
  simp only [dotProduct, mulVec_diagonal]
  refine Finset.sum_congr rfl fun i _ => ?_
  ring

/-- **C52, square root.** If `eigh` fulfils its contract, `compute_mat_sqrt(A)` is symmetric, positive semidefinite, and squares
to `A`, for every positive semidefinite `A`. -/
theorem C52_sqrt (eigh : Matrix ι ι ℝ → (ι → ℝ) × Matrix ι ι ℝ) (he : EighOK eigh) (A : Matrix ι ι ℝ) (hA : PSD A) :
    PSD (matSqrt eigh A) ∧ matSqrt eigh A * matSqrt eigh A = A := by
  obtain ⟨h1, h2⟩ := he A hA.1
  set Q := (eigh A).2 with hQ
  set B := (eigh A).1 with hB
  have hBnn : ∀ i, 0 ≤ B i := by
    intro i
    have h3 := hA.2 (fun j => Q j i)
    rw [quad_eq] at h3
    rw [h2, quad_conj] at h3
    have h4 : Qᵀ *ᵥ (fun j => Q j i) = Pi.single i 1 := by
      have : (fun j => Q j i) = Q *ᵥ (Pi.single i 1) := by
        funext j; simp
      rw [this, mulVec_mulVec, h1, one_mulVec]
    rw [h4] at h3
    simpa [Pi.single_apply] using h3
  have hS := matSqrt_eq eigh A
  rw [← hQ, ← hB] at hS
  refine ⟨⟨?_, ?_⟩, ?_⟩
  · rw [hS]
    simp [Matrix.mul_assoc]
  · intro x
    rw [quad_eq, hS, quad_conj]
    exact Finset.sum_nonneg fun i _ => mul_nonneg (Real.sqrt_nonneg _) (sq_nonneg _)
  · rw [hS]
    conv_rhs => rw [h2]
    have : (diagonal fun i => Real.sqrt (max (B i) 0)) * (diagonal fun i => Real.sqrt (max (B i) 0)) = diagonal B := by
      rw [diagonal_mul_diagonal]
      congr 1
      funext i
      rw [max_eq_left (hBnn i), Real.mul_self_sqrt (hBnn i)]
    calc Q * (diagonal fun i => Real.sqrt (max (B i) 0)) * Qᵀ * (Q * (diagonal fun i => Real.sqrt (max (B i) 0)) * Qᵀ)
        = Q * (diagonal fun i => Real.sqrt (max (B i) 0)) * (Qᵀ * Q) * (diagonal fun i => Real.sqrt (max (B i) 0)) * Qᵀ := by
          simp only [Matrix.mul_assoc]
      _ = Q * ((diagonal fun i => Real.sqrt (max (B i) 0)) * (diagonal fun i => Real.sqrt (max (B i) 0))) * Qᵀ := by
          rw [h1, Matrix.mul_one]; simp only [Matrix.mul_assoc]
      _ = Q * diagonal B * Qᵀ := by rw [this]

/-- **C52, weighted covariance.** A weighted covariance `sum_j w_j d_j d_jᵀ` with non-negative weights is positive
semidefinite. -/
theorem C52_psd (l : List (ℝ × (ι → ℝ))) (hw : ∀ p ∈ l, 0 ≤ p.1) : PSD ((l.map fun p => p.1 • outer p.2).sum) := by
  induction l with
  | nil => exact ⟨by simp, fun x => by simp⟩
  | cons p l ih =>
    obtain ⟨h1, h2⟩ := ih fun q hq => hw q (List.mem_cons_of_mem _ hq)
    have hp := hw p List.mem_cons_self
    simp only [List.map_cons, List.sum_cons]
    refine ⟨?_, fun x => ?_⟩
    · rw [transpose_add, h1, transpose_smul]
      congr 2
      ext i j
      simp [outer, mul_comm]
    · have h3 := h2 x
      have e : ∀ i j, x i * (p.1 • outer p.2 + (l.map fun p => p.1 • outer p.2).sum) i j * x j =
          p.1 * ((x i * p.2 i) * (x j * p.2 j)) + x i * (l.map fun p => p.1 • outer p.2).sum i j * x j := fun i j => by
        rw [Matrix.add_apply, Matrix.smul_apply]; simp only [outer, Matrix.of_apply, smul_eq_mul]; ring
      simp only [e, Finset.sum_add_distrib, ← Finset.mul_sum, ← Finset.sum_mul]
      exact add_nonneg (mul_nonneg hp (mul_self_nonneg _)) h3

/-- Such an `eigh` exists (the spectral theorem), so the contract is satisfiable. -/
theorem eigh_exists : ∃ eigh : Matrix ι ι ℝ → (ι → ℝ) × Matrix ι ι ℝ, EighOK eigh := by
  classical
  have key : ∀ A : Matrix ι ι ℝ, ∃ r : (ι → ℝ) × Matrix ι ι ℝ, A.transpose = A →
      r.2.transpose * r.2 = 1 ∧ A = r.2 * diagonal r.1 * r.2.transpose := by
    intro A
    by_cases hA : Aᵀ = A
    · have hH : A.IsHermitian := by
        rw [IsHermitian, conjTranspose_eq_transpose_of_trivial]; exact hA
      refine ⟨(hH.eigenvalues, (hH.eigenvectorUnitary : Matrix ι ι ℝ)), fun _ => ⟨?_, ?_⟩⟩
      · have := hH.eigenvectorUnitary.2.1
        rwa [star_eq_conjTranspose, conjTranspose_eq_transpose_of_trivial] at this
      · have := hH.spectral_theorem
        rw [Unitary.conjStarAlgAut_apply] at this
        rw [star_eq_conjTranspose, conjTranspose_eq_transpose_of_trivial] at this
        exact this
    · exact ⟨(0, 0), fun h => absurd h hA⟩
  choose e he using key
  exact ⟨e, he⟩

end sqrt

section step
variable {ι : Type} [Fintype ι]

theorem noise_step {env : Env ℝ (ι → ℝ)} {f : (ι → ℝ) → ℝ} {ν : ℕ → ℝ → ℕ → ℕ → (ι → ℝ) → ι → ℝ} {p : (ι → ℝ) → ι → ℝ}
    (hE : Standard env f ν p) {rule : (ι → ℝ) → (ι → ℝ) → ι → ℝ} {smp : ℕ → ℕ → ℕ → ι → ℝ}
    (hn : env.noise = rowNoise rule smp) {a : Args ℝ (ι → ℝ)} (hb : a.batchSize ≠ some 0) {s₀ s s' : St ℝ (ι → ℝ)}
    {ops : List Op} (h0 : init env a = .ok s₀) (h : execAll env (cboInner env) ops s₀ = .ok s)
    (hs : step env (cboInner env) s = .ok s') {i : ℕ} (hi : i < s.active.length) :
    ∃ (c : ι → ℝ) (j : ℕ → ℕ), (∃ cm, s'.cons = some cm ∧ cm.get i 0 = c) ∧
      (∀ n < s.N, ∀ n' < s.N, s'.pIdx.Sel (s.active.getD i 0) n → s'.pIdx.Sel (s.active.getD i 0) n' → j n = j n' → n = n') ∧
      ∀ n < s.N, s'.pIdx.Sel (s.active.getD i 0) n →
        s'.x.get (s.active.getD i 0) n = p (s.x.get (s.active.getD i 0) n +
          cboUpdate s.lamda s.dt s.sigma (s.x.get (s.active.getD i 0) n - c)
            (Real.sqrt s.dt • rule (s.x.get (s.active.getD i 0) n - c) (smp s.draws i (j n)))) := by
  have hE' : Standard env f (fun c dt i j d => Real.sqrt dt • rule d (smp c i j)) p := { hE with noise := rowNoise_rows hn }
  obtain ⟨hw, hbs⟩ := std_reach hE' hb h0 h
  obtain ⟨i', c, r⟩ := runStep hE' hw hbs hs _ (getD_mem hi)
  have hii : i' = i := getD_inj hw.nodup r.pos hi r.act
  subst hii
  have hm : ∀ n, ∃ j, n < s.N → s'.pIdx.Sel (s.active.getD i' 0) n → s'.pIdx.par i' j = n ∧
      s'.x.get (s.active.getD i' 0) n = p (s.x.get (s.active.getD i' 0) n +
          cboUpdate s.lamda s.dt s.sigma (s.x.get (s.active.getD i' 0) n - c)
            (Real.sqrt s.dt • rule (s.x.get (s.active.getD i' 0) n - c) (smp s.draws i' j))) := by
    intro n
    by_cases hx : n < s.N ∧ s'.pIdx.Sel (s.active.getD i' 0) n
    · obtain ⟨j, h1, h2⟩ := r.moved n hx.1 hx.2
      exact ⟨j, fun _ _ => ⟨h1, h2⟩⟩
    · exact ⟨0, fun h1 h2 => absurd ⟨h1, h2⟩ hx⟩
  choose j hj using hm
  refine ⟨c, j, r.cons, ?_, fun n h1 h2 => (hj n h1 h2).2⟩
  intro n h1 n' h1' h2 h2' e
  rw [← (hj n h1 h2).1, ← (hj n' h1' h2').1, e]

variable (env : Env ℝ (ι → ℝ)) (f : (ι → ℝ) → ℝ) (ν : ℕ → ℝ → ℕ → ℕ → (ι → ℝ) → ι → ℝ) (p : (ι → ℝ) → ι → ℝ)
  (smp : ℕ → ℕ → ℕ → ι → ℝ) (a : Args ℝ (ι → ℝ)) (s₀ s s' : St ℝ (ι → ℝ)) (ops : List Op)

/-- **C53, isotropic noise.** In every CBO step from every reachable state, every selected particle `x` of the `i`-th active run
`m` moves to `p(x - λ·dt·(x - c) + σ·√dt·|x - c|₂·ξ)`, where `c` is the consensus point of that run stored by the step and
`ξ` is the sample vector of the particle's own slot `j n` in row `i` of the array drawn in this step (draw number `s.draws`):
different particles use different slots, different runs different rows. -/
theorem C53_isotropic (hE : Standard env f ν p) (hn : env.noise = rowNoise isoRule smp) (hb : a.batchSize ≠ some 0)
    (h0 : init env a = .ok s₀) (h : execAll env (cboInner env) ops s₀ = .ok s) (hs : step env (cboInner env) s = .ok s')
    (i m : ℕ) (hi : i < s.active.length) (hm : s.active.getD i 0 = m) :
    ∃ (c : ι → ℝ) (j : ℕ → ℕ), (∃ cm, s'.cons = some cm ∧ cm.get i 0 = c) ∧
      (∀ n < s.N, ∀ n' < s.N, s'.pIdx.Sel m n → s'.pIdx.Sel m n' → j n = j n' → n = n') ∧
      ∀ n < s.N, s'.pIdx.Sel m n → s'.x.get m n = p (fun l => s.x.get m n l - s.lamda * s.dt * (s.x.get m n l - c l) +
        s.sigma * (Real.sqrt s.dt * Real.sqrt (∑ k, (s.x.get m n k - c k) ^ 2) * smp s.draws i (j n) l)) := by
  obtain ⟨c, j, h1, h2, h3⟩ := noise_step hE hn hb h0 h hs hi
  rw [hm] at h2 h3
  refine ⟨c, j, h1, h2, fun n hn1 hsel => ?_⟩
  rw [h3 n hn1 hsel]
  congr 1
  funext l
  simp only [cboUpdate, isoRule, euclid, Pi.add_apply, Pi.smul_apply, Pi.sub_apply, smul_eq_mul]
  ring

/-- **C53, anisotropic noise.** The same with noise `√dt·(x - c)_l·ξ_l` in every coordinate `l`. -/
theorem C53_anisotropic (hE : Standard env f ν p) (hn : env.noise = rowNoise anisoRule smp) (hb : a.batchSize ≠ some 0)
    (h0 : init env a = .ok s₀) (h : execAll env (cboInner env) ops s₀ = .ok s) (hs : step env (cboInner env) s = .ok s')
    (i m : ℕ) (hi : i < s.active.length) (hm : s.active.getD i 0 = m) :
    ∃ (c : ι → ℝ) (j : ℕ → ℕ), (∃ cm, s'.cons = some cm ∧ cm.get i 0 = c) ∧
      (∀ n < s.N, ∀ n' < s.N, s'.pIdx.Sel m n → s'.pIdx.Sel m n' → j n = j n' → n = n') ∧
      ∀ n < s.N, s'.pIdx.Sel m n → s'.x.get m n = p (fun l => s.x.get m n l - s.lamda * s.dt * (s.x.get m n l - c l) +
        s.sigma * (Real.sqrt s.dt * (s.x.get m n l - c l) * smp s.draws i (j n) l)) := by
  obtain ⟨c, j, h1, h2, h3⟩ := noise_step hE hn hb h0 h hs hi
  rw [hm] at h2 h3
  refine ⟨c, j, h1, h2, fun n hn1 hsel => ?_⟩
  rw [h3 n hn1 hsel]
  congr 1
  funext l
  simp only [cboUpdate, anisoRule, Pi.add_apply, Pi.smul_apply, Pi.sub_apply, smul_eq_mul]
  ring

/-- **C53, constant noise.** The same with noise `√dt·ξ`, independent of the drift. -/
theorem C53_constant (hE : Standard env f ν p) (hn : env.noise = rowNoise constRule smp) (hb : a.batchSize ≠ some 0)
    (h0 : init env a = .ok s₀) (h : execAll env (cboInner env) ops s₀ = .ok s) (hs : step env (cboInner env) s = .ok s')
    (i m : ℕ) (hi : i < s.active.length) (hm : s.active.getD i 0 = m) :
    ∃ (c : ι → ℝ) (j : ℕ → ℕ), (∃ cm, s'.cons = some cm ∧ cm.get i 0 = c) ∧
      (∀ n < s.N, ∀ n' < s.N, s'.pIdx.Sel m n → s'.pIdx.Sel m n' → j n = j n' → n = n') ∧
      ∀ n < s.N, s'.pIdx.Sel m n → s'.x.get m n = p (fun l => s.x.get m n l - s.lamda * s.dt * (s.x.get m n l - c l) +
        s.sigma * (Real.sqrt s.dt * smp s.draws i (j n) l)) := by
  obtain ⟨c, j, h1, h2, h3⟩ := noise_step hE hn hb h0 h hs hi
  rw [hm] at h2 h3
  refine ⟨c, j, h1, h2, fun n hn1 hsel => ?_⟩
  rw [h3 n hn1 hsel]
  congr 1
  funext l
  simp only [cboUpdate, constRule, Pi.add_apply, Pi.smul_apply, Pi.sub_apply, smul_eq_mul]
  ring

end step

section covstep
variable {ι : Type} [Fintype ι] [DecidableEq ι]

open Matrix

theorem weightedCov_psd (a : ℝ) (N : ℕ) (f : ℕ → ℝ) (x : ℕ → ι → ℝ) (c : ι → ℝ) : PSD (weightedCov a N f x c) := by
  have h := C52_psd ((List.range N).map fun n =>
    (Real.exp (-(a * f n)) / ∑ k ∈ Finset.range N, Real.exp (-(a * f k)), x n - c)) (by
      intro p hp
      simp only [List.mem_map] at hp
      obtain ⟨n, -, rfl⟩ := hp
      exact div_nonneg (Real.exp_pos _).le (Finset.sum_nonneg fun _ _ => (Real.exp_pos _).le))
  rw [List.map_map, list_range_sum] at h
  convert h using 1
  ext i j
  rw [Matrix.sum_apply]
  simp only [weightedCov, Matrix.of_apply, Function.comp_apply, Matrix.smul_apply, outer, Pi.sub_apply, smul_eq_mul]

/-- **C52, covariance noise.** CBO with covariance noise (mode 'sampling' for `b = true`, where the factor is `1 + alpha`;
otherwise 1), no batching, no correction, finite objective: in every step from every reachable state in which all runs are
active and `dt·(1 + alpha) ≥ 0`, all particles of run `m` receive the noise `F ξ`, where `ξ` is the particle's own sample vector
and `F` is one matrix with `F Fᵀ = 2·dt·(1 + alpha)·Σ_n w_n (x_n - c)(x_n - c)ᵀ`, the weighted covariance of the run's
ensemble around its consensus point `c` with the consensus weights `w_n = exp(-alpha f(x_n)) / Σ_k exp(-alpha f(x_k))`. -/
theorem C52_step (env : Env ℝ (ι → ℝ)) (f : (ι → ℝ) → ℝ) (p : (ι → ℝ) → ι → ℝ)
    (eigh : Matrix ι ι ℝ → (ι → ℝ) × Matrix ι ι ℝ) (he : EighOK eigh) (b : Bool) (smp : ℕ → ℕ → ℕ → ι → ℝ)
    (hcorr : env.corr = .none) (hcons : env.cons = .mean consDefault) (hf : ∀ v, env.f v = .fin (f v))
    (hnoise : env.noise = covNoise eigh b smp) (hpm : PostMap env p) (hp : PermOK env) (a : Args ℝ (ι → ℝ))
    (s₀ s s' : St ℝ (ι → ℝ)) (ops : List Op) (h0 : init env a = .ok s₀) (h : execAll env (cboInner env) ops s₀ = .ok s)
    (hact : s.active = List.range s.M) (hbat : s.batched = false) (hs : step env (cboInner env) s = .ok s')
    (m : ℕ) (hm : m < s.M) (hdt : 0 ≤ s.dt * (if b then 1 + s.alpha m else 1)) :
    ∃ (c : ι → ℝ) (F : Matrix ι ι ℝ), (∃ cm, s'.cons = some cm ∧ cm.get m 0 = c) ∧
      F * Fᵀ = (2 * s.dt * (if b then 1 + s.alpha m else 1)) •
        weightedCov (s.alpha m) s.N (fun n => f (s.x.get m n)) (s.x.get m) c ∧
      ∀ n < s.N, s'.x.get m n =
        p (s.x.get m n - (s.lamda * s.dt) • (s.x.get m n - c) + s.sigma • (F *ᵥ smp s.draws m n)) := by
  have hw : WF s := by
    rw [cboInner_eq] at h
    exact (execAll_induct (cboMove_ok env) hpm.ok hp (P := fun _ => True) (fun _ _ _ _ _ _ => trivial) ops s₀ s
      (init_wf hp h0) trivial h).1
  obtain ⟨cm, c1, -, hx⟩ := cov_explicit hcorr hcons hf hnoise hpm hp hw hact hbat hs
  have hpsd := weightedCov_psd (s.alpha m) s.N (fun n => f (s.x.get m n)) (s.x.get m) (cm.get m 0)
  obtain ⟨⟨sy, -⟩, sq⟩ := C52_sqrt eigh he _ hpsd
  refine ⟨cm.get m 0, _, ⟨cm, c1, rfl⟩, ?_, hx m hm⟩
  rw [transpose_smul, sy, Matrix.smul_mul, Matrix.mul_smul, sq, smul_smul, Real.mul_self_sqrt (by rw [mul_assoc]; linarith)]

end covstep

section normal
variable {ι : Type} [Fintype ι] [DecidableEq ι]

open Matrix MeasureTheory ProbabilityTheory

/-- **C52, covariance of the noise.** For a standard normal sample vector `z`, the vector `F z` has covariance `F Fᵀ`. With
`C52_step` this says: the noise of a particle has covariance `2·dt·(1 + alpha)` times the weighted covariance of the run. -/
theorem C52_covariance (F : Matrix ι ι ℝ) (i j : ι) : ∫ z, (F *ᵥ z) i * (F *ᵥ z) j ∂stdNormal ι = (F * Fᵀ) i j := by
  have e : ∀ z : ι → ℝ, (F *ᵥ z) i * (F *ᵥ z) j = ∑ a, ∑ b, (F i a * F j b) * (z a * z b) := by
    intro z
    simp only [mulVec, dotProduct, Finset.sum_mul_sum]
    refine Finset.sum_congr rfl fun a _ => Finset.sum_congr rfl fun b _ => ?_
    ring
  simp only [e]
  rw [integral_finsetSum]
  · have : ∀ a, ∫ z, ∑ b, (F i a * F j b) * (z a * z b) ∂stdNormal ι = F i a * F j a := by
      intro a
      rw [integral_finsetSum]
      · simp only [integral_const_mul, (normal_moment _ _).2, mul_ite, mul_one, mul_zero, Finset.sum_ite_eq, Finset.mem_univ,
          if_true]
      · intro b _
        exact (normal_moment a b).1.const_mul _
    simp only [this, Matrix.mul_apply, transpose_apply]
  · intro a _
    exact integrable_finsetSum _ fun b _ => (normal_moment a b).1.const_mul _

/-- **C52, mean of the noise**: zero. -/
theorem C52_mean (F : Matrix ι ι ℝ) (i : ι) : ∫ z, (F *ᵥ z) i ∂stdNormal ι = 0 := by
  simp only [mulVec, dotProduct]
  rw [integral_finsetSum _ fun a _ => (normal_mean a).1.const_mul _]
  simp only [integral_const_mul, (normal_mean _).2, mul_zero, Finset.sum_const_zero]

end normal

section covraise
variable {ι : Type} [Fintype ι] [DecidableEq ι]

/-- **C19 for covariance noise (partial).** Without batching and correction, with a finite objective and all runs still active, a
CBO step with covariance noise never raises. -/
theorem C19_covariance_partial (env : Env ℝ (ι → ℝ)) (f : (ι → ℝ) → ℝ) (p : (ι → ℝ) → ι → ℝ)
    (eigh : Matrix ι ι ℝ → (ι → ℝ) × Matrix ι ι ℝ) (b : Bool) (smp : ℕ → ℕ → ℕ → ι → ℝ)
    (hcorr : env.corr = .none) (hcons : env.cons = .mean consDefault) (hf : ∀ v, env.f v = .fin (f v))
    (hnoise : env.noise = covNoise eigh b smp) (hpm : PostMap env p) (hp : PermOK env) (a : Args ℝ (ι → ℝ))
    (s₀ s : St ℝ (ι → ℝ)) (ops : List Op) (h0 : init env a = .ok s₀) (h : execAll env (cboInner env) ops s₀ = .ok s)
    (hM : 0 < s.M) (hact : s.active = List.range s.M) (hbat : s.batched = false)
    (hsi : s.saveInt ≠ 0) : ∃ s', step env (cboInner env) s = .ok s' := by
  have hw : WF s := by
    rw [cboInner_eq] at h
    exact (execAll_induct (cboMove_ok env) hpm.ok hp (P := fun _ => True) (fun _ _ _ _ _ _ => trivial) ops s₀ s
      (init_wf hp h0) trivial h).1
  refine cboStep_total_of hcorr ⟨_, hcons⟩ (fun s => ⟨_, hpm s, rfl, rfl⟩) hp hw hsi (hw.full hM hact hbat) ?_
  intro q d q2 d1 d2 q9 e1 e2 hen
  obtain ⟨pc, pr, pcol, prun, ppar⟩ := (preStep_pIdx env s hw).2.2 hbat
  have hl : s.active.length = s.M := by rw [hact, List.length_range]
  rw [hnoise]
  obtain ⟨n, n1, n2, n3, -⟩ := covNoise_full (eigh := eigh) (smp := smp) (b := b) q2 (by rw [e2]; exact hw.pos)
    (by rw [d1, q9, hl]) (by rw [d2, e2, pcol]) (by rw [e1, q9]) (fun m n => f (s.x.get m n))
    (by
      intro m hm n hn
      rw [q9] at hm
      rw [e2] at hn
      rw [hen m n, hf]
      rw [← pc]
      exact ⟨m, by omega, n, by omega, by rw [prun m (by omega), hact, range_getD hm], ppar m n⟩)
  exact ⟨n, n1, n2, n3⟩

/-- **C19 does not hold for covariance noise.** As soon as some but not all runs have stopped, every further CBO step with
covariance noise raises: `update_covariance` combines the drift of the active runs with the energies of all runs. -/
theorem C19_covariance_stopped_false (env : Env ℝ (ι → ℝ)) (p : (ι → ℝ) → ι → ℝ)
    (eigh : Matrix ι ι ℝ → (ι → ℝ) × Matrix ι ι ℝ) (b : Bool) (smp : ℕ → ℕ → ℕ → ι → ℝ)
    (hcorr : env.corr = .none) (hcons : env.cons = .mean consDefault)
    (hnoise : env.noise = covNoise eigh b smp) (hpm : PostMap env p) (hp : PermOK env) (a : Args ℝ (ι → ℝ))
    (s₀ s : St ℝ (ι → ℝ)) (ops : List Op) (h0 : init env a = .ok s₀) (h : execAll env (cboInner env) ops s₀ = .ok s)
    (hk : 0 < s.active.length) (hM : s.active.length < s.M) : ∀ s', step env (cboInner env) s ≠ .ok s' := by
  intro s' hs
  have hw : WF s := by
    rw [cboInner_eq] at h
    exact (execAll_induct (cboMove_ok env) hpm.ok hp (P := fun _ => True) (fun _ _ _ _ _ _ => trivial) ops s₀ s
      (init_wf hp h0) trivial h).1
  obtain ⟨c, d, n, xm, cs⟩ := cboStep_facts hcorr (covNoise_shape hnoise) hcons hp hw hs
  have fr := step_frame (by rw [cboInner_eq]; exact consThen_frame (cboMove_ok env)) hs
  have hw' := step_wf (cboMove_ok env) hpm.ok hp hw (by rw [← cboInner_eq]; exact hs)
  obtain ⟨q, q1, q2, q3, q4, q5, q6, q7, q8, q9⟩ := cs.noise
  rw [hnoise] at q1
  obtain ⟨C, e, hC, he1, hn1⟩ := covNoise_ok q2 q1
  obtain ⟨co, D, hco, hD, c1, c2, -⟩ := updateCovariance_ok q2 hC
  obtain ⟨co1, -⟩ := covCoeffs_rows hco
  rw [q8, q9, hw'.er, fr.M, Mat.bdim_self] at co1
  injection co1 with co1
  obtain ⟨D1, -, -⟩ := Mat.bin_ok hD
  obtain ⟨E1, -, -⟩ := Mat.bin_ok he1
  obtain ⟨N1, -, -⟩ := Mat.bin_ok hn1
  simp only [Mat.map] at D1 E1
  rw [cs.dr, ← co1] at D1
  rw [cs.dr, c1] at E1
  rw [cs.nr] at N1
  have hD' : D.rows = s.M := by
    simp only [Mat.bdim] at D1
    split_ifs at D1 <;> first | omega | (injection D1 with D1; omega)
  have hE' : e.rows = s.M := by
    rw [hD'] at E1
    simp only [Mat.bdim] at E1
    split_ifs at E1 <;> first | omega | (injection E1 with E1; omega)
  rw [hE'] at N1
  have : Mat.bdim (covLamdaInv b q).rows s.M = some s.M := by
    unfold covLamdaInv
    split
    · simp only; rw [q9]; exact Mat.bdim_self _
    · exact Mat.bdim_one_left _
  rw [this] at N1
  injection N1 with N1
  omega

/-- **C19 does not hold for covariance noise with batches** of more than one but not all particles. -/
theorem C19_covariance_batched_false (env : Env ℝ (ι → ℝ)) (p : (ι → ℝ) → ι → ℝ)
    (eigh : Matrix ι ι ℝ → (ι → ℝ) × Matrix ι ι ℝ) (b : Bool) (smp : ℕ → ℕ → ℕ → ι → ℝ)
    (hcorr : env.corr = .none) (hcons : env.cons = .mean consDefault)
    (hnoise : env.noise = covNoise eigh b smp) (hpm : PostMap env p) (hp : PermOK env) (a : Args ℝ (ι → ℝ))
    (s₀ s : St ℝ (ι → ℝ)) (ops : List Op) (h0 : init env a = .ok s₀) (h : execAll env (cboInner env) ops s₀ = .ok s)
    (hb : s.batched = true) (hpar : s.batchPartial = true) (h1 : 1 < s.batchSize) :
    ∀ s', step env (cboInner env) s ≠ .ok s' := by
  intro s' hs
  have hw : WF s := by
    rw [cboInner_eq] at h
    exact (execAll_induct (cboMove_ok env) hpm.ok hp (P := fun _ => True) (fun _ _ _ _ _ _ => trivial) ops s₀ s
      (init_wf hp h0) trivial h).1
  obtain ⟨c, d, n, xm, cs⟩ := cboStep_facts hcorr (covNoise_shape hnoise) hcons hp hw hs
  have fr := step_frame (by rw [cboInner_eq]; exact consThen_frame (cboMove_ok env)) hs
  have hw' := step_wf (cboMove_ok env) hpm.ok hp hw (by rw [← cboInner_eq]; exact hs)
  have hix := preStep_idx env hp hw
  have hpc := (preStep_pIdx env s hw).1 hb hpar
  obtain ⟨q, q1, q2, q3, q4, q5, q6, q7, q8, q9⟩ := cs.noise
  rw [hnoise] at q1
  obtain ⟨C, e, hC, he1, hn1⟩ := covNoise_ok q2 q1
  obtain ⟨co, D, hco, hD, c1, c2, -⟩ := updateCovariance_ok q2 hC
  obtain ⟨-, co2⟩ := covCoeffs_rows hco
  obtain ⟨-, D1, -⟩ := Mat.bin_ok hD
  simp only [Mat.map] at D1
  rw [cs.dc, fr.pIdx, hpc, hix.cCols, co2, q8, hw'.ec, fr.N] at D1
  have := (hw.bat hb).1
  simp only [Mat.bdim] at D1
  split_ifs at D1 <;> omega

end covraise

/-- The environment of the example with covariance noise. -/
theorem Example.covEnv_facts (eigh : Matrix (Fin 2) (Fin 2) ℝ → (Fin 2 → ℝ) × Matrix (Fin 2) (Fin 2) ℝ) (b : Bool) :
    PostMap (Example.realEnv (covNoise eigh b Example.smp)) (clipVec 100) ∧
      PermOK (Example.realEnv (covNoise eigh b Example.smp)) :=
  ⟨fun _ => rfl, Example.perm_ok _⟩

/-- C52, C19: an unbatched ensemble on the plane with covariance noise; the first step succeeds. -/
theorem Example.covStep (eigh : Matrix (Fin 2) (Fin 2) ℝ → (Fin 2 → ℝ) × Matrix (Fin 2) (Fin 2) ℝ) (b : Bool)
    (x : ℕ → ℕ → Fin 2 → ℝ) (terms : List (Term ℝ)) (σ : ℝ := 3) :
    let env := Example.realEnv (covNoise eigh b Example.smp)
    ∃ s₀ s', init env { Example.realArgs x σ none with terms := terms } = .ok s₀ ∧ s₀.active = List.range s₀.M ∧
      s₀.batched = false ∧ s₀.M = 2 ∧ s₀.N = 4 ∧ s₀.x.get = x ∧ s₀.terms = terms ∧
      s₀.dt = 1 / 10 ∧ (∀ m, s₀.alpha m = 3) ∧ step env (cboInner env) s₀ = .ok s' := by
  intro env
  have h0 : ∃ s₀, init env { Example.realArgs x σ none with terms := terms } = .ok s₀ ∧ s₀.active = List.range s₀.M ∧
      s₀.batched = false ∧ s₀.M = 2 ∧ s₀.N = 4 ∧ s₀.x.get = x ∧ s₀.terms = terms ∧
      s₀.dt = 1 / 10 ∧ (∀ m, s₀.alpha m = 3) ∧ s₀.saveInt ≠ 0 := by
    unfold init
    rw [if_neg (by simp [Example.realArgs])]
    exact ⟨_, rfl, rfl, rfl, rfl, rfl, rfl, rfl, rfl, fun _ => rfl, show (2 : ℕ) ≠ 0 by omega⟩
  obtain ⟨s₀, h0, h1, h2, h3, h4, h5, h6, h7, h8, h9⟩ := h0
  obtain ⟨hpm, hp⟩ := Example.covEnv_facts eigh b
  obtain ⟨s', hs⟩ := C19_covariance_partial env (fun v => v 0 ^ 2 + v 1 ^ 2) (clipVec 100) eigh b Example.smp rfl rfl
    (fun _ => rfl) rfl hpm hp _ s₀ s₀ [] h0 rfl (by omega) h1 h2 h9
  exact ⟨s₀, s', h0, h1, h2, h3, h4, h5, h6, h7, h8, hs⟩

/-- C52: all hypotheses of `C52_step` are met by this ensemble. -/
example : ∃ eigh : Matrix (Fin 2) (Fin 2) ℝ → (Fin 2 → ℝ) × Matrix (Fin 2) (Fin 2) ℝ, EighOK eigh ∧
    let env := Example.realEnv (covNoise eigh true Example.smp)
    ∃ s₀ s', init env (Example.realArgs (fun m n => ![n, m]) 3 none) = .ok s₀ ∧ s₀.active = List.range s₀.M ∧
      s₀.batched = false ∧ step env (cboInner env) s₀ = .ok s' ∧ 0 ≤ s₀.dt * (1 + s₀.alpha 1) := by
  obtain ⟨eigh, he⟩ := eigh_exists (ι := Fin 2)
  refine ⟨eigh, he, ?_⟩
  intro env
  obtain ⟨s₀, s', h0, h1, h2, -, -, -, -, h7, h8, hs⟩ := Example.covStep eigh true (fun m n => ![(n : ℝ), m])
    [.maxIt (some 7), .maxEval 20]
  exact ⟨s₀, s', h0, h1, h2, hs, by rw [h7, h8]; norm_num⟩

/-- C19: with energy tolerance 1, an ensemble whose run 0 starts at the origin: after one step and one check exactly run 1 is
active, and the next step raises. -/
theorem Example.covStopped (eigh : Matrix (Fin 2) (Fin 2) ℝ → (Fin 2 → ℝ) × Matrix (Fin 2) (Fin 2) ℝ) (σ : ℝ) :
    let env := Example.realEnv (covNoise eigh true Example.smp)
    ∃ s₀ s, init env { Example.realArgs (fun m n => ![5 * m, n * m]) σ none with terms := [.energyTol (.fin 1)] } = .ok s₀ ∧
      s₀.M = 2 ∧ s.M = 2 ∧ execAll env (cboInner env) [.step, .select] s₀ = .ok s ∧ s.active = [1] ∧
      ∀ s', step env (cboInner env) s ≠ .ok s' := by
  intro env
  obtain ⟨s₀, s', h0, h1, h2, h3, h4, h5, h6, h7, h8, hs⟩ := Example.covStep eigh true (fun m n => ![5 * (m : ℝ), n * m])
    [.energyTol (.fin 1)] σ
  obtain ⟨hpm, hp⟩ := Example.covEnv_facts eigh true
  have hw : WF s₀ := init_wf hp h0
  have fr := step_frame (by rw [cboInner_eq]; exact consThen_frame (cboMove_ok env)) hs
  have sm := step_sum (cboMove_ok env) hpm.ok (by rw [← cboInner_eq]; exact hs)
  have hw' := step_wf (cboMove_ok env) hpm.ok hp hw (by rw [← cboInner_eq]; exact hs)
  have hec : s'.energy.cols = 4 := by rw [hw'.ec, fr.N, h4]
  obtain ⟨pc, pr, pcol, prun, ppar⟩ := (preStep_pIdx env s₀ hw).2.2 h2
  have hen : ∀ m < 2, ∀ n < 4, s'.energy.get m n = .fin ((5 * (m : ℝ)) ^ 2 + (n * m) ^ 2) := by
    intro m hm n hn
    rw [sm.fresh m n, h5]
    · rfl
    · rw [fr.cIdx, ← pc]
      have hl : s₀.active.length = 2 := by rw [h1, h3]; rfl
      refine ⟨m, by omega, n, by omega, ?_, ppar m n⟩
      rw [prun m (by omega), h1, h3, range_getD hm]
  have f0 : s'.fMin 0 = .fin 0 := by
    rw [sm.fMin, hec]
    simp only [Flt.rowMin, List.range, List.range.loop, List.foldl, hen 0 (by omega) 0 (by omega),
      hen 0 (by omega) 1 (by omega), hen 0 (by omega) 2 (by omega), hen 0 (by omega) 3 (by omega)]
    simp [Flt.minimum, Flt.isNaN, Flt.lt]
  have f1 : s'.fMin 1 = .fin 25 := by
    rw [sm.fMin, hec]
    simp only [Flt.rowMin, List.range, List.range.loop, List.foldl, hen 1 (by omega) 0 (by omega),
      hen 1 (by omega) 1 (by omega), hen 1 (by omega) 2 (by omega), hen 1 (by omega) 3 (by omega)]
    norm_num [Flt.minimum, Flt.isNaN, Flt.lt]
  have hsel : ∃ s, selectActive env s' = .ok s ∧ s.active = [1] ∧ s.M = 2 := by
    refine ⟨_, by simp only [selectActive, fr.terms, h6, evalTerms, evalTerm, bind, Except.bind, pure, Except.pure]; rfl, ?_, ?_⟩
    · simp only [fr.M, h3]
      simp [List.range, List.range.loop, List.filter, f0, f1, Flt.lt]
    · simp only [fr.M, h3]
  obtain ⟨s, hq, hq1, hq2⟩ := hsel
  have hex : execAll env (cboInner env) [.step, .select] s₀ = .ok s := by
    have hs1 : exec env (cboInner env) .step s₀ = .ok s' := hs
    have hs2 : exec env (cboInner env) .select s' = .ok s := hq
    simp only [execAll, hs1, hs2, bind, Except.bind]
  refine ⟨s₀, s, h0, h3, hq2, hex, hq1, ?_⟩
  exact C19_covariance_stopped_false env (clipVec 100) eigh true Example.smp rfl rfl rfl hpm hp _ s₀ s _ h0 hex
    (by rw [hq1]; decide) (by rw [hq1, hq2]; decide)

/-- C53: the hypotheses are met by the example dynamic on the plane after any sequence of operations. -/
example (ops : List Op) :
    let env := Example.realEnv (rowNoise isoRule Example.smp)
    ∃ s₀ s s', init env (Example.realArgs (fun m n => ![n, m]) 3 (some 3)) = .ok s₀ ∧
      execAll env (cboInner env) ops s₀ = .ok s ∧ step env (cboInner env) s = .ok s' := by
  intro env
  obtain ⟨s₀, h0, h1⟩ := Example.realEnv_runs isoRule (fun m n => ![(n : ℝ), m]) 3 (some 3)
  obtain ⟨s', hs⟩ := h1 (ops ++ [.step])
  rw [execAll_append] at hs
  simp only [execAll, bind_ok] at hs
  obtain ⟨s, h2, q, h3, h4⟩ := hs
  injection h4 with h4
  subst h4
  exact ⟨s₀, s, q, h0, h2, h3⟩

end Verif
