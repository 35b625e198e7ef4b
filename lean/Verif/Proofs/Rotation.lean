import Verif.Proofs.Equivariance
import Verif.Props.Noise
import Mathlib.Analysis.Matrix.PosDef

/-! Helper lemmas for C109: similarities of the space. -/

set_option linter.unusedSectionVars false

namespace Verif

open Matrix

section
variable {ι : Type} [Fintype ι] [DecidableEq ι]

theorem PSD.posSemidef {A : Matrix ι ι ℝ} (h : PSD A) : A.PosSemidef := by
  refine Matrix.PosSemidef.of_dotProduct_mulVec_nonneg ?_ fun x => ?_
  · rw [Matrix.IsHermitian, Matrix.conjTranspose_eq_transpose_of_trivial]
    exact h.1
  · have := h.2 x
    simpa [dotProduct, mulVec, Finset.mul_sum, mul_assoc] using this

/-- A positive semidefinite matrix has one positive semidefinite square root. -/
theorem psd_sqrt_unique {S T : Matrix ι ι ℝ} (hS : PSD S) (hT : PSD T) (h : S * S = T * T) : S = T := by
  have hD : (S - T)ᵀ = S - T := by rw [transpose_sub, hS.1, hT.1]
  set D := S - T with hDd
  have hDh : Dᴴ = D := by rw [conjTranspose_eq_transpose_of_trivial]; exact hD
  have e1 : S * D + D * T = 0 := by rw [hDd, mul_sub, sub_mul, h]; abel
  have p1 : (D * S * D).PosSemidef := by
    have := hS.posSemidef.conjTranspose_mul_mul_same D
    rwa [hDh] at this
  have p2 : (D * T * D).PosSemidef := by
    have := hT.posSemidef.conjTranspose_mul_mul_same D
    rwa [hDh] at this
  have tr : (D * S * D).trace + (D * T * D).trace = 0 := by
    have e2 : D * S * D + D * D * T = 0 := by
      have := congrArg (D * ·) e1
      simpa [mul_add, Matrix.mul_assoc] using this
    have e3 : (D * T * D).trace = (D * D * T).trace := by rw [Matrix.trace_mul_comm (D * T) D, Matrix.mul_assoc]
    rw [e3, ← Matrix.trace_add, e2, Matrix.trace_zero]
  have t1 := p1.trace_nonneg
  have t2 := p2.trace_nonneg
  have z1 : D * S * D = 0 := p1.trace_eq_zero_iff.1 (by linarith)
  have z2 : D * T * D = 0 := p2.trace_eq_zero_iff.1 (by linarith)
  have z3 : D * D * D = 0 := by
    have : D * D * D = D * S * D - D * T * D := by
      rw [← sub_mul, ← mul_sub, ← hDd]
    rw [this, z1, z2, sub_zero]
  have z4 : D * D = 0 := by
    have : (D * D)ᴴ * (D * D) = 0 := by
      rw [conjTranspose_mul, hDh, ← Matrix.mul_assoc, z3, Matrix.zero_mul]
    exact conjTranspose_mul_self_eq_zero.1 this
  have z5 : D = 0 := conjTranspose_mul_self_eq_zero.1 (by rw [hDh]; exact z4)
  exact sub_eq_zero.1 z5

theorem PSD.conj {A : Matrix ι ι ℝ} (h : PSD A) (c : ℝ) (hc : 0 ≤ c) (Q : Matrix ι ι ℝ) : PSD (c • (Q * A * Qᵀ)) := by
  refine ⟨?_, fun x => ?_⟩
  · rw [transpose_smul, transpose_mul, transpose_mul, transpose_transpose, h.1, Matrix.mul_assoc]
  · have p := (h.posSemidef.mul_mul_conjTranspose_same Q).dotProduct_mulVec_nonneg x
    rw [conjTranspose_eq_transpose_of_trivial] at p
    have e : ∑ i, ∑ j, x i * (c • (Q * A * Qᵀ)) i j * x j = c * (star x ⬝ᵥ ((Q * A * Qᵀ) *ᵥ x)) := by
      simp only [dotProduct, mulVec, Finset.mul_sum, Matrix.smul_apply, smul_eq_mul, star_trivial]
      refine Finset.sum_congr rfl fun i _ => Finset.sum_congr rfl fun j _ => ?_
      ring
    rw [e]
    exact mul_nonneg hc p

/-- The matrix square root commutes with orthogonal maps and positive factors. -/
theorem matSqrt_conj {eigh : Matrix ι ι ℝ → (ι → ℝ) × Matrix ι ι ℝ} (he : EighOK eigh) {A : Matrix ι ι ℝ} (hA : PSD A) {c : ℝ} (hc : 0 ≤ c) {Q : Matrix ι ι ℝ} (hQ : Qᵀ * Q = 1) :
    matSqrt eigh (c ^ 2 • (Q * A * Qᵀ)) = c • (Q * matSqrt eigh A * Qᵀ) := by
  obtain ⟨s1, s2⟩ := C52_sqrt eigh he A hA
  obtain ⟨t1, t2⟩ := C52_sqrt eigh he _ (hA.conj (c ^ 2) (sq_nonneg c) Q)
  refine psd_sqrt_unique t1 (s1.conj c hc Q) ?_
  rw [t2, smul_mul_smul_comm, ← sq]
  congr 1
  calc Q * A * Qᵀ = Q * (matSqrt eigh A * (Qᵀ * Q) * matSqrt eigh A) * Qᵀ := by rw [hQ, Matrix.mul_one, s2]
    _ = Q * matSqrt eigh A * Qᵀ * (Q * matSqrt eigh A * Qᵀ) := by simp only [Matrix.mul_assoc]

theorem outer_conj (c : ℝ) (Q : Matrix ι ι ℝ) (d : ι → ℝ) : outer (c • Q *ᵥ d) = c ^ 2 • (Q * outer d * Qᵀ) := by
  ext i j
  simp only [outer, Matrix.of_apply, Pi.smul_apply, smul_eq_mul, Matrix.smul_apply, Matrix.mul_apply, mulVec, dotProduct, transpose_apply]
  have : ∑ l, (∑ k, Q i k * (d k * d l)) * Q j l = (∑ k, Q i k * d k) * ∑ l, Q j l * d l := by
    rw [Finset.mul_sum]
    refine Finset.sum_congr rfl fun l _ => ?_
    rw [Finset.sum_mul, Finset.sum_mul]
    exact Finset.sum_congr rfl fun k _ => by ring
  rw [this]
  ring

theorem bin_exrel {α β γ α' β' γ' : Type} {f : α → β → γ} {f' : α' → β' → γ'} {φ : α → α'} {ψ : β → β'} {χ : γ → γ'} (hf : ∀ a b, f' (φ a) (ψ b) = χ (f a b)) (a : Mat α) (b : Mat β) :
    ExRel (fun u v => v = u.map χ) (Mat.bin f a b) (Mat.bin f' (a.map φ) (b.map ψ)) := by
  unfold Mat.bin
  simp only [Mat.map]
  split
  · simp only [ExRel, hf]
  · rfl

theorem coeff_nonneg {W : Type} (l : List (ℝ × Flt ℝ × W)) (p : ℝ × Flt ℝ × W) : 0 ≤ coeff l p := by
  unfold coeff
  split
  · exact (Real.exp_pos _).le
  · exact le_rfl

/-- The covariance noise of the image of a state under a similarity with linear part `c Q`, for the rotated random numbers. -/
theorem covNoise_image {eigh : Matrix ι ι ℝ → (ι → ℝ) × Matrix ι ι ℝ} (he : EighOK eigh) (b : Bool) (smp : ℕ → ℕ → ℕ → ι → ℝ) {c : ℝ} (hc : 0 ≤ c) {Q : Matrix ι ι ℝ} (hQ : Qᵀ * Q = 1)
    {φ : (ι → ℝ) → ι → ℝ} {κ : Flt ℝ → Flt ℝ} {s t : St ℝ (ι → ℝ)} (h : Image φ (fun v => c • Q *ᵥ v) κ s t) :
    ExRel (fun u v => v = u.map fun v => c • Q *ᵥ v) (covNoise eigh b smp s) (covNoise eigh b (fun k i j => Q *ᵥ smp k i j) t) := by
  unfold covNoise updateCovariance
  rw [h.drift]
  cases s.drift with
  | none => rfl
  | some d =>
    have hco : covCoeffs t = covCoeffs s := by unfold covCoeffs; rw [h.count.1, h.params.1, h.energy]
    simp only [Option.map_some, hco]
    have hC : ExRel (fun u v => v = u.map fun S => c • (Q * S * Qᵀ))
        (do let co ← covCoeffs s
            let D ← Mat.bin (fun D c => (c : ℝ) • D) (d.map outer) co
            pure (⟨D.rows, 1, fun i _ => matSqrt eigh (D.row i).sum⟩ : Mat (Matrix ι ι ℝ)))
        (do let co ← covCoeffs s
            let D ← Mat.bin (fun D c => (c : ℝ) • D) ((d.map fun v => c • Q *ᵥ v).map outer) co
            pure (⟨D.rows, 1, fun i _ => matSqrt eigh (D.row i).sum⟩ : Mat (Matrix ι ι ℝ))) := by
      refine ExRel.bind (R := fun a b => b = a) (by cases covCoeffs s <;> rfl) fun co co' hco1 e => ?_
      subst e
      have hnn : ∀ i j, 0 ≤ co'.get i j := by
        unfold covCoeffs at hco1
        simp only [bind_ok, pure_ok] at hco1
        obtain ⟨w, -, rfl⟩ := hco1
        exact fun i j => coeff_nonneg _ _
      have hb := bin_exrel (f := fun (D : Matrix ι ι ℝ) (c : ℝ) => c • D) (f' := fun (D : Matrix ι ι ℝ) (c : ℝ) => c • D) (φ := fun A => c ^ 2 • (Q * A * Qᵀ)) (ψ := fun x : ℝ => x)
        (χ := fun A => c ^ 2 • (Q * A * Qᵀ)) (fun A x => by rw [smul_comm, Matrix.mul_smul, Matrix.smul_mul]) (d.map outer) co'
      have e1 : (d.map outer).map (fun A => c ^ 2 • (Q * A * Qᵀ)) = (d.map fun v => c • Q *ᵥ v).map outer := by
        rw [map_map_mat, map_map_mat]
        simp only [outer_conj]
      rw [e1, map_id_mat] at hb
      refine ExRel.bind hb fun D D' hD e2 => ?_
      subst e2
      show _ = _
      simp only [Mat.map]
      congr 1
      funext i _
      have hsum : ((D.map fun A => c ^ 2 • (Q * A * Qᵀ)).row i).sum = c ^ 2 • (Q * (D.row i).sum * Qᵀ) := by
        simp only [Mat.row, Mat.map]
        generalize List.range D.cols = l
        induction l with
        | nil => simp
        | cons a l ih => simp only [List.map_cons, List.sum_cons, ih, mul_add, add_mul, smul_add]
      have hpsd : PSD (D.row i).sum := by
        obtain ⟨-, -, D3⟩ := Mat.bin_ok hD
        have : D.row i = (List.range D.cols).map fun j => (co'.get (Mat.bpos co'.rows i) (Mat.bpos co'.cols j)) • outer (d.get (Mat.bpos d.rows i) (Mat.bpos d.cols j)) := by
          unfold Mat.row
          refine List.map_congr_left fun j _ => ?_
          rw [D3]
          rfl
        rw [this]
        have := C52_psd ((List.range D.cols).map fun j => (co'.get (Mat.bpos co'.rows i) (Mat.bpos co'.cols j), d.get (Mat.bpos d.rows i) (Mat.bpos d.cols j))) (fun p hp => by
          obtain ⟨j, -, rfl⟩ := List.mem_map.1 hp
          exact hnn _ _)
        rw [List.map_map] at this
        exact this
      have := matSqrt_conj he hpsd hc hQ
      rw [← hsum] at this
      exact this
    refine ExRel.bind hC fun C C' _ e => ?_
    subst e
    have hE := bin_exrel (f := fun (A : Matrix ι ι ℝ) z => A.mulVec z) (f' := fun (A : Matrix ι ι ℝ) z => A.mulVec z) (φ := fun S => c • (Q * S * Qᵀ)) (ψ := fun z => Q *ᵥ z) (χ := fun v => c • Q *ᵥ v)
      (fun S z => by
        rw [Matrix.smul_mulVec, Matrix.mulVec_mulVec, Matrix.mul_assoc, hQ, Matrix.mul_one, ← Matrix.mulVec_mulVec]) C ⟨d.rows, d.cols, fun i j => smp s.draws i j⟩
    rw [h.count.2.2.2.2.2]
    refine ExRel.bind hE fun e e' _ h2 => ?_
    subst h2
    have hl : covLamdaInv b t = covLamdaInv b s := by unfold covLamdaInv; rw [h.count.1, h.params.1]
    have := bin_exrel (f := fun (l : ℝ) (v : ι → ℝ) => Real.sqrt (2 * s.dt * l) • v) (f' := fun (l : ℝ) (v : ι → ℝ) => Real.sqrt (2 * s.dt * l) • v) (φ := fun l => l) (ψ := fun v => c • Q *ᵥ v)
      (χ := fun v => c • Q *ᵥ v) (fun l v => by rw [Matrix.mulVec_smul, smul_comm]) (covLamdaInv b s) e
    rw [map_id_mat] at this
    rw [hl, h.params.2.2.2]
    exact this

theorem euclid_orth {Q : Matrix ι ι ℝ} (hQ : Qᵀ * Q = 1) (v : ι → ℝ) : euclid (Q *ᵥ v) = euclid v := by
  have e : ∀ w : ι → ℝ, ∑ i, w i ^ 2 = w ⬝ᵥ w := fun w => by simp [dotProduct, sq]
  unfold euclid
  rw [e, e, Matrix.dotProduct_mulVec, Matrix.vecMul_mulVec, hQ, Matrix.vecMul_one]

theorem euclid_smul (c : ℝ) (v : ι → ℝ) : euclid (c • v) = |c| * euclid v := by
  unfold euclid
  simp only [Pi.smul_apply, smul_eq_mul, mul_pow, ← Finset.mul_sum]
  rw [Real.sqrt_mul (sq_nonneg c), Real.sqrt_sq_eq_abs]

end

end Verif
