import Verif.Spec.Noise
import Verif.Proofs.Hull

/-! Noise models: shapes, zero drift, the matrix square root. Helper lemmas. -/

set_option linter.unusedSectionVars false

namespace Verif

section row
variable {ι : Type} [Fintype ι]

theorem euclid_zero : euclid (0 : ι → ℝ) = 0 := by simp [euclid]

theorem rowNoise_rows {env : Env ℝ (ι → ℝ)} {rule : (ι → ℝ) → (ι → ℝ) → ι → ℝ} {smp : ℕ → ℕ → ℕ → ι → ℝ}
    (h : env.noise = rowNoise rule smp) :
    NoiseRows env fun c dt i j d => Real.sqrt dt • rule d (smp c i j) := by
  intro s d hd
  rw [h]
  simp only [rowNoise, hd]
  exact ⟨_, rfl, rfl, rfl, fun _ _ => rfl⟩

theorem rowNoise_vanish {env : Env ℝ (ι → ℝ)} {rule : (ι → ℝ) → (ι → ℝ) → ι → ℝ} {smp : ℕ → ℕ → ℕ → ι → ℝ}
    (h : env.noise = rowNoise rule smp) (hr : ∀ z, rule 0 z = 0) : NoiseVanish env := by
  intro s d n hd hn _ i _ hz j hj
  rw [h] at hn
  simp only [rowNoise, hd] at hn
  injection hn with hn
  subst hn
  simp [hz j hj, hr]

theorem isoRule_zero (z : ι → ℝ) : isoRule 0 z = 0 := by funext i; simp [isoRule, euclid_zero]

theorem anisoRule_zero (z : ι → ℝ) : anisoRule 0 z = 0 := by funext i; simp [anisoRule]

end row

section cov
variable {ι : Type} [Fintype ι] [DecidableEq ι]

theorem matSqrt_eq (eigh : Matrix ι ι ℝ → (ι → ℝ) × Matrix ι ι ℝ) (A : Matrix ι ι ℝ) :
    matSqrt eigh A = (eigh A).2 * Matrix.diagonal (fun i => Real.sqrt (max ((eigh A).1 i) 0)) * (eigh A).2.transpose := by
  rw [matSqrt, Matrix.mul_assoc]
  congr 1
  ext i j
  rw [Matrix.diagonal_mul]; rfl

theorem matSqrt_zero {eigh : Matrix ι ι ℝ → (ι → ℝ) × Matrix ι ι ℝ} (he : EighOK eigh) : matSqrt eigh 0 = 0 := by
  obtain ⟨h1, h2⟩ := he 0 (by simp)
  have h3 : Matrix.diagonal (eigh 0).1 = 0 := by
    have := congrArg (fun A => (eigh 0).2.transpose * A * (eigh 0).2) h2
    simp only [Matrix.mul_zero, Matrix.zero_mul] at this
    rw [Matrix.mul_assoc, Matrix.mul_assoc, Matrix.mul_assoc, h1, Matrix.mul_one, ← Matrix.mul_assoc, h1,
      Matrix.one_mul] at this
    exact this.symm
  have h4 : (eigh 0).1 = 0 := by
    funext i
    have := congrFun (congrFun h3 i) i
    simpa using this
  rw [matSqrt_eq, h4]
  simp

theorem outer_zero : outer (0 : ι → ℝ) = 0 := by ext i j; simp [outer]

theorem updateCovariance_ok {eigh : Matrix ι ι ℝ → (ι → ℝ) × Matrix ι ι ℝ} {s : St ℝ (ι → ℝ)} {d : Mat (ι → ℝ)}
    {C : Mat (Matrix ι ι ℝ)} (hd : s.drift = some d) (h : updateCovariance eigh s = .ok C) :
    ∃ co D, covCoeffs s = .ok co ∧ Mat.bin (fun D c => (c : ℝ) • D) (d.map outer) co = .ok D ∧ C.rows = D.rows ∧
      C.cols = 1 ∧ ∀ i j, C.get i j = matSqrt eigh (D.row i).sum := by
  simp only [updateCovariance, hd, bind_ok, pure_ok] at h
  obtain ⟨co, h1, D, h2, rfl⟩ := h
  exact ⟨co, D, h1, h2, rfl, rfl, fun _ _ => rfl⟩

theorem covNoise_ok {eigh : Matrix ι ι ℝ → (ι → ℝ) × Matrix ι ι ℝ} {b : Bool} {smp : ℕ → ℕ → ℕ → ι → ℝ}
    {s : St ℝ (ι → ℝ)} {d n : Mat (ι → ℝ)} (hd : s.drift = some d) (h : covNoise eigh b smp s = .ok n) :
    ∃ C e, updateCovariance eigh s = .ok C ∧
      Mat.bin (fun (A : Matrix ι ι ℝ) z => A.mulVec z) C ⟨d.rows, d.cols, fun i j => smp s.draws i j⟩ = .ok e ∧
      Mat.bin (fun (l : ℝ) (v : ι → ℝ) => Real.sqrt (2 * s.dt * l) • v) (covLamdaInv b s) e = .ok n := by
  simp only [covNoise, hd, bind_ok] at h
  obtain ⟨C, h1, e, h2, h3⟩ := h
  exact ⟨C, e, h1, h2, h3⟩

theorem covCoeffs_rows {s : St ℝ (ι → ℝ)} {co : Mat ℝ} (h : covCoeffs s = .ok co) :
    Mat.bdim s.M s.energy.rows = some co.rows ∧ co.cols = s.energy.cols := by
  simp only [covCoeffs, bind_ok, pure_ok] at h
  obtain ⟨w, h1, rfl⟩ := h
  obtain ⟨a, b, -⟩ := Mat.bin_ok h1
  simp only at a b ⊢
  rw [Mat.bdim_one_left] at b
  exact ⟨a, by simpa using b.symm⟩

theorem covNoise_vanish {env : Env ℝ (ι → ℝ)} {eigh : Matrix ι ι ℝ → (ι → ℝ) × Matrix ι ι ℝ} (he : EighOK eigh) {b : Bool}
    {smp : ℕ → ℕ → ℕ → ι → ℝ} (h : env.noise = covNoise eigh b smp) : NoiseVanish env := by
  intro s d n hd hn hrows i hi hz j hj
  rw [h] at hn
  obtain ⟨C, e, hC, he1, hn1⟩ := covNoise_ok hd hn
  obtain ⟨co, D, hco, hD, c1, c2, c3⟩ := updateCovariance_ok hd hC
  obtain ⟨D1, D2, D3⟩ := Mat.bin_ok hD
  obtain ⟨e1, e2, e3⟩ := Mat.bin_ok he1
  obtain ⟨n1, n2, n3⟩ := Mat.bin_ok hn1
  simp only [Mat.map] at D1 D2 D3 e1 e2 e3
  have hb1 := Mat.bdim_eq_some D1
  have hb2 := Mat.bdim_eq_some e1
  have hb3 := Mat.bdim_eq_some n1
  rw [n3, e3, c3]
  have hzero : (D.row (Mat.bpos C.rows (Mat.bpos e.rows i))).sum = 0 := by
    apply List.sum_eq_zero
    intro A hA
    simp only [Mat.row, List.mem_map, List.mem_range] at hA
    obtain ⟨l, hl, rfl⟩ := hA
    rw [D3]
    have hcol : Mat.bpos d.cols l < d.cols := by
      have := Mat.bdim_eq_some D2
      unfold Mat.bpos
      split_ifs <;> omega
    have hrow : Mat.bpos d.rows (Mat.bpos C.rows (Mat.bpos e.rows i)) = i := by
      unfold Mat.bpos
      split_ifs <;> omega
    rw [hrow, hz _ hcol, outer_zero, smul_zero]
  rw [hzero, matSqrt_zero he]
  simp

theorem covNoise_shape {env : Env ℝ (ι → ℝ)} {eigh : Matrix ι ι ℝ → (ι → ℝ) × Matrix ι ι ℝ} {b : Bool}
    {smp : ℕ → ℕ → ℕ → ι → ℝ} (h : env.noise = covNoise eigh b smp) : NoiseShape env := by
  intro s d n hd hn
  rw [h] at hn
  obtain ⟨C, e, hC, he1, hn1⟩ := covNoise_ok hd hn
  obtain ⟨co, D, hco, hD, c1, c2, c3⟩ := updateCovariance_ok hd hC
  obtain ⟨D1, D2, D3⟩ := Mat.bin_ok hD
  obtain ⟨e1, e2, e3⟩ := Mat.bin_ok he1
  obtain ⟨n1, n2, n3⟩ := Mat.bin_ok hn1
  simp only [Mat.map] at D1 D2 D3 e1 e2 e3
  have hl : (covLamdaInv b s).cols = 1 := by unfold covLamdaInv; split <;> rfl
  rw [hl, Mat.bdim_one_left] at n2
  rw [c2, Mat.bdim_one_left] at e2
  simp only [Option.some.injEq] at n2 e2
  refine ⟨?_, .inl (by omega)⟩
  rw [c1] at e1
  unfold Mat.bdim at D1 e1 n1
  split_ifs at D1 e1 n1 <;> simp only [Option.some.injEq] at D1 e1 n1 <;> omega

theorem list_range_sum {α : Type} [AddCommMonoid α] (g : ℕ → α) (n : ℕ) :
    ((List.range n).map g).sum = ∑ i ∈ Finset.range n, g i := by
  induction n with
  | zero => simp
  | succ n ih => rw [List.range_succ, List.map_append, List.sum_append, ih, Finset.sum_range_succ]; simp

theorem coeff_fin (a : ℝ) (g : ℕ → ℝ) (N n : ℕ) (hN : 0 < N) :
    coeff ((List.range N).map fun k => ((a, Flt.fin (g k), ()) : ℝ × Flt ℝ × Unit)) (a, .fin (g n), ()) =
      Real.exp (-(a * g n)) / ∑ k ∈ Finset.range N, Real.exp (-(a * g k)) := by
  have hz : lseWeights ((List.range N).map fun k => ((a, Flt.fin (g k), ()) : ℝ × Flt ℝ × Unit)) =
      Real.log (∑ k ∈ Finset.range N, Real.exp (-(a * g k))) := by
    rw [← list_range_sum]
    simp only [lseWeights, List.map_map, Function.comp_def, expWeight, neg_mul]
  have hpos : 0 < ∑ k ∈ Finset.range N, Real.exp (-(a * g k)) :=
    Finset.sum_pos (fun _ _ => Real.exp_pos _) ⟨0, Finset.mem_range.2 hN⟩
  simp only [coeff, hz]
  rw [Real.exp_sub, Real.exp_log hpos, neg_mul]

/-- Covariance noise when all runs are active, nothing is batched and all energies are finite. -/
theorem covNoise_full {eigh : Matrix ι ι ℝ → (ι → ℝ) × Matrix ι ι ℝ} {smp : ℕ → ℕ → ℕ → ι → ℝ} {b : Bool}
    {s : St ℝ (ι → ℝ)} {d : Mat (ι → ℝ)} (hd : s.drift = some d) (hN : 0 < s.energy.cols)
    (h1 : d.rows = s.M) (h2 : d.cols = s.energy.cols) (h3 : s.energy.rows = s.M) (e : ℕ → ℕ → ℝ)
    (he : ∀ m < s.M, ∀ n < s.energy.cols, s.energy.get m n = .fin (e m n)) :
    ∃ n, covNoise eigh b smp s = .ok n ∧ n.rows = d.rows ∧ n.cols = d.cols ∧ ∀ m < d.rows, ∀ k < d.cols,
      n.get m k = Real.sqrt (2 * s.dt * (if b then 1 + s.alpha m else 1)) •
        (matSqrt eigh (weightedCov (s.alpha m) d.cols (e m) (d.get m) 0)).mulVec (smp s.draws m k) := by
  have hco : ∃ co, covCoeffs s = .ok co ∧ co.rows = s.M ∧ co.cols = d.cols ∧ ∀ m < s.M, ∀ n < d.cols,
      co.get m n = Real.exp (-(s.alpha m * e m n)) / ∑ k ∈ Finset.range d.cols, Real.exp (-(s.alpha m * e m k)) := by
    unfold covCoeffs
    rw [Mat.bin_of_dims (r := s.M) (c := s.energy.cols) (by simp only; rw [h3]; exact Mat.bdim_self _)
      (by simp only; exact Mat.bdim_one_left _)]
    refine ⟨_, rfl, rfl, h2.symm, ?_⟩
    intro m hm n hn
    rw [h2] at hn
    simp only [Mat.row]
    rw [Mat.bpos_lt hm, Mat.bpos_lt (by omega : m < s.energy.rows), Mat.bpos_lt hn, he m hm n hn, h2,
      ← coeff_fin _ _ _ _ hN]
    congr 1
    apply List.map_congr_left
    intro k hk
    have hk := List.mem_range.1 hk
    rw [Mat.bpos_lt hk, he m hm k hk]
  obtain ⟨co, hco, c1, c2, c3⟩ := hco
  unfold covNoise updateCovariance
  simp only [hd, hco, bind, Except.bind]
  rw [Mat.bin_of_dims (r := d.rows) (c := d.cols) (by simp only [Mat.map]; rw [c1, h1]; exact Mat.bdim_self _)
    (by simp only [Mat.map]; rw [c2]; exact Mat.bdim_self _)]
  simp only [pure, Except.pure]
  rw [Mat.bin_of_dims (r := d.rows) (c := d.cols) (by simp only; exact Mat.bdim_self _)
    (by simp only; exact Mat.bdim_one_left _)]
  simp only
  have hb : Mat.bdim (covLamdaInv b s).rows d.rows = some d.rows := by
    unfold covLamdaInv
    split
    · simp only; rw [h1]; exact Mat.bdim_self _
    · exact Mat.bdim_one_left _
  rw [Mat.bin_of_dims (r := d.rows) (c := d.cols) (by simp only; exact hb)
    (by unfold covLamdaInv; split <;> exact Mat.bdim_one_left _)]
  refine ⟨_, rfl, rfl, rfl, ?_⟩
  intro m hm k hk
  simp only [Mat.map, Mat.row]
  rw [Mat.bpos_lt hm, Mat.bpos_lt hk]
  have hl : (covLamdaInv b s).get (Mat.bpos (covLamdaInv b s).rows m) (Mat.bpos (covLamdaInv b s).cols k) =
      if b then 1 + s.alpha m else 1 := by
    unfold covLamdaInv
    cases b
    · rfl
    · simp only [if_true]
      rw [Mat.bpos_lt (by omega)]
  have hcov : (List.map (fun j => co.get (Mat.bpos co.rows m) (Mat.bpos co.cols j) •
      outer (d.get m (Mat.bpos d.cols j))) (List.range d.cols)).sum =
      weightedCov (s.alpha m) d.cols (e m) (d.get m) 0 := by
    rw [list_range_sum]
    ext p q
    rw [Matrix.sum_apply]
    simp only [weightedCov, Matrix.of_apply]
    refine Finset.sum_congr rfl fun j hj => ?_
    have hj := Finset.mem_range.1 hj
    rw [Mat.bpos_lt (by omega : m < co.rows), Mat.bpos_lt (by omega : j < co.cols), Mat.bpos_lt hj,
      c3 m (by omega) j hj]
    simp [outer]
  rw [hl, Mat.bpos_lt hm, Mat.bpos_lt hk, Mat.bpos_lt hm, hcov]

end cov
end Verif
