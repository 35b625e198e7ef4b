import Verif.Proofs.Sim
import Verif.Model.Noise

/-! Covariance noise and Heaviside corrections of a run among others and of the run alone. Helper lemmas. -/

set_option linter.unusedSectionVars false

namespace Verif

section
variable {ι : Type} [Fintype ι] [DecidableEq ι]

theorem Mat.bpos_one (i : ℕ) : Mat.bpos 1 i = 0 := by simp [Mat.bpos]

/-- The weights of one run. -/
theorem covCoeffs_dims {s : St ℝ (ι → ℝ)} (he : s.energy.rows = s.M) :
    ∃ co, covCoeffs s = .ok co ∧ co.rows = s.M ∧ co.cols = s.energy.cols ∧ ∀ m < s.M, ∀ j < s.energy.cols,
      co.get m j = coeff ((List.range s.energy.cols).map fun k => (s.alpha m, s.energy.get m k, ())) (s.alpha m, s.energy.get m j, ()) := by
  have hb := Mat.bin_of_dims (f := fun (a : ℝ) (e : Flt ℝ) => (a, e, ())) (a := ⟨s.M, 1, fun i _ => s.alpha i⟩) (b := s.energy) (r := s.M) (c := s.energy.cols)
    (by simp only [he]; exact Mat.bdim_self _) (by exact Mat.bdim_one_left _)
  have hc : ∃ co, covCoeffs s = .ok co := by
    simp only [covCoeffs, hb, bind, Except.bind, pure, Except.pure]
    exact ⟨_, rfl⟩
  obtain ⟨co, hc⟩ := hc
  refine ⟨co, hc, ?_⟩
  simp only [covCoeffs, hb, bind, Except.bind, pure, Except.pure] at hc
  injection hc with hc
  subst hc
  refine ⟨rfl, rfl, ?_⟩
  intro m hm j hj
  have key : ∀ k < s.energy.cols, (s.alpha (Mat.bpos s.M m), s.energy.get (Mat.bpos s.energy.rows m) (Mat.bpos s.energy.cols k), ()) = (s.alpha m, s.energy.get m k, ()) := by
    intro k hk
    rw [he, Mat.bpos_lt hm, Mat.bpos_lt hk]
  simp only [Mat.row]
  rw [key j hj]
  congr 1
  apply List.map_congr_left
  intro k hk
  exact key k (List.mem_range.1 hk)

theorem Mat.bpos_range {n m k l : ℕ} (h : Mat.bdim n m = some k) (hl : l < k) : Mat.bpos n l < n ∧ Mat.bpos m l < m := by
  obtain ⟨h1, h2⟩ := Mat.bdim_eq_some h
  unfold Mat.bpos
  constructor <;> split_ifs <;> omega

/-- The noise of one particle of run `m`. -/
noncomputable def covRow (eigh : Matrix ι ι ℝ → (ι → ℝ) × Matrix ι ι ℝ) (sampling : Bool) (k : ℕ) (dt alpha : ℝ) (energy : ℕ → Flt ℝ) (ec : ℕ) (d : ℕ → ι → ℝ) (dc : ℕ) (z : ι → ℝ) :
    ι → ℝ :=
  Real.sqrt (2 * dt * (if sampling then 1 + alpha else 1)) • (matSqrt eigh (((List.range k).map fun l =>
    coeff ((List.range ec).map fun q => (alpha, energy q, ())) (alpha, energy (Mat.bpos ec l), ()) • outer (d (Mat.bpos dc l))).sum)).mulVec z

/-- If all runs are active the noise exists and is computed run by run. -/
theorem covNoise_eq (eigh : Matrix ι ι ℝ → (ι → ℝ) × Matrix ι ι ℝ) (sampling : Bool) (smp : ℕ → ℕ → ℕ → ι → ℝ) {s : St ℝ (ι → ℝ)} {d : Mat (ι → ℝ)} (hd : s.drift = some d)
    (he : s.energy.rows = s.M) (hr : d.rows = s.M) {k : ℕ} (hk : Mat.bdim d.cols s.energy.cols = some k) :
    ∃ n, covNoise eigh sampling smp s = .ok n ∧ n.rows = s.M ∧ n.cols = d.cols ∧ ∀ i < s.M, ∀ j < d.cols,
      n.get i j = covRow eigh sampling k s.dt (s.alpha i) (s.energy.get i) s.energy.cols (d.get i) d.cols (smp s.draws i j) := by
  obtain ⟨co, hco, co1, co2, co3⟩ := covCoeffs_dims (s := s) he
  have hD := Mat.bin_of_dims (f := fun (D : Matrix ι ι ℝ) c => (c : ℝ) • D) (a := d.map outer) (b := co) (r := s.M) (c := k)
    (by simp only [Mat.map, hr, co1]; exact Mat.bdim_self _) (by simp only [Mat.map, co2]; exact hk)
  have hC : ∃ C, updateCovariance eigh s = .ok C := by
    simp only [updateCovariance, hd, hco, hD, bind, Except.bind, pure, Except.pure]
    exact ⟨_, rfl⟩
  obtain ⟨C, hC⟩ := hC
  have hC' := hC
  simp only [updateCovariance, hd, hco, hD, bind, Except.bind, pure, Except.pure] at hC'
  injection hC' with hC'
  have c1 : C.rows = s.M := by rw [← hC']
  have c2 : C.cols = 1 := by rw [← hC']
  have c3 : ∀ i < s.M, C.get i 0 = matSqrt eigh (((List.range k).map fun l =>
      coeff ((List.range s.energy.cols).map fun q => (s.alpha i, s.energy.get i q, ())) (s.alpha i, s.energy.get i (Mat.bpos s.energy.cols l), ()) • outer (d.get i (Mat.bpos d.cols l))).sum) := by
    intro i hi
    rw [← hC']
    simp only [Mat.row, Mat.map]
    congr 2
    apply List.map_congr_left
    intro l hl
    rw [co1, co2, hr, Mat.bpos_lt hi, co3 i hi _ (Mat.bpos_range hk (List.mem_range.1 hl)).2]
  clear hC'
  have hE := Mat.bin_of_dims (f := fun (A : Matrix ι ι ℝ) z => A.mulVec z) (a := C) (b := ⟨d.rows, d.cols, fun i j => smp s.draws i j⟩) (r := s.M) (c := d.cols)
    (by simp only [hr, c1]; exact Mat.bdim_self _) (by simp only [c2]; exact Mat.bdim_one_left _)
  obtain ⟨e, hE⟩ : ∃ e, Mat.bin (fun (A : Matrix ι ι ℝ) z => A.mulVec z) C ⟨d.rows, d.cols, fun i j => smp s.draws i j⟩ = .ok e := ⟨_, hE⟩
  obtain ⟨E1, E2, E3⟩ := Mat.bin_ok hE
  simp only [hr, c1, c2, Mat.bdim_self, Mat.bdim_one_left, Option.some.injEq] at E1 E2
  have hN : ∃ n, Mat.bin (fun (l : ℝ) (v : ι → ℝ) => Real.sqrt (2 * s.dt * l) • v) (covLamdaInv sampling s) e = .ok n := by
    refine ⟨_, Mat.bin_of_dims (r := s.M) (c := d.cols) ?_ ?_⟩
    · rw [← E1]; unfold covLamdaInv; split_ifs
      · exact Mat.bdim_self _
      · exact Mat.bdim_one_left _
    · rw [← E2]; unfold covLamdaInv; split_ifs <;> exact Mat.bdim_one_left _
  obtain ⟨n, hN⟩ := hN
  obtain ⟨N1, N2, N3⟩ := Mat.bin_ok hN
  have l1 : (covLamdaInv sampling s).cols = 1 := by unfold covLamdaInv; split_ifs <;> rfl
  have l2 : (covLamdaInv sampling s).rows = s.M ∨ (covLamdaInv sampling s).rows = 1 := by
    unfold covLamdaInv; split_ifs
    · exact .inl rfl
    · exact .inr rfl
  refine ⟨n, by simp only [covNoise, hd, hC, hE, hN, bind, Except.bind], ?_, ?_, ?_⟩
  · rw [← E1] at N1
    rcases l2 with l2 | l2 <;> rw [l2] at N1
    · rw [Mat.bdim_self] at N1; simpa using N1.symm
    · rw [Mat.bdim_one_left] at N1; simpa using N1.symm
  · rw [← E2, l1, Mat.bdim_one_left] at N2; simpa using N2.symm
  · intro i hi j hj
    rw [N3, E3, ← E1, ← E2, c1, c2, Mat.bpos_lt hi, Mat.bpos_lt hj]
    simp only
    rw [hr, Mat.bpos_lt hi, Mat.bpos_lt hj, Mat.bpos_one, c3 i hi]
    unfold covRow
    congr 3
    unfold covLamdaInv
    split_ifs
    · simp only [Mat.bpos_lt hi]
    · rfl

/-- If the noise exists and fits the drift, all runs are active. -/
theorem covNoise_active {eigh : Matrix ι ι ℝ → (ι → ℝ) × Matrix ι ι ℝ} {sampling : Bool} {smp : ℕ → ℕ → ℕ → ι → ℝ} {s : St ℝ (ι → ℝ)} {d n : Mat (ι → ℝ)} (hd : s.drift = some d)
    (he : s.energy.rows = s.M) (h : covNoise eigh sampling smp s = .ok n) (hle : d.rows ≤ s.M) (hpos : 0 < d.rows) (hfit : n.rows = d.rows ∨ n.rows = 1) :
    d.rows = s.M ∧ ∃ k, Mat.bdim d.cols s.energy.cols = some k := by
  obtain ⟨co, hco, co1, co2, co3⟩ := covCoeffs_dims (s := s) he
  simp only [covNoise, updateCovariance, hd, bind_ok, pure_ok] at h
  obtain ⟨C, ⟨co', hco', D, hD, rfl⟩, e, he, hnn⟩ := h
  rw [hco] at hco'
  injection hco' with hco'
  subst hco'
  obtain ⟨D1, D2, -⟩ := Mat.bin_ok hD
  obtain ⟨E1, -, -⟩ := Mat.bin_ok he
  obtain ⟨N1, -, -⟩ := Mat.bin_ok hnn
  simp only [Mat.map] at D1 D2 E1
  rw [co2] at D2
  rw [co1] at D1
  have := Mat.bdim_eq_some D1
  have := Mat.bdim_eq_some E1
  have := Mat.bdim_eq_some N1
  exact ⟨by omega, _, D2⟩

/-- Covariance noise: a step can only succeed while no run has stopped, and then the noise of a run depends on its own drifts, energies and weight. -/
theorem noiseSim_cov {r : ℕ} {pos : ℕ → ℕ} {c₀ : ℕ} {env env1 : Env ℝ (ι → ℝ)} (eigh : Matrix ι ι ℝ → (ι → ℝ) × Matrix ι ι ℝ) (sampling : Bool)
    {smp smp1 : ℕ → ℕ → ℕ → ι → ℝ} (hn : ∀ s, env.noise s = covNoise eigh sampling smp s) (hn1 : ∀ s, env1.noise s = covNoise eigh sampling smp1 s)
    (hss : ∀ c j, smp1 c 0 j = smp c (pos c) j) : NoiseSim r pos c₀ env env1 := by
  intro w w1 d d1 n R _ hd hd1 hr h hfit
  rw [hn] at h
  rw [hn1]
  have hil := R.ix.il
  obtain ⟨hM, k, hk⟩ := covNoise_active hd R.er h (by rw [hr.rows]; exact R.rows_le) (by rw [hr.rows]; omega) (by rw [hr.rows]; exact hfit.1)
  have hir : pos w.draws = r := R.full (by rw [← hr.rows, hM])
  have hrM : r < w.M := by have := R.rows_le; omega
  obtain ⟨n', e1, e2, e3, e4⟩ := covNoise_eq eigh sampling smp hd R.er hM hk
  rw [h] at e1
  injection e1 with e1
  subst e1
  have hr1 : d1.rows = w1.M := by rw [hr.rows1, R.ix.rows1, R.M1]
  have hc1 : d1.cols = d.cols := by rw [hr.cols1, hr.cols, R.ix.cols]
  obtain ⟨n1, f1, f2, f3, f4⟩ := covNoise_eq eigh sampling smp1 hd1 R.er1 hr1 (by rw [hc1, R.ec1]; exact hk)
  refine ⟨n1, f1, by rw [e2, ← hM, hr.rows], by rw [e3, hr.cols], by rw [f2, R.M1, R.ix.rows1], by rw [f3, hr.cols1], fun j hj => ?_⟩
  rw [← hr.cols] at hj
  rw [f4 0 (by rw [R.M1]; omega) j (by rw [hc1]; exact hj), hir, e4 r hrM j hj, R.dt, R.alpha, R.energy, R.ec1, hc1, R.draws, hss, hir]
  unfold covRow
  congr 4
  apply List.map_congr_left
  intro l hl
  have := hr.get (Mat.bpos d.cols l) (by rw [← hr.cols]; exact (Mat.bpos_range hk (List.mem_range.1 hl)).1)
  rw [hir] at this
  rw [this]

/-- The surroundings of the run alone, for covariance noise. -/
theorem simEnv_cov {cnt : Prop} {env : Env ℝ (ι → ℝ)} {r : ℕ} {p : (ι → ℝ) → ι → ℝ} {g : List (ℝ × Flt ℝ × (ι → ℝ)) → ι → ℝ} {ga gl gs gd : ℝ → ℝ}
    {eigh : Matrix ι ι ℝ → (ι → ℝ) × Matrix ι ι ℝ} {sampling : Bool} {smp : ℕ → ℕ → ℕ → ι → ℝ}
    (hcons : env.cons = .mean g) (hnoise : ∀ s, env.noise s = covNoise eigh sampling smp s) (hpm : PostMap env p)
    (hsched : SchedLocal env ga gl gs gd) (pos : ℕ → ℕ) (c₀ : ℕ) (hcorr : CorrSim r env (env.aloneCov r pos eigh sampling smp)) (hcnt : cnt → ∀ g', env.corr ≠ .heavi g') :
    SimEnv cnt r pos c₀ p env (env.aloneCov r pos eigh sampling smp) :=
  { f := rfl, cons := ⟨g, hcons, hcons⟩, corr := hcorr, noHeavi := fun hc => ⟨hcnt hc, hcnt hc⟩
    noise := noiseSim_cov eigh sampling (smp1 := fun c _ j => smp c (pos c) j) hnoise (fun _ => rfl) (fun _ _ => rfl)
    post := hpm, post1 := hpm, norm := rfl, empty := rfl, perm := fun _ _ _ => rfl, sched := ⟨ga, gl, gs, gd, hsched, hsched⟩ }

end

section
variable {K V : Type} [Zero K] [One K] [Neg K] [Add K] [Sub K] [Mul K] [Inv K] [Div K] [NatCast K] [Pow K ℕ] [LinearOrder K] [Add V] [Sub V] [SMul K V]

/-- Heaviside corrections: a step can only succeed while no run has stopped, and then the correction of a run depends on its own energies and consensus. -/
theorem corrSim_heavi {r : ℕ} {env env1 : Env K V} {g : Flt K → V → V} (h : env.corr = .heavi g) (h1 : env1.corr = .heavi g) (hf : env1.f = env.f) : CorrSim r env env1 := by
  intro i w w1 d d1 d' t R hr hc hfit
  obtain ⟨c, c1, k1, k2, k3, k4, k5, k6, k7⟩ := R.cons
  simp only [correction, h, k1, callF, bind_ok, pure_ok] at hc
  obtain ⟨z, hz, d2, hd2, hc⟩ := hc
  injection hc with hc _
  subst hc
  obtain ⟨Z1, Z2, Z3⟩ := Mat.bin_ok hz
  obtain ⟨D1, D2, D3⟩ := Mat.bin_ok hd2
  simp only [Mat.map] at Z1 Z2 Z3
  rw [R.er, k3] at Z1
  rw [k4, Mat.bdim_one_right, Option.some.injEq] at Z2
  rw [hr.rows] at D1
  rw [hr.cols, ← Z2] at D2
  have hil := R.ix.il
  have hle := R.rows_le
  have z1 := Mat.bdim_eq_some Z1
  have x1 := Mat.bdim_eq_some D1
  have x2 := Mat.bdim_eq_some D2
  obtain ⟨g1, g2⟩ := hfit
  have hM : w.pIdx.rows = w.M := by omega
  have hir : i = r := R.full hM
  have hzr : z.rows = w.M := by rw [hM, Mat.bdim_self, Option.some.injEq] at Z1; exact Z1.symm
  have hdr : d2.rows = w.pIdx.rows := by rw [hzr, hM, Mat.bdim_self, Option.some.injEq] at D1; rw [hM]; exact D1.symm
  have hdc : d2.cols = w.pIdx.cols := by omega
  have hrM : r < w.M := by omega
  obtain ⟨ze, hze⟩ : ∃ ze, Mat.bin Flt.sub w1.energy (c1.map env1.f) = .ok ze := ⟨_, Mat.bin_of_dims (r := w1.M) (c := w1.energy.cols)
    (by simp only [Mat.map, R.er1, k5, R.M1]; exact Mat.bdim_self _) (by simp only [Mat.map, k6]; exact Mat.bdim_one_right _)⟩
  obtain ⟨Y1, Y2, Y3⟩ := Mat.bin_ok hze
  simp only [Mat.map] at Y1 Y2 Y3
  rw [R.er1, k5, R.M1, Mat.bdim_self, Option.some.injEq] at Y1
  rw [k6, Mat.bdim_one_right, Option.some.injEq] at Y2
  obtain ⟨de, hde⟩ : ∃ de, Mat.bin (fun v z => g z v) d1 ze = .ok de := ⟨_, Mat.bin_of_dims (r := 1) (c := d2.cols)
    (by rw [← Y1, hr.rows1, R.ix.rows1]; exact Mat.bdim_self _) (by rw [← Y2, hr.cols1, R.ix.cols, R.ec1]; exact D2)⟩
  obtain ⟨X1, X2, X3⟩ := Mat.bin_ok hde
  rw [← Y1, hr.rows1, R.ix.rows1, Mat.bdim_self, Option.some.injEq] at X1
  rw [← Y2, hr.cols1, R.ix.cols, R.ec1, D2, Option.some.injEq] at X2
  obtain ⟨⟨a, t1⟩, hq, rfl⟩ : ∃ q, correction env1 d1 w1 = .ok q ∧ q.1 = de := by
    simp only [correction, h1, k2, callF, hze, hde, bind, Except.bind, pure, Except.pure]
    exact ⟨_, rfl, rfl⟩
  refine ⟨a, t1.nEval, t1.log, hq.trans (by rw [← (correction_facts hq).1]), hdr, hdc, by rw [← X1, R.ix.rows1], by rw [← X2, hdc, R.ix.cols],
    fun j hj => ?_⟩
  have hb := Mat.bpos_range D2 (show j < d2.cols by omega)
  have hdj : Mat.bpos d.cols j < w.pIdx.cols := by rw [hr.cols]; exact hb.1
  have e0 : Mat.bpos ze.rows 0 = 0 := by unfold Mat.bpos; split_ifs <;> rfl
  have e1 : Mat.bpos d1.rows 0 = 0 := by unfold Mat.bpos; split_ifs <;> rfl
  have e2 : Mat.bpos w1.energy.rows 0 = 0 := by unfold Mat.bpos; split_ifs <;> rfl
  have e3 : ∀ q, Mat.bpos c1.cols q = 0 := fun q => by rw [k6]; exact Mat.bpos_one q
  have e4 : ∀ q, Mat.bpos c.cols q = 0 := fun q => by rw [k4]; exact Mat.bpos_one q
  have e5 : Mat.bpos c1.rows 0 = 0 := by unfold Mat.bpos; split_ifs <;> rfl
  rw [X3, D3, Y3, Z3, e0, e1, e2, e3, e4, e5, hf, k7, hr.rows, hzr, R.er, k3, Mat.bpos_lt hil, hM, hir, Mat.bpos_lt hrM, Mat.bpos_lt hrM, R.energy, ← Y2, ← Z2, R.ec1,
    show d1.cols = d.cols by rw [hr.cols1, hr.cols, R.ix.cols], ← hir, hr.get _ hdj]

end

end Verif
