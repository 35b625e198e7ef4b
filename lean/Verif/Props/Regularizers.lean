import Verif.Proofs.Regularizers

/-! Properties C43 (regularised objective) and C44 (regularisation parameter schedule). -/

set_option linter.unusedSectionVars false

namespace Verif

open scoped BigOperators

variable {d : ℕ}

/-- **C43, value.** On an ensemble with as many runs as before (any number at the first call) the regularised objective is
`f + lamda_m R^p`, entry by entry, and `lamda` does not change. -/
theorem C43_value (f R : (Fin d → ℝ) → ℝ) (p : ℝ) (lam : Lam) (x : Mat (Fin d → ℝ)) (h : lam.fits x.rows) :
    ∃ y lam', regCall f R p lam x = .ok (y, lam') ∧ y.rows = x.rows ∧ y.cols = x.cols ∧ lam'.fits x.rows ∧
      ∀ m < x.rows, lam'.at m = lam.at m ∧ ∀ n, y.get m n = f (x.get m n) + lam.at m * R (x.get m n) ^ p := by
  refine ⟨_, _, regCall_ok (Lam.fits_length h), rfl, rfl, Lam.fits_length h, fun m hm => ⟨?_, fun n => ?_⟩⟩
  · exact Lam.broadcast_at hm
  · show _ = _
    simp only [brow_lt hm, Lam.broadcast_at hm]

/-- **C43, bounds.** It equals `f` where the regulariser vanishes (`p > 0`), is at least `f` for `lamda ≥ 0` and `R ≥ 0`, and is
non-decreasing in `lamda`. -/
theorem C43_bounds (f R : (Fin d → ℝ) → ℝ) (p : ℝ) (hp : 0 < p) (lam lam₂ : Lam) (x : Mat (Fin d → ℝ))
    (h : lam.fits x.rows) (h₂ : lam₂.fits x.rows) (y y₂ : Mat ℝ) (l l₂ : Lam)
    (hy : regCall f R p lam x = .ok (y, l)) (hy₂ : regCall f R p lam₂ x = .ok (y₂, l₂)) (m n : ℕ) (hm : m < x.rows) :
    (R (x.get m n) = 0 → y.get m n = f (x.get m n)) ∧
    (0 ≤ lam.at m → 0 ≤ R (x.get m n) → f (x.get m n) ≤ y.get m n) ∧
    (0 < lam.at m → 0 < R (x.get m n) → f (x.get m n) < y.get m n) ∧
    (lam.at m ≤ lam₂.at m → 0 ≤ R (x.get m n) → y.get m n ≤ y₂.get m n) := by
  obtain ⟨z, lz, hz, -, -, -, z1⟩ := C43_value f R p lam x h
  obtain ⟨z₂, lz₂, hz₂, -, -, -, z2⟩ := C43_value f R p lam₂ x h₂
  rw [hy] at hz
  rw [hy₂] at hz₂
  cases hz
  cases hz₂
  rw [(z1 m hm).2 n, (z2 m hm).2 n]
  refine ⟨fun h0 => by rw [h0, Real.zero_rpow hp.ne']; ring, fun h1 h2 => ?_, fun h1 h2 => ?_, fun h1 h2 => ?_⟩
  · have := mul_nonneg h1 (Real.rpow_nonneg h2 p)
    linarith
  · have := mul_pos h1 (Real.rpow_pos_of_pos h2 p)
    linarith
  · have := mul_le_mul_of_nonneg_right h1 (Real.rpow_nonneg h2 p)
    linarith

/-- **C43, membership.** The built-in regularisers are non-negative (for `lamda ≥ 0`) and vanish exactly on their constraint set; the plane
with a number as normal means the plane with all coefficients equal to it. -/
theorem C43_membership (x : Fin d → ℝ) :
    (∀ (a : Fin d → ℝ) (b : ℝ), a ≠ 0 → 0 ≤ regPlane (.vec a) b x ∧ (regPlane (.vec a) b x = 0 ↔ x ∈ planeSet a b)) ∧
    (∀ a b : ℝ, a ≠ 0 → 0 ≤ regPlane (.scalar a) b x ∧ (regPlane (.scalar a) b x = 0 ↔ x ∈ planeSet (fun _ => a) b)) ∧
    (∀ r : ℝ, 0 ≤ regSphere r x ∧ (regSphere r x = 0 ↔ x ∈ sphereSet r)) ∧
    (∀ A b c, 0 ≤ regQuadric A b c x ∧ (regQuadric A b c x = 0 ↔ x ∈ quadricSet A b c)) ∧
    (∀ l : ℝ, 0 < l → 0 ≤ regL1 l x ∧ (regL1 l x = 0 ↔ x = 0)) ∧
    (∀ l : ℝ, 0 < l → 0 ≤ regL0 l x ∧ (x = 0 → regL0 l x = 0)) := by
  refine ⟨?_, ?_, ?_, ?_, ?_, ?_⟩
  · intro a b ha
    have hpos : 0 < (Normal.vec a).norm := by
      refine Real.sqrt_pos.2 ?_
      obtain ⟨i, hi⟩ := Function.ne_iff.1 ha
      exact Finset.sum_pos' (fun j _ => sq_nonneg _) ⟨i, Finset.mem_univ _, pow_pos_of_ne hi⟩
    refine ⟨by unfold regPlane; positivity, ?_⟩
    unfold regPlane
    rw [div_eq_zero_iff, or_iff_left hpos.ne', abs_eq_zero, sub_eq_zero]
    rfl
  · intro a b ha
    have hpos : 0 < (Normal.scalar (d := d) a).norm := abs_pos.2 ha
    refine ⟨by unfold regPlane; positivity, ?_⟩
    unfold regPlane
    rw [div_eq_zero_iff, or_iff_left hpos.ne', abs_eq_zero, sub_eq_zero]
    rfl
  · intro r
    refine ⟨abs_nonneg _, ?_⟩
    unfold regSphere sphereSet
    rw [abs_eq_zero, sub_eq_zero, Set.mem_ofPred_eq, eucl_zero]
  · intro A b c
    refine ⟨abs_nonneg _, ?_⟩
    unfold regQuadric quadricSet
    rw [abs_eq_zero, Set.mem_ofPred_eq]
    have e1 : ∑ i, x i * ∑ j, A i j * x j = ∑ i, ∑ j, x i * A i j * x j := by
      refine Finset.sum_congr rfl fun i _ => ?_
      rw [Finset.mul_sum]
      exact Finset.sum_congr rfl fun j _ => by ring
    have e2 : ∑ i, x i * b i = ∑ i, b i * x i := Finset.sum_congr rfl fun i _ => by ring
    rw [e1, e2]
  · intro l hl
    refine ⟨mul_nonneg hl.le (Finset.sum_nonneg fun i _ => abs_nonneg _), ?_⟩
    unfold regL1
    rw [mul_eq_zero, or_iff_right hl.ne', Finset.sum_eq_zero_iff_of_nonneg fun i _ => abs_nonneg _]
    constructor
    · intro h
      funext i
      exact abs_eq_zero.1 (h i (Finset.mem_univ _))
    · rintro rfl
      simp
  · intro l hl
    refine ⟨mul_nonneg hl.le (Nat.cast_nonneg _), ?_⟩
    rintro rfl
    exact regL0_zero l _ fun i => by simp [isClose0]

/-- **C43, distance.** For a vector normal `HyperplaneDistance` is the Euclidean distance to the plane, and `SphereDistance` is the
Euclidean distance to the sphere (`d ≥ 1`, `r ≥ 0`). -/
theorem C43_distance (x : Fin d → ℝ) :
    (∀ (a : Fin d → ℝ) (b : ℝ), a ≠ 0 → IsDist x (planeSet a b) (regPlane (.vec a) b x)) ∧
    (∀ r : ℝ, 1 ≤ d → 0 ≤ r → IsDist x (sphereSet r) (regSphere r x)) := by
  refine ⟨?_, ?_⟩
  · intro a b ha
    have hs : 0 < ∑ i, a i ^ 2 := by
      obtain ⟨i, hi⟩ := Function.ne_iff.1 ha
      exact Finset.sum_pos' (fun j _ => sq_nonneg _) ⟨i, Finset.mem_univ _, pow_pos_of_ne hi⟩
    have hpos : 0 < √(∑ i, a i ^ 2) := Real.sqrt_pos.2 hs
    refine ⟨?_, ?_⟩
    · intro y hy
      have hy' : ∑ i, a i * y i = b := hy
      unfold regPlane
      rw [show (Normal.vec a).norm = √(∑ i, a i ^ 2) from rfl, div_le_iff₀ hpos]
      have e : ∑ i, (Normal.vec a).coord i * x i - b = ∑ i, a i * (x i - y i) := by
        rw [← hy', ← Finset.sum_sub_distrib]
        exact Finset.sum_congr rfl fun i _ => by show a i * x i - _ = _; ring
      rw [e]
      rw [abs_le]
      constructor
      · have := Real.sum_mul_le_sqrt_mul_sqrt Finset.univ (fun i => -(a i)) fun i => x i - y i
        simp only [neg_mul, Finset.sum_neg_distrib, neg_sq] at this
        unfold euclidNorm
        linarith
      · have := Real.sum_mul_le_sqrt_mul_sqrt Finset.univ a fun i => x i - y i
        unfold euclidNorm
        linarith
    · set t := (∑ i, a i * x i - b) / ∑ i, a i ^ 2 with ht
      refine ⟨fun i => x i - t * a i, ?_, ?_⟩
      · show ∑ i, a i * (x i - t * a i) = b
        have : ∑ i, a i * (x i - t * a i) = ∑ i, a i * x i - t * ∑ i, a i ^ 2 := by
          rw [Finset.mul_sum, ← Finset.sum_sub_distrib]
          exact Finset.sum_congr rfl fun i _ => by ring
        rw [this, ht, div_mul_cancel₀ _ hs.ne']
        ring
      · unfold euclidNorm regPlane
        have : ∑ i, (x i - (x i - t * a i)) ^ 2 = t ^ 2 * ∑ i, a i ^ 2 := by
          rw [Finset.mul_sum]
          exact Finset.sum_congr rfl fun i _ => by ring
        have hn : (Normal.vec a).norm = √(∑ i, a i ^ 2) := rfl
        have hc : ∀ i, (Normal.vec a).coord i = a i := fun _ => rfl
        simp only [hc]
        rw [this, hn, Real.sqrt_mul (sq_nonneg _), Real.sqrt_sq_eq_abs, ht, abs_div, abs_of_pos hs, div_mul_eq_mul_div,
          div_eq_div_iff hs.ne' hpos.ne', mul_assoc, Real.mul_self_sqrt hs.le]
  · intro r hd hr
    have hx0 : √(∑ i, x i ^ 2) = euclidNorm x 0 := (eucl_zero x).symm
    refine ⟨?_, ?_⟩
    · intro y hy
      have hy' : euclidNorm y 0 = r := hy
      unfold regSphere
      rw [hx0, ← hy', euclid_norm, euclid_norm, euclid_norm]
      have := abs_norm_sub_norm_le (WithLp.toLp 2 x : EuclideanSpace ℝ (Fin d)) (WithLp.toLp 2 y)
      simpa using this
    · by_cases h0 : ∑ i, x i ^ 2 = 0
      · have hxz : ∀ i, x i = 0 := by
          intro i
          have := (Finset.sum_eq_zero_iff_of_nonneg (fun i _ => sq_nonneg (x i))).1 h0 i (Finset.mem_univ _)
          exact pow_eq_zero_iff two_ne_zero |>.1 this
        have key : euclidNorm (fun i : Fin d => if i = ⟨0, hd⟩ then r else 0) 0 = r := by
          rw [eucl_zero]
          rw [Finset.sum_eq_single (⟨0, hd⟩ : Fin d)]
          · simp [Real.sqrt_sq hr]
          · intro j _ hj
            simp [hj]
          · simp
        refine ⟨_, key, ?_⟩
        unfold regSphere
        rw [h0, Real.sqrt_zero, zero_sub, abs_neg, abs_of_nonneg hr]
        refine Eq.trans ?_ key
        unfold euclidNorm
        congr 1
        exact Finset.sum_congr rfl fun i _ => by rw [hxz i]; simp
      · have hs : 0 < ∑ i, x i ^ 2 := lt_of_le_of_ne (Finset.sum_nonneg fun i _ => sq_nonneg _) (Ne.symm h0)
        have hq : 0 < √(∑ i, x i ^ 2) := Real.sqrt_pos.2 hs
        refine ⟨fun i => r / √(∑ i, x i ^ 2) * x i, ?_, ?_⟩
        · show euclidNorm _ 0 = r
          rw [eucl_zero]
          have : ∑ i, (r / √(∑ i, x i ^ 2) * x i) ^ 2 = r ^ 2 := by
            have e : ∀ i, (r / √(∑ i, x i ^ 2) * x i) ^ 2 = r ^ 2 / (∑ i, x i ^ 2) * x i ^ 2 := by
              intro i
              rw [mul_pow, div_pow, Real.sq_sqrt hs.le]
            rw [Finset.sum_congr rfl fun i _ => e i, ← Finset.mul_sum, div_mul_cancel₀ _ hs.ne']
          rw [this, Real.sqrt_sq hr]
        · unfold euclidNorm regSphere
          have : ∑ i, (x i - r / √(∑ i, x i ^ 2) * x i) ^ 2 = (1 - r / √(∑ i, x i ^ 2)) ^ 2 * ∑ i, x i ^ 2 := by
            rw [Finset.mul_sum]
            exact Finset.sum_congr rfl fun i _ => by ring
          rw [this, Real.sqrt_mul (sq_nonneg _), Real.sqrt_sq_eq_abs]
          rw [← abs_of_pos hq, ← abs_mul, abs_of_pos hq]
          congr 1
          field_simp

/-- **C43 fails for `L0`.** The regulariser vanishes at points that are not zero. -/
theorem C43_L0_false : ∃ x : Fin 1 → ℝ, x ≠ 0 ∧ regL0 1 x = 0 := by
  refine ⟨fun _ => 1 / 10 ^ 9, fun h => ?_, ?_⟩
  · have := congrFun h 0
    norm_num at this
  · refine regL0_zero 1 _ fun i => ?_
    simp only [isClose0]
    rw [abs_of_pos (by norm_num)]
    norm_num

/-- **C43, default plane.** With the default normal `a = 1` and `d = 4` the value is twice the distance to the plane `x_1 + ... + x_4 = 0`. -/
theorem C43_default_plane_false : ∃ x : Fin 4 → ℝ, ∃ δ, IsDist x (planeSet (fun _ => 1) 0) δ ∧ 0 < δ ∧ regPlane (.scalar 1) 0 x = 2 * δ := by
  refine ⟨fun _ => 1, _, (C43_distance (d := 4) fun _ => 1).1 (fun _ => 1) 0 (fun h => by simpa using congrFun h 0), ?_, ?_⟩
  · have : √(4 : ℝ) = 2 := by rw [show (4 : ℝ) = 2 ^ 2 by norm_num, Real.sqrt_sq (by norm_num)]
    simp [regPlane, Normal.coord, Normal.norm, this]
  · have : √(4 : ℝ) = 2 := by rw [show (4 : ℝ) = 2 ^ 2 by norm_num, Real.sqrt_sq (by norm_num)]
    simp [regPlane, Normal.coord, Normal.norm, this]
    norm_num

/-- **C43 fails when runs have stopped.** After a call on `M` runs, evaluating `1 < k < M` active runs raises, and evaluating a single
one returns `M` rows. -/
theorem C43_stopped_false (f R : (Fin d → ℝ) → ℝ) (p : ℝ) (l : List ℝ) (x : Mat (Fin d → ℝ)) (h : x.rows < l.length) :
    (1 < x.rows → regCall f R p (.col l) x = .error .value) ∧
    (x.rows = 1 → ∃ y lam, regCall f R p (.col l) x = .ok (y, lam) ∧ y.rows = l.length ∧ y.rows ≠ x.rows) := by
  refine ⟨fun h1 => ?_, fun h1 => ?_⟩
  · have e : bcast l.length x.rows = .error .value := by
      unfold bcast
      rw [if_neg (by omega), if_neg (by omega), if_neg (by omega)]
    unfold regCall
    simp only [Lam.broadcast]
    rw [e]
    rfl
  · have e : bcast l.length x.rows = .ok l.length := by
      unfold bcast
      rw [if_neg (by omega), if_neg (by omega), if_pos h1]
    have : ∃ y lam, regCall f R p (.col l) x = .ok (y, lam) ∧ y.rows = l.length := by
      unfold regCall
      simp only [Lam.broadcast]
      rw [e]
      exact ⟨_, _, rfl, rfl⟩
    obtain ⟨y, lam, h2, h3⟩ := this
    exact ⟨y, lam, h2, h3, by omega⟩

/-- C43: two runs of two particles in the plane, `f = 0`, `R` the distance to the unit sphere, `lamda = 3`. -/
example : (Lam.num 3).fits 2 ∧ ((0 : ℝ) < 2) ∧ (![1, 1] : Fin 2 → ℝ) ≠ 0 :=
  ⟨trivial, by norm_num, fun h => by simpa using congrFun h 0⟩

/-! ### C44 -/

/-- **C44, one update.** `lamda` of a run is multiplied by `factor_lamda` (and capped by `lamda_max`) exactly if the run violates the
feasibility test, otherwise it stays; `theta` grows by `factor_theta` if the test is passed and shrinks otherwise. -/
theorem C44_update (c : RegCfg) (hc : c.Good) (m : ℕ → ℝ) (s : RegSt) (i : ℕ) (ht : 0 < s.theta i) (hm : 0 ≤ m i)
    (hl : 0 ≤ s.lamda i) (hL : s.lamda i ≤ c.lamdaMax) :
    (Violates (s.theta i) (m i) → (lamUpdate c m s).lamda i = min (s.lamda i * c.factorLamda) c.lamdaMax ∧
      (lamUpdate c m s).theta i = min (s.theta i / c.factorTheta) c.thetaMax) ∧
    (¬ Violates (s.theta i) (m i) → (lamUpdate c m s).lamda i = s.lamda i ∧
      (lamUpdate c m s).theta i = s.theta i * c.factorTheta) := by
  have hv := violates_iff ht hm
  refine ⟨fun h => ?_, fun h => ?_⟩
  · rw [hv] at h
    simp only [lamUpdate, if_neg h]
    exact ⟨by rw [max_eq_left (mul_nonneg hl (by linarith [hc.lamda]))], trivial⟩
  · rw [hv, not_not] at h
    simp only [lamUpdate, if_pos h]
    exact ⟨by rw [max_eq_left hl, min_eq_left hL], trivial⟩

/-- **C44, strict growth.** If a run violates the test, its `lamda` is positive and `factor_lamda * lamda` is within the bound, then `lamda`
is multiplied by exactly `factor_lamda`; a change of `lamda` only happens to violating runs. -/
theorem C44_exactly (c : RegCfg) (hc : c.Good) (h1 : 1 < c.factorLamda) (m : ℕ → ℝ) (s : RegSt) (i : ℕ) (ht : 0 < s.theta i) (hm : 0 ≤ m i)
    (hl : 0 < s.lamda i) (hL : s.lamda i * c.factorLamda ≤ c.lamdaMax) :
    Violates (s.theta i) (m i) ↔ (lamUpdate c m s).lamda i = s.lamda i * c.factorLamda := by
  have hle : s.lamda i ≤ c.lamdaMax := le_trans (le_mul_of_one_le_right hl.le h1.le) hL
  obtain ⟨u1, u2⟩ := C44_update c hc m s i ht hm hl.le hle
  constructor
  · intro h
    rw [(u1 h).1, min_eq_left hL]
  · intro h
    by_contra hv
    rw [(u2 hv).1] at h
    have : s.lamda i < s.lamda i * c.factorLamda := lt_mul_of_one_lt_right hl h1
    linarith

/-- **C44, invariant.** Over any sequence of updates `lamda` never decreases, stays in `[0, lamda_max]`, and `theta` stays positive.

The full claim also bounds `theta` by `theta_max`; that part is false, see `C44_theta_false`. -/
theorem C44_partial (c : RegCfg) (hc : c.Good) (ms : List (ℕ → ℝ)) (s : RegSt) (i : ℕ) (ht : 0 < s.theta i)
    (hl : 0 ≤ s.lamda i) (hL : s.lamda i ≤ c.lamdaMax) :
    s.lamda i ≤ (regRun c ms s).lamda i ∧ (regRun c ms s).lamda i ≤ c.lamdaMax ∧ 0 < (regRun c ms s).theta i := by
  induction ms generalizing s with
  | nil => exact ⟨le_refl _, hL, ht⟩
  | cons m ms ih =>
    have hf : (0 : ℝ) < c.factorTheta := by linarith [hc.theta]
    have h1 : s.lamda i ≤ (lamUpdate c m s).lamda i := by
      simp only [lamUpdate]
      split
      · exact le_min (le_max_left _ _) hL
      · exact le_min (le_trans (le_mul_of_one_le_right hl hc.lamda) (le_max_left _ _)) hL
    have h2 : (lamUpdate c m s).lamda i ≤ c.lamdaMax := min_le_right _ _
    have h3 : 0 < (lamUpdate c m s).theta i := by
      simp only [lamUpdate]
      split
      · exact mul_pos ht hf
      · exact lt_min (div_pos ht hf) hc.thetaMax
    obtain ⟨i1, i2, i3⟩ := ih (lamUpdate c m s) h3 (hl.trans h1) h2
    exact ⟨h1.trans i1, i2, i3⟩

/-- What holds for `theta`: right after an update in which the run violated the test `theta ≤ theta_max`, and over `n` updates `theta` is at
most `max theta theta_max * factor_theta ^ n`. -/
theorem C44_theta_partial (c : RegCfg) (hc : c.Good) (ms : List (ℕ → ℝ)) (s : RegSt) (i : ℕ) (ht : 0 < s.theta i) :
    (∀ m : ℕ → ℝ, 0 ≤ m i → Violates (s.theta i) (m i) → (lamUpdate c m s).theta i ≤ c.thetaMax) ∧
    (regRun c ms s).theta i ≤ max (s.theta i) c.thetaMax * c.factorTheta ^ ms.length := by
  refine ⟨?_, ?_⟩
  · intro m hm h
    rw [violates_iff ht hm] at h
    simp only [lamUpdate, if_neg h]
    exact min_le_right _ _
  · have hf : (1 : ℝ) ≤ c.factorTheta := hc.theta
    have key : ∀ (ms : List (ℕ → ℝ)) (s : RegSt) (B : ℝ), c.thetaMax ≤ B → 0 < s.theta i → s.theta i ≤ B →
        (regRun c ms s).theta i ≤ B * c.factorTheta ^ ms.length := by
      intro ms
      induction ms with
      | nil => intro s B _ _ hB; simpa [regRun] using hB
      | cons m ms ih =>
        intro s B hT h0 hB
        have hB0 : 0 < B := lt_of_lt_of_le h0 hB
        have hBf : B ≤ B * c.factorTheta := le_mul_of_one_le_right hB0.le hf
        have h3 : 0 < (lamUpdate c m s).theta i := by
          simp only [lamUpdate]
          split
          · exact mul_pos h0 (by linarith)
          · exact lt_min (div_pos h0 (by linarith)) hc.thetaMax
        have h4 : (lamUpdate c m s).theta i ≤ B * c.factorTheta := by
          simp only [lamUpdate]
          split
          · exact mul_le_mul_of_nonneg_right hB (by linarith)
          · exact (min_le_right _ _).trans (hT.trans hBf)
        have := ih (lamUpdate c m s) (B * c.factorTheta) (hT.trans hBf) h3 h4
        show (regRun c ms (lamUpdate c m s)).theta i ≤ _
        rw [List.length_cons, pow_succ', ← mul_assoc]
        exact this
    exact key ms s _ (le_max_right _ _) ht (le_max_left _ _)

/-- **C44 is false for `theta`.** If a run passes the test in `n` updates (its mean regulariser is zero) then `theta` is `theta_0 factor_theta^n`;
with the default parameters it exceeds `theta_max` after finitely many updates. -/
theorem C44_theta_false : ∃ (c : RegCfg) (n : ℕ), c = ⟨100000, 1.1, 1.1, 10 ^ 15⟩ ∧ c.Good ∧
    c.thetaMax < (regRun c (List.replicate n fun _ => 0) (RegSt.init 1 1)).theta 0 := by
  have key : ∀ (c : RegCfg) (n : ℕ) (s : RegSt), (regRun c (List.replicate n fun _ => 0) s).theta 0 = s.theta 0 * c.factorTheta ^ n := by
    intro c n
    induction n with
    | zero => intro s; simp [regRun]
    | succ n ih =>
      intro s
      show (regRun c (List.replicate n fun _ => 0) (lamUpdate c (fun _ => 0) s)).theta 0 = _
      rw [ih]
      have : (lamUpdate c (fun _ => 0) s).theta 0 = s.theta 0 * c.factorTheta := by
        simp only [lamUpdate]
        rw [if_pos (by positivity)]
      rw [this, pow_succ']
      ring
  obtain ⟨n, hn⟩ := pow_unbounded_of_one_lt (100000 : ℝ) (show (1 : ℝ) < 1.1 by norm_num)
  refine ⟨_, n, rfl, ⟨by norm_num, by norm_num, by norm_num, by norm_num⟩, ?_⟩
  rw [key]
  simpa [RegSt.init] using hn

/-- **C44, the mean that is tested.** Both rules give a mean of the regulariser over the particles of the run: if all its values lie in `[lo, hi]`, so
does the mean (at least one particle); in particular a run whose particles are all feasible passes the test. -/
theorem C44_mean (R : (Fin d → ℝ) → ℝ) (alpha : ℕ → ℝ) (e : ℕ → ℕ → ℝ) (x : Mat (Fin d → ℝ)) (m : ℕ) (hN : 1 ≤ x.cols) (lo hi : ℝ)
    (h : ∀ n < x.cols, lo ≤ R (x.get m n) ∧ R (x.get m n) ≤ hi) :
    (lo ≤ ruleSimple R x m ∧ ruleSimple R x m ≤ hi) ∧ (lo ≤ ruleWeighted R alpha e x m ∧ ruleWeighted R alpha e x m ≤ hi) := by
  have hc : (0 : ℝ) < x.cols := by exact_mod_cast hN
  have hw : 0 < ∑ n ∈ Finset.range x.cols, Real.exp (-alpha m * e m n) :=
    Finset.sum_pos (fun n _ => Real.exp_pos _) ⟨0, Finset.mem_range.2 (by omega)⟩
  refine ⟨⟨?_, ?_⟩, ?_, ?_⟩
  · unfold ruleSimple
    rw [le_div_iff₀ hc]
    have := Finset.card_nsmul_le_sum (Finset.range x.cols) (fun n => R (x.get m n)) lo fun n hn => (h n (Finset.mem_range.1 hn)).1
    simpa [mul_comm] using this
  · unfold ruleSimple
    rw [div_le_iff₀ hc]
    have := Finset.sum_le_card_nsmul (Finset.range x.cols) (fun n => R (x.get m n)) hi fun n hn => (h n (Finset.mem_range.1 hn)).2
    simpa [mul_comm] using this
  · unfold ruleWeighted
    rw [le_div_iff₀ hw, Finset.mul_sum]
    refine Finset.sum_le_sum fun n hn => ?_
    rw [mul_comm]
    exact mul_le_mul_of_nonneg_left (h n (Finset.mem_range.1 hn)).1 (Real.exp_pos _).le
  · unfold ruleWeighted
    rw [div_le_iff₀ hw, Finset.mul_sum]
    refine Finset.sum_le_sum fun n hn => ?_
    rw [mul_comm hi]
    exact mul_le_mul_of_nonneg_left (h n (Finset.mem_range.1 hn)).2 (Real.exp_pos _).le

/-- C44: the default configuration; a run with mean 2 violates the test at `theta = 1`. -/
example : (⟨100000, 1.1, 1.1, 10 ^ 15⟩ : RegCfg).Good ∧ 0 < (RegSt.init 1 1).theta 0 ∧ (RegSt.init 1 1).lamda 0 ≤ 10 ^ 15 ∧ Violates 1 2 :=
  ⟨⟨by norm_num, by norm_num, by norm_num, by norm_num⟩, by simp [RegSt.init], by simp only [RegSt.init]; norm_num, by norm_num [Violates]⟩

end Verif
