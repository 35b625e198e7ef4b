import Verif.Proofs.Mirror

/-! Properties C30-C32: mirror maps. -/

namespace Verif

open Mirror Matrix

set_option linter.unusedSectionVars false

variable {ι : Type} [Fintype ι]

/-- **C30, projections**: a point of the set is mapped to itself — ball, hyperplane, sphere. -/
theorem C30_projections (r : ℝ) (hr : 0 < r) (theta : ι → ℝ) :
    (∀ c, InBall c r theta → ballConj r c (projGrad theta) = theta) ∧
    (∀ a b, InPlane a b theta → planeConj (some a) b (projGrad theta) = theta) ∧
    (InSphere r theta → ∀ i, sphereConj r (projGrad theta) i = .fin (theta i)) := by
  refine ⟨fun c h => ?_, fun a b h => ?_, fun h i => ?_⟩
  · simp only [projGrad]
    rw [ball_eq]
    have : euclid (theta - c) ≤ r := by
      refine le_of_sq_le_sq ?_ hr.le
      rw [euclid_sq]; exact h
    rw [max_eq_left ((div_le_one hr).2 this)]
    module
  · funext i
    simp only [projGrad, planeConj, planeInit]
    have : ∑ j, a j * theta j = b := h
    rw [this]
    simp
  · have hn : euclid theta = r := by
      have := euclid_sq theta
      rw [h] at this
      exact (sq_eq_sq₀ (euclid_nonneg _) hr.le).1 this
    simp only [projGrad, sphereConj, hn, Flt.div]
    rw [if_pos hr.ne', mul_div_cancel_left₀ _ hr.ne']

example : InBall (![1, 0] : Fin 2 → ℝ) 2 ![2, 1] ∧ InPlane (![1, 2] : Fin 2 → ℝ) 4 ![2, 1] ∧
    InSphere 5 (![3, 4] : Fin 2 → ℝ) := by
  refine ⟨?_, ?_, ?_⟩ <;> simp [InBall, InPlane, InSphere, dist2, dotProduct, Fin.sum_univ_two] <;> norm_num

/-- **C30, L2**. -/
theorem C30_l2 (lamda : ℝ) (h : lamda ≠ 0) (theta : ι → ℝ) : l2Conj lamda (l2Grad lamda theta) = theta := by
  funext i
  simp only [l2Conj, l2Grad]
  field_simp

/-- **C30, elastic net**, for `delta > 0`, `lamda ≥ 0`. -/
theorem C30_elastic (delta lamda : ℝ) (hd : 0 < delta) (hl : 0 ≤ lamda) (theta : ι → ℝ) :
    elasticConj delta lamda (elasticGrad delta lamda theta) = theta := by
  funext i
  simp only [elasticConj, elasticGrad]
  set t := theta i
  rcases lt_trichotomy t 0 with h | h | h
  · have s : npSign t = -1 := by simp [npSign, h, h.le, not_lt.2 h.le]
    have h1 : (1 / delta) * t < 0 := mul_neg_of_pos_of_neg (by positivity) h
    have h2 : (1 / delta) * t + lamda * -1 < 0 := by linarith
    have s2 : npSign ((1 / delta) * t + lamda * -1) = -1 := by
      unfold npSign; rw [if_neg (not_lt.2 h2.le), if_pos h2]
    rw [s, s2, abs_of_neg h2, max_eq_left (by linarith)]
    field_simp
    ring
  · rw [h]; simp [npSign]
  · have s : npSign t = 1 := by simp [npSign, h]
    have h1 : 0 < (1 / delta) * t := by positivity
    have h2 : 0 < (1 / delta) * t + lamda * 1 := by linarith
    have s2 : npSign ((1 / delta) * t + lamda * 1) = 1 := by
      unfold npSign; rw [if_pos h2]
    rw [s, s2, abs_of_pos h2, max_eq_left (by linarith)]
    field_simp
    ring

example : elasticConj 2 0.5 (elasticGrad 2 0.5 ![1, -3, 0]) = ![1, -3, 0] := C30_elastic _ _ (by norm_num) (by norm_num) _

/-- **C30, log barrier of the box** (partial): for every non-zero coordinate in `(-1,1)`. Missing: coordinate 0, where the code
returns NaN (`C30_log_barrier_false`). -/
theorem C30_log_barrier_partial (t : ℝ) (h : |t| < 1) (h0 : t ≠ 0) :
    ∃ y, logBarrierGrad t = .fin y ∧ logBarrierConj y = .fin t := by
  obtain ⟨h1, h2⟩ := abs_lt.1 h
  have p1 : 0 < 1 - t := by linarith
  have p2 : 0 < 1 + t := by linarith
  have e : 1 / (1 - t) + -(1 / (1 + t)) = 2 * t / ((1 - t) * (1 + t)) := by field_simp; ring
  set y := 2 * t / ((1 - t) * (1 + t)) with hy
  have hy0 : y ≠ 0 := div_ne_zero (mul_ne_zero two_ne_zero h0) (mul_ne_zero p1.ne' p2.ne')
  refine ⟨y, ?_, ?_⟩
  · simp only [logBarrierGrad, Flt.div, ne_eq, p1.ne', p2.ne', not_false_iff, if_true, Flt.sub, Flt.neg, Flt.add, e]
  · simp only [logBarrierConj, Flt.div, ne_eq, hy0, not_false_iff, if_true, Flt.mul, Flt.add]
    have hs : Real.sqrt (1 + y ^ 2) = (1 + t ^ 2) / ((1 - t) * (1 + t)) := by
      have : 1 + y ^ 2 = ((1 + t ^ 2) / ((1 - t) * (1 + t))) ^ 2 := by rw [hy]; field_simp; ring
      rw [this, Real.sqrt_sq (by positivity)]
    rw [hs, hy]
    congr 1
    field_simp
    ring

example : ∃ y, logBarrierGrad 0.5 = .fin y ∧ logBarrierConj y = .fin 0.5 :=
  C30_log_barrier_partial _ (by rw [abs_of_pos] <;> norm_num) (by norm_num)

/-- **C30 is false for the log barrier** at 0: `grad(0) = 0`, `grad_conj(0) = nan`. -/
theorem C30_log_barrier_false : logBarrierGrad 0 = .fin 0 ∧ logBarrierConj 0 = .nan := by
  constructor
  · simp [logBarrierGrad, Flt.div, Flt.sub, Flt.neg, Flt.add]
  · have h : Flt.mul (.pinf : Flt ℝ) (.fin 1) = .pinf := by simp [Flt.mul, Flt.infTimes]
    have h1 : ¬ (0 : ℝ) < -1 := by norm_num
    simp [logBarrierConj, Flt.div, h, Flt.add, -Left.neg_pos_iff, h1]

/-- **C30, non-smooth barrier**: for every coordinate in `(-1,1)`. -/
theorem C30_nonsmooth (t : ℝ) (h : |t| < 1) : ∃ y, nonsmoothGrad t = .fin y ∧ nonsmoothConj y = .fin t := by
  have p : 0 < 1 - |t| := by linarith
  have e : 1 + |t| ^ 2 - 2 * |t| = (1 - |t|) ^ 2 := by ring
  refine ⟨npSign t / (1 - |t|) ^ 2, ?_, ?_⟩
  · simp only [nonsmoothGrad, e, Flt.div]
    rw [if_pos (pow_ne_zero 2 p.ne')]
  · rcases eq_or_ne t 0 with rfl | h0
    · have : npSign 0 = 0 := by simp [npSign]
      simp [nonsmoothConj, this, Flt.div, Flt.sqrt, Flt.sub, Flt.neg, Flt.add, Flt.maximum, Flt.isNaN, Flt.lt, Flt.mul]
    · set y := npSign t / (1 - |t|) ^ 2 with hy
      have hs : |npSign t| = 1 := by
        unfold npSign
        split
        · simp
        · split
          · simp
          · exfalso; apply h0; linarith
      have hy1 : |y| = 1 / (1 - |t|) ^ 2 := by
        rw [hy, abs_div, hs, abs_of_pos (by positivity : 0 < (1 - |t|) ^ 2)]
      have hy0 : |y| ≠ 0 := by rw [hy1]; positivity
      have hys : npSign y = npSign t := by
        have hp : 0 < (1 - |t|) ^ 2 := by positivity
        rcases lt_trichotomy t 0 with h' | h' | h'
        · have a : npSign t = -1 := by simp [npSign, h', not_lt.2 h'.le]
          have b : y < 0 := by rw [hy, a]; exact div_neg_of_neg_of_pos (by norm_num) hp
          rw [a]; simp [npSign, b, not_lt.2 b.le]
        · exact absurd h' h0
        · have a : npSign t = 1 := by simp [npSign, h']
          have b : 0 < y := by rw [hy, a]; positivity
          rw [a]; simp [npSign, b]
      have hq : 1 / |y| = (1 - |t|) ^ 2 := by rw [hy1]; simp
      have hnn : ¬ (1 - |t|) ^ 2 < 0 := not_lt.2 (sq_nonneg _)
      simp only [nonsmoothConj, Flt.div, ne_eq, hy0, not_false_iff, if_true, hq, Flt.sqrt, if_neg hnn, Real.sqrt_sq p.le, Flt.sub,
        Flt.neg, Flt.add, hys]
      have e2 : 1 + -(1 - |t|) = |t| := by ring
      rw [e2]
      have hm : Flt.maximum (.fin |t|) (.fin (0 : ℝ)) = .fin |t| := by
        simp [Flt.maximum, Flt.isNaN, Flt.lt, not_lt.2 (abs_nonneg t)]
      rw [hm]
      simp only [Flt.mul, npSign_mul_abs]

example : ∃ y, nonsmoothGrad (-0.5) = .fin y ∧ nonsmoothConj y = .fin (-0.5) :=
  C30_nonsmooth _ (by rw [abs_of_neg] <;> norm_num)

/-- **C30, entropy on the simplex** (partial): for points of the simplex with all coordinates at least `10⁻³²`. Missing: smaller
coordinates, which are raised to `10⁻³²` first (`C30_simplex_false`). -/
theorem C30_simplex_partial (x : ι → ℝ) (h : InSimplex x) (hx : ∀ i, 1 / 10 ^ 32 ≤ x i) : simplexConj (simplexGrad x) = x := by
  have e : ∀ i, Real.exp (simplexGrad x i) = x i * Real.exp 1 := fun i => by
    have : 0 < x i := lt_of_lt_of_le (by positivity) (hx i)
    rw [simplexGrad, max_eq_left (hx i), Real.exp_add, Real.exp_log this]
  funext i
  simp only [simplexConj, e]
  rw [← Finset.sum_mul, h.2, one_mul, mul_div_cancel_right₀ _ (Real.exp_pos 1).ne']

example : InSimplex (![0.25, 0.75] : Fin 2 → ℝ) ∧ ∀ i, 1 / 10 ^ 32 ≤ (![0.25, 0.75] : Fin 2 → ℝ) i := by
  refine ⟨⟨fun i => ?_, ?_⟩, fun i => ?_⟩
  · fin_cases i <;> norm_num
  · simp [Fin.sum_univ_two]; norm_num
  · fin_cases i <;> norm_num

/-- **C30 is false for the entropy on the simplex** at its vertices. -/
theorem C30_simplex_false : InSimplex (![1, 0] : Fin 2 → ℝ) ∧ simplexConj (simplexGrad ![1, 0]) ≠ (![1, 0] : Fin 2 → ℝ) := by
  refine ⟨⟨fun i => by fin_cases i <;> simp, by simp [Fin.sum_univ_two]⟩, fun h => ?_⟩
  have := congrFun h 1
  have hp : 0 < simplexConj (simplexGrad ![1, 0]) (1 : Fin 2) :=
    div_pos (Real.exp_pos _) (Finset.sum_pos (fun i _ => Real.exp_pos _) Finset.univ_nonempty)
  rw [this] at hp
  simp at hp

/-- **C30, Entropy** (partial): on positive points `grad_conj(grad(x)) = x + EPS` with `EPS = 2⁻²³`. Missing: the equality, which is
false. -/
theorem C30_entropy_partial (x : ι → ℝ) (hx : ∀ i, 0 < x i) (i : ι) : entropyConj (entropyGrad x) i = x i + 1 / 2 ^ 23 := by
  have : 0 < x i + 1 / 2 ^ 23 := by have := hx i; positivity
  simp only [entropyConj, entropyGrad]
  rw [one_div, Real.log_inv, sub_add_cancel, neg_neg, Real.exp_log this]

/-- **C30 is false for Entropy** at every positive point. -/
theorem C30_entropy_false [Nonempty ι] (x : ι → ℝ) (hx : ∀ i, 0 < x i) : entropyConj (entropyGrad x) ≠ x := by
  intro h
  obtain ⟨i⟩ := ‹Nonempty ι›
  have h1 := C30_entropy_partial x hx i
  rw [h] at h1
  have : (0 : ℝ) < 1 / 2 ^ 23 := by positivity
  linarith

example : ∀ i, 0 < (![0.5, 3] : Fin 2 → ℝ) i := by intro i; fin_cases i <;> norm_num

/-- **C30 is false for weighted_L2**: `grad_conj` is the identity, so the equality holds exactly at the fixed points of the
symmetric part of `A`; it fails for `A = 2`. -/
theorem C30_weighted_false (A : Matrix ι ι ℝ) (theta : ι → ℝ) :
    (weightedConj (weightedGrad A theta) = theta ↔ ((0.5 : ℝ) • (A + Aᵀ)).mulVec theta = theta) ∧
      weightedConj (weightedGrad (Matrix.diagonal fun _ : Fin 1 => 2) ![1]) ≠ ![1] := by
  refine ⟨Iff.rfl, fun h => ?_⟩
  have := congrFun h 0
  simp [weightedConj, weightedGrad, Matrix.mulVec, dotProduct] at this
  norm_num at this

/-- **C31, ball**: for every radius > 0 and every centre the image lies in the ball. -/
theorem C31_ball (r : ℝ) (hr : 0 < r) (c y : ι → ℝ) : InBall c r (ballConj r c y) := ball_mem r hr c y

/-- **C31, hyperplane**: with a given normal vector `a ≠ 0` the image lies on the hyperplane. -/
theorem C31_plane (a : ι → ℝ) (ha : a ≠ 0) (b : ℝ) (y : ι → ℝ) : InPlane a b (planeConj (some a) b y) := by
  have h : a ⬝ᵥ a ≠ 0 := fun h => ha (dotProduct_self_eq_zero.1 h)
  rw [InPlane, plane_eq, dotProduct_sub, dotProduct_smul, smul_eq_mul, div_mul_cancel₀ _ h]
  ring

/-- **C31 is false for the default hyperplane** (normal vector of ones): in dimension 2 the image leaves the hyperplane. -/
theorem C31_plane_default_false : ¬ InPlane (fun _ => 1) 0 (planeConj none 0 (![1, 0] : Fin 2 → ℝ)) := by
  simp [InPlane, planeConj, planeInit, dotProduct, Fin.sum_univ_two]
  norm_num

/-- What the default hyperplane is: right in dimension 1 only. -/
theorem C31_plane_default_partial (b : ℝ) (y : Fin 1 → ℝ) : InPlane (fun _ => 1) b (planeConj none b y) := by
  simp [InPlane, planeConj, planeInit, dotProduct]

/-- **C31, sphere** (partial): every non-zero dual point is mapped to the sphere of radius `r`. Missing: `y = 0`, which is mapped to
NaN (`C31_sphere_false`). -/
theorem C31_sphere_partial (r : ℝ) (y : ι → ℝ) (hy : y ≠ 0) :
    ∃ p, (∀ i, sphereConj r y i = .fin (p i)) ∧ InSphere r p := by
  have hn := euclid_pos hy
  refine ⟨(r / euclid y) • y, fun i => ?_, ?_⟩
  · simp only [sphereConj, Flt.div]
    rw [if_pos hn.ne']
    congr 1
    simp only [Pi.smul_apply, smul_eq_mul]
    ring
  · rw [InSphere, smul_dotProduct, dotProduct_smul, ← euclid_sq]
    simp only [smul_eq_mul]
    field_simp

example : (![3, 4] : Fin 2 → ℝ) ≠ 0 := fun h => by have := congrFun h 0; simp at this

/-- **C31 is false for the sphere** at `y = 0`. -/
theorem C31_sphere_false (r : ℝ) (i : ι) : sphereConj r (0 : ι → ℝ) i = .nan := by
  have : euclid (0 : ι → ℝ) = 0 := euclid_eq_zero.2 rfl
  simp [sphereConj, this, Flt.div]

/-- **C31, square** (partial): for half-width 1, every non-zero dual point is mapped to the boundary of the square. Missing: other
half-widths and `y = 0`, where the claim is false. -/
theorem C31_square_partial {d : ℕ} (y : Fin (d + 1) → ℝ) (hy : y ≠ 0) : InSquare 1 (squareConj 1 y) := by
  simp only [squareConj]
  set y1 := clipVec 1 y with hy1
  set k := argmaxAbs y1 with hk
  have hk0 : y1 k ≠ 0 := by
    intro h
    apply hy
    funext i
    by_contra hi
    have := argmaxAbs_ge y1 i
    rw [← hk, h, abs_zero] at this
    exact clip_ne_zero 1 one_pos y i hi (abs_nonpos_iff.1 this)
  refine ⟨fun i => ?_, k, ?_⟩
  · rcases eq_or_ne i k with rfl | h
    · rw [Function.update_self, npSign_abs _ hk0]
    · rw [Function.update_of_ne h]
      exact clip_abs 1 zero_le_one y i
  · rw [Function.update_self, npSign_abs _ hk0]

/-- **C31 is false for the square** of half-width 2 and of half-width 1/2 (the entry is set to ±1 instead of ±r; the image of
`(2,0)` is `(1,0)`), and at `y = 0` for every half-width. -/
theorem C31_square_false : ¬ InSquare 2 (squareConj 2 (![2, 0] : Fin 2 → ℝ)) ∧
    ¬ InSquare (1 / 2) (squareConj (1 / 2) (![2, 0] : Fin 2 → ℝ)) ∧
    ∀ r : ℝ, 0 < r → ¬ InSquare r (squareConj r (![0, 0] : Fin 2 → ℝ)) := by
  have key : ∀ r : ℝ, 0 < r → ∀ t : ℝ, 0 < t →
      squareConj r (![t, 0] : Fin 2 → ℝ) = ![1, 0] := by
    intro r hr t ht
    have c0 : clipVec r (![t, 0] : Fin 2 → ℝ) = ![min t r, 0] := by
      funext i
      fin_cases i
      · show min (max t (-r)) r = min t r
        rw [max_eq_left (by linarith)]
      · show min (max 0 (-r)) r = 0
        rw [max_eq_left (by linarith), min_eq_left hr.le]
    have hm : 0 < min t r := lt_min ht hr
    have ha : argmaxAbs (![min t r, 0] : Fin 2 → ℝ) = 0 := by
      simp [argmaxAbs, List.finRange_succ, not_lt.2 (abs_nonneg (min t r))]
    simp only [squareConj, c0, ha]
    funext i
    fin_cases i
    · simp [npSign, ht, hr]
    · simp
  refine ⟨fun h => ?_, fun h => ?_, fun r hr h => ?_⟩
  · rw [key 2 (by norm_num) 2 (by norm_num)] at h
    obtain ⟨i, hi⟩ := h.2
    fin_cases i <;> norm_num at hi
  · rw [key (1 / 2) (by norm_num) 2 (by norm_num)] at h
    have := h.1 0
    norm_num at this
  · have c0 : clipVec r (![0, 0] : Fin 2 → ℝ) = ![0, 0] := by
      funext i
      fin_cases i <;> (show min (max 0 (-r)) r = 0; rw [max_eq_left (by linarith), min_eq_left hr.le])
    obtain ⟨i, hi⟩ := h.2
    have z : squareConj r (![0, 0] : Fin 2 → ℝ) = ![0, 0] := by
      have ha : ∀ k : Fin 2, (![0, 0] : Fin 2 → ℝ) k = 0 := fun k => by fin_cases k <;> rfl
      simp only [squareConj, c0]
      rw [ha]
      have : npSign 0 = 0 := by simp [npSign]
      rw [this]
      funext k
      rw [Function.update_apply]
      split
      · exact (ha k).symm
      · rfl
    rw [z] at h hi
    have ha : (![0, 0] : Fin 2 → ℝ) i = 0 := by fin_cases i <;> rfl
    rw [ha, abs_zero] at hi
    exact hr.ne hi

/-- **C30, square** (partial): points of the boundary of the square of half-width 1 are fixed. Missing: other half-widths, for
which the boundary is not fixed (`C30_square_false`). -/
theorem C30_square_partial {d : ℕ} (theta : Fin (d + 1) → ℝ) (h : InSquare 1 theta) : squareConj 1 (projGrad theta) = theta := by
  have hc : clipVec 1 theta = theta := funext fun i => clip_same 1 theta i (h.1 i)
  simp only [squareConj, projGrad, hc]
  obtain ⟨j, hj⟩ := h.2
  set k := argmaxAbs theta with hk
  have h1 : |theta k| = 1 := le_antisymm (h.1 k) (by rw [← hj]; exact argmaxAbs_ge theta j)
  have h2 : npSign (theta k) = theta k := by
    have := npSign_mul_abs (theta k)
    rwa [h1, mul_one] at this
  rw [h2, Function.update_eq_self]

example : InSquare 1 (![1, 0.5] : Fin 2 → ℝ) :=
  ⟨fun i => by fin_cases i <;> norm_num [abs_le], 0, by norm_num⟩

/-- **C30 is false for the square** of half-width 2. -/
theorem C30_square_false : InSquare 2 (![2, 0] : Fin 2 → ℝ) ∧ squareConj 2 (projGrad (![2, 0] : Fin 2 → ℝ)) ≠ ![2, 0] := by
  have h : InSquare 2 (![2, 0] : Fin 2 → ℝ) := ⟨fun i => by fin_cases i <;> norm_num, 0, by norm_num⟩
  refine ⟨h, fun h' => C31_square_false.1 ?_⟩
  have e : squareConj 2 (![2, 0] : Fin 2 → ℝ) = ![2, 0] := h'
  rw [e]
  exact h

/-- **C31, box** (partial): the log barrier maps every non-zero dual coordinate into `(-1,1)`, the non-smooth barrier every dual
coordinate. Missing: coordinate 0 of the log barrier, mapped to NaN (`C30_log_barrier_false`). -/
theorem C31_box_partial (y : ℝ) :
    (y ≠ 0 → ∃ t, logBarrierConj y = .fin t ∧ -1 < t ∧ t < 1) ∧ ∃ t, nonsmoothConj y = .fin t ∧ -1 < t ∧ t < 1 := by
  constructor
  · intro h
    refine ⟨-1 / y + 1 / y * Real.sqrt (1 + y ^ 2), ?_, ?_⟩
    · simp only [logBarrierConj, Flt.div, ne_eq, h, not_false_iff, if_true, Flt.mul, Flt.add]
    · set q := Real.sqrt (1 + y ^ 2) with hq
      have q2 : q ^ 2 = 1 + y ^ 2 := Real.sq_sqrt (by positivity)
      have q1 : 1 < q := by
        rw [hq, Real.lt_sqrt (by norm_num)]; have : 0 < y ^ 2 := by positivity
        linarith
      have e : -1 / y + 1 / y * q = (q - 1) / y := by field_simp; ring
      have e2 : ((q - 1) / y) ^ 2 < 1 := by
        rw [div_pow, div_lt_one (by positivity)]
        nlinarith
      rw [e]
      exact abs_lt.1 ((sq_lt_one_iff_abs_lt_one _).1 e2)
  · rcases eq_or_ne y 0 with rfl | h
    · refine ⟨0, ?_, by norm_num, by norm_num⟩
      have : npSign 0 = 0 := by simp [npSign]
      simp [nonsmoothConj, this, Flt.div, Flt.sqrt, Flt.sub, Flt.neg, Flt.add, Flt.maximum, Flt.isNaN, Flt.lt, Flt.mul]
    · have hy : 0 < |y| := abs_pos.2 h
      refine ⟨npSign y * max (1 - Real.sqrt (1 / |y|)) 0, ?_, ?_⟩
      · have hnn : ¬ 1 / |y| < 0 := not_lt.2 (by positivity)
        simp only [nonsmoothConj, Flt.div, ne_eq, hy.ne', not_false_iff, if_true, Flt.sqrt, if_neg hnn, Flt.sub, Flt.neg, Flt.add]
        have : Flt.maximum (.fin (1 + -Real.sqrt (1 / |y|))) (.fin (0 : ℝ)) = .fin (max (1 - Real.sqrt (1 / |y|)) 0) := by
          rw [← sub_eq_add_neg, fmax_fin]
        rw [this]
        rfl
      · have hs : 0 < Real.sqrt (1 / |y|) := Real.sqrt_pos.2 (by positivity)
        have m0 : 0 ≤ max (1 - Real.sqrt (1 / |y|)) 0 := le_max_right _ _
        have m1 : max (1 - Real.sqrt (1 / |y|)) 0 < 1 := max_lt (by linarith) one_pos
        have := npSign_abs y h
        have h3 : |npSign y * max (1 - Real.sqrt (1 / |y|)) 0| < 1 := by
          rw [abs_mul, this, one_mul, abs_of_nonneg m0]; exact m1
        exact abs_lt.1 h3

/-- **C31, simplex**: every dual point is mapped to a point of the probability simplex with positive coordinates. -/
theorem C31_simplex [Nonempty ι] (y : ι → ℝ) : InSimplex (simplexConj y) ∧ ∀ i, 0 < simplexConj y i := by
  have hs : 0 < ∑ j, Real.exp (y j) := Finset.sum_pos (fun i _ => Real.exp_pos _) Finset.univ_nonempty
  have h : ∀ i, 0 < simplexConj y i := fun i => div_pos (Real.exp_pos _) hs
  refine ⟨⟨fun i => (h i).le, ?_⟩, h⟩
  simp only [simplexConj]
  rw [← Finset.sum_div, div_self hs.ne']

/-- **C31, Stiefel**: if a square or tall matrix `y` (`l = k`, that is at least as many rows as columns) has the singular value
decomposition delivered by `svd`, its image has orthonormal columns. -/
theorem C31_stiefel {n k : Type} [Fintype n] [Fintype k] [DecidableEq k]
    (svd : Matrix n k ℝ → Matrix n k ℝ × (k → ℝ) × Matrix k k ℝ) (y : Matrix n k ℝ)
    (h : IsSVD y (svd y).1 (svd y).2.1 (svd y).2.2) : InStiefel (stiefelConj svd y) := by
  have h2 : (svd y).2.2ᵀ * (svd y).2.2 = 1 := mul_eq_one_comm.1 h.right
  simp only [InStiefel, stiefelConj, Matrix.transpose_mul]
  rw [Matrix.mul_assoc, ← Matrix.mul_assoc (svd y).1ᵀ, h.left, Matrix.one_mul, h2]

/-- **C30, Stiefel**: matrices with orthonormal columns are fixed. -/
theorem C30_stiefel {n k : Type} [Fintype n] [Fintype k] [DecidableEq k]
    (svd : Matrix n k ℝ → Matrix n k ℝ × (k → ℝ) × Matrix k k ℝ) (y : Matrix n k ℝ)
    (h : IsSVD y (svd y).1 (svd y).2.1 (svd y).2.2) (hy : InStiefel y) : stiefelConj svd y = y := by
  rcases hd : svd y with ⟨U, s, Vh⟩
  simp only [hd] at h
  have h2 : Vhᵀ * Vh = 1 := mul_eq_one_comm.1 h.right
  have h3 : Vhᵀ * Matrix.diagonal (fun i => s i * s i) * Vh = 1 := by
    rw [← hy, h.eq, Matrix.transpose_mul, Matrix.transpose_mul, Matrix.diagonal_transpose]
    calc Vhᵀ * Matrix.diagonal (fun i => s i * s i) * Vh
        = Vhᵀ * (Matrix.diagonal s * (Uᵀ * U) * Matrix.diagonal s) * Vh := by
          rw [h.left, Matrix.mul_one, Matrix.diagonal_mul_diagonal]
      _ = _ := by simp only [Matrix.mul_assoc]
  have h4 : Matrix.diagonal (fun i => s i * s i) = 1 := by
    have := congrArg (fun m => Vh * m * Vhᵀ) h3
    simp only [Matrix.mul_one] at this
    calc Matrix.diagonal (fun i => s i * s i) = (Vh * Vhᵀ) * Matrix.diagonal (fun i => s i * s i) * (Vh * Vhᵀ) := by
          rw [h.right, Matrix.one_mul, Matrix.mul_one]
      _ = Vh * (Vhᵀ * Matrix.diagonal (fun i => s i * s i) * Vh) * Vhᵀ := by simp only [Matrix.mul_assoc]
      _ = 1 := by rw [h3, Matrix.mul_one, h.right]
  have h5 : s = fun _ => 1 := by
    funext i
    have := congrFun (congrFun h4 i) i
    simp at this
    nlinarith [h.nonneg i]
  simp only [stiefelConj, hd]
  rw [h.eq, h5, Matrix.diagonal_one, Matrix.mul_one]

example : IsSVD (!![2; 0] : Matrix (Fin 2) (Fin 1) ℝ) !![1; 0] (fun _ => 2) !![1] ∧
    IsSVD (!![1; 0] : Matrix (Fin 2) (Fin 1) ℝ) !![1; 0] (fun _ => 1) !![1] ∧ InStiefel (!![1; 0] : Matrix (Fin 2) (Fin 1) ℝ) := by
  refine ⟨⟨?_, ?_, ?_, fun _ => by norm_num⟩, ⟨?_, ?_, ?_, fun _ => by norm_num⟩, ?_⟩ <;>
    (ext i j; fin_cases i <;> fin_cases j <;> simp [Matrix.mul_apply, Fin.sum_univ_two])

/-- **C32, ball**: the image is the nearest point of the ball; the map is idempotent and non-expansive. -/
theorem C32_ball (r : ℝ) (hr : 0 < r) (c y w : ι → ℝ) : Nearest (InBall c r) y (ballConj r c y) ∧
    ballConj r c (ballConj r c y) = ballConj r c y ∧ dist2 (ballConj r c y) (ballConj r c w) ≤ dist2 y w :=
  ⟨nearest_of_vi (ball_mem r hr c y) fun z hz => ball_vi r hr c y z hz,
    (C30_projections r hr (ballConj r c y)).1 c (ball_mem r hr c y),
    nonexp_of_vi (ball_mem r hr c y) (ball_mem r hr c w) (fun z hz => ball_vi r hr c y z hz) fun z hz => ball_vi r hr c w z hz⟩

/-- **C32, hyperplane**: the image is the nearest point of the hyperplane; the map is idempotent and non-expansive. -/
theorem C32_plane (a : ι → ℝ) (ha : a ≠ 0) (b : ℝ) (y w : ι → ℝ) : Nearest (InPlane a b) y (planeConj (some a) b y) ∧
    planeConj (some a) b (planeConj (some a) b y) = planeConj (some a) b y ∧
    dist2 (planeConj (some a) b y) (planeConj (some a) b w) ≤ dist2 y w := by
  have vi : ∀ y z, InPlane a b z → (y - planeConj (some a) b y) ⬝ᵥ (z - planeConj (some a) b y) ≤ 0 := by
    intro y z hz
    have hp := C31_plane a ha b y
    have e : y - planeConj (some a) b y = ((a ⬝ᵥ y - b) / (a ⬝ᵥ a)) • a := by rw [plane_eq, sub_sub_cancel]
    rw [e, smul_dotProduct, dotProduct_sub, hz, hp]
    simp
  exact ⟨nearest_of_vi (C31_plane a ha b y) (vi y), (C30_projections 1 one_pos _).2.1 a b (C31_plane a ha b y),
    nonexp_of_vi (C31_plane a ha b y) (C31_plane a ha b w) (vi y) (vi w)⟩

/-- **C32, sphere**: the image of a non-zero point is a nearest point of the sphere. -/
theorem C32_sphere (r : ℝ) (hr : 0 < r) (y : ι → ℝ) (hy : y ≠ 0) :
    ∃ p, (∀ i, sphereConj r y i = .fin (p i)) ∧ Nearest (InSphere r) y p := by
  obtain ⟨p, hp, hs⟩ := C31_sphere_partial r y hy
  have hn := euclid_pos hy
  have hpe : p = (r / euclid y) • y := by
    funext i
    have := hp i
    simp only [sphereConj, Flt.div] at this
    rw [if_pos hn.ne'] at this
    injection this with this
    rw [← this]
    simp only [Pi.smul_apply, smul_eq_mul]
    ring
  refine ⟨p, hp, hs, fun z hz => ?_⟩
  have hd : ∀ z, dist2 y z = y ⬝ᵥ y - 2 * (y ⬝ᵥ z) + z ⬝ᵥ z := by
    intro z
    rw [dist2, dotProduct_sub, sub_dotProduct, sub_dotProduct, dotProduct_comm z y]
    ring
  have hz1 : euclid z = r := by
    have := euclid_sq z
    rw [hz] at this
    exact (sq_eq_sq₀ (euclid_nonneg _) hr.le).1 this
  have h1 := dot_le y z
  rw [hz1] at h1
  have h2 : y ⬝ᵥ p = euclid y * r := by
    rw [hpe, dotProduct_smul, ← euclid_sq, smul_eq_mul]
    field_simp
  rw [hd, hd, h2, hs, hz]
  linarith

example : (![1, 2] : Fin 2 → ℝ) ≠ 0 ∧ (0 : ℝ) < 3 := ⟨fun h => by have := congrFun h 0; simp at this, by norm_num⟩

end Verif
