import Verif.Proofs.Polar
import Verif.Props.Hull
import Verif.Spec.ExampleReal
import Mathlib.Analysis.Convex.Combination

/-! Properties C49 (kernels of `PolarCBO`) and C50 (polarised consensus). -/

set_option linter.unusedSectionVars false

namespace Verif

variable {ι : Type} [Fintype ι]

/-! ### C49 -/

/-- **C49, exponential.** For every kernel, every parameter and all points (and every normalisation of the Taz kernel)
`kernel(x, y) = exp(-neg_log(x, y))`, as extended numbers. -/
theorem C49_call (k : Kernel) (kappa mx : ℝ) (x y : ι → ℝ) : k.call kappa mx x y = expNeg (k.negLog kappa mx x y) :=
  call_exp k kappa mx x y

/-- **C49, laws.** For `kappa > 0` (and, for the Taz kernel, not all particles of every run at the same point) `neg_log` is a number
`≥ 0` or `+inf`, it is symmetric, vanishes on the diagonal, and the kernel value is a number in `[0, 1]`, equal to 1 on the
diagonal. -/
theorem C49_laws (k : Kernel) (kappa mx : ℝ) (hk : 0 < kappa) (hm : k = .taz → mx ≠ 0) (x y : ι → ℝ) :
    ((∃ a, 0 ≤ a ∧ k.negLog kappa mx x y = .fin a) ∨ k.negLog kappa mx x y = .pinf) ∧
    k.negLog kappa mx x y = k.negLog kappa mx y x ∧ k.negLog kappa mx x x = .fin 0 ∧
    (∃ v, 0 ≤ v ∧ v ≤ 1 ∧ k.call kappa mx x y = .fin v) ∧ k.call kappa mx x x = .fin 1 := by
  refine ⟨negLog_good k hk hm x y, negLog_comm k kappa mx x y, negLog_self k hm x, ?_, ?_⟩
  · rw [call_exp]
    rcases negLog_good k hk hm x y with ⟨a, ha, e⟩ | e
    · exact ⟨Real.exp (-a), (Real.exp_pos _).le, by rw [Real.exp_le_one_iff]; linarith, by rw [e]; rfl⟩
    · exact ⟨0, le_rfl, zero_le_one, by rw [e]; rfl⟩
  · rw [call_exp, negLog_self k hm x]
    simp [expNeg]

/-- **C49, documented values.** The Gaussian and the Laplace kernel have the documented values for all points; the constant kernel has them
off the sphere `‖x - y‖ = kappa`; the inverse quadratic kernel has them for `kappa = 1` (the default). Missing: see
`C49_constant_false` and `C49_inverseQuadratic_false`. -/
theorem C49_documented_partial (k : Kernel) (kappa mx : ℝ) (hk : 0 < kappa) (x y : ι → ℝ) (v : ℝ)
    (hd : docKernel k kappa (Real.sqrt (∑ i, (x i - y i) ^ 2)) = some v)
    (hc : k = .constant → Real.sqrt (∑ i, (x i - y i) ^ 2) ≠ kappa) (hi : k = .inverseQuadratic → kappa = 1) :
    k.call kappa mx x y = .fin v := by
  have hp : Real.sqrt (∑ i, (x i - y i) ^ 2) = pdist x y := rfl
  rw [hp] at hd hc
  cases k
  · simp only [docKernel, Option.some.injEq] at hd
    rw [← hd, pdist_sq]
    simp only [Kernel.call, Flt.fin.injEq]
    congr 1
    ring
  · simp only [docKernel, Option.some.injEq] at hd
    rw [← hd]
    simp only [Kernel.call, Flt.fin.injEq]
    congr 1
    ring
  · simp only [docKernel, Option.some.injEq] at hd
    rw [← hd]
    simp only [Kernel.call, powInf]
    have hne := hc rfl
    by_cases h : pdist x y ≤ kappa
    · have h' : pdist x y < kappa := lt_of_le_of_ne h hne
      rw [if_pos h, if_pos ((div_lt_one hk).2 h')]
      simp [expNeg]
    · have h' : kappa < pdist x y := not_le.1 h
      have h1 : 1 < pdist x y / kappa := (one_lt_div hk).2 h'
      rw [if_neg h, if_neg (not_lt.2 h1.le), if_neg h1.ne']
      rfl
  · simp only [docKernel, Option.some.injEq] at hd
    have h1 := hi rfl
    subst h1
    rw [← hd]
    simp [Kernel.call]
  · cases hd

/-- **C49 is false for the constant kernel.** At distance exactly `kappa` its value is `exp(-1)`, not the documented 1. -/
theorem C49_constant_false (kappa mx : ℝ) (hk : 0 < kappa) (x y : ι → ℝ) (h : Real.sqrt (∑ i, (x i - y i) ^ 2) = kappa) :
    Kernel.constant.call kappa mx x y = .fin (Real.exp (-1)) ∧
    Kernel.constant.call kappa mx x y ≠ .fin 1 ∧ docKernel .constant kappa (Real.sqrt (∑ i, (x i - y i) ^ 2)) = some 1 := by
  have hp : pdist x y = kappa := h
  have e : Kernel.constant.call kappa mx x y = .fin (Real.exp (-1)) := by
    simp only [Kernel.call, powInf, hp, div_self hk.ne', lt_irrefl, if_false, if_true, expNeg]
  refine ⟨e, ?_, ?_⟩
  · rw [e]
    intro h
    injection h with h
    have := (Real.exp_lt_exp.2 (show (-1 : ℝ) < 0 by norm_num)).trans_eq Real.exp_zero
    linarith
  · rw [h]; simp [docKernel]

/-- **C49 is false for the inverse quadratic kernel.** Unless `kappa = 1` the value at two different points is never the documented
`1/(1 + ‖x-y‖²/kappa)`: the code has `1/(1 + (‖x-y‖/kappa)²)`. -/
theorem C49_inverseQuadratic_false (kappa mx : ℝ) (hk : 0 < kappa) (h1 : kappa ≠ 1) (x y : ι → ℝ) (hxy : x ≠ y) :
    Kernel.inverseQuadratic.call kappa mx x y = .fin (1 / (1 + (Real.sqrt (∑ i, (x i - y i) ^ 2) / kappa) ^ 2)) ∧
    ∀ v, docKernel .inverseQuadratic kappa (Real.sqrt (∑ i, (x i - y i) ^ 2)) = some v →
      Kernel.inverseQuadratic.call kappa mx x y ≠ .fin v := by
  have hp : Real.sqrt (∑ i, (x i - y i) ^ 2) = pdist x y := rfl
  rw [hp]
  have hd : 0 < pdist x y := lt_of_le_of_ne (pdist_nonneg x y) fun h => hxy (pdist_eq_zero.1 h.symm)
  have e : Kernel.inverseQuadratic.call kappa mx x y = .fin (1 / (1 + (pdist x y / kappa) ^ 2)) := by
    simp only [Kernel.call, one_div, div_eq_inv_mul, mul_one]
  refine ⟨e, ?_⟩
  intro v hv h
  simp only [docKernel, Option.some.injEq] at hv
  rw [e, ← hv] at h
  injection h with h
  have h2 : 1 + (pdist x y / kappa) ^ 2 = 1 + kappa⁻¹ * pdist x y ^ 2 := by
    have := congrArg (fun t : ℝ => t⁻¹) h
    simpa using this
  have h3 : pdist x y ^ 2 * (kappa - 1) = 0 := by
    field_simp at h2
    nlinarith
  rcases mul_eq_zero.1 h3 with h4 | h4
  · exact hd.ne' (by simpa using h4)
  · exact h1 (by linarith)

/-- **C49 is false for the Gaussian kernel on bare points.** On arrays with at most three axes (for instance two points of shape
`(d,)`) the value is one number per coordinate: at `(1, 0)` and `(0, 0)` it is `(exp(-1/2), 1)`. -/
theorem C49_gaussian_points_false (ndim : ℕ) (h : ndim ≤ 3) :
    gaussianCall ndim 1 ![(1 : ℝ), 0] ![0, 0] = ![Real.exp (-(1 / 2)), 1] ∧
    docKernel .gaussian 1 (Real.sqrt (∑ i, ((![(1 : ℝ), 0] : Fin 2 → ℝ) i - (![(0 : ℝ), 0] : Fin 2 → ℝ) i) ^ 2)) =
      some (Real.exp (-(1 / 2))) := by
  refine ⟨?_, ?_⟩
  · funext i
    simp only [gaussianCall, if_neg (show ¬ 4 ≤ ndim by omega)]
    fin_cases i <;> simp
  · simp [docKernel, Fin.sum_univ_two]

/-- On arrays with four axes, as `PolarCBO` calls it, every entry of the Gaussian kernel is the documented value. -/
theorem C49_gaussian_arrays (ndim : ℕ) (h : 4 ≤ ndim) (kappa : ℝ) (x y : ι → ℝ) (i : ι) :
    some (gaussianCall ndim kappa x y i) = docKernel .gaussian kappa (Real.sqrt (∑ i, (x i - y i) ^ 2)) := by
  have hp : Real.sqrt (∑ i, (x i - y i) ^ 2) = pdist x y := rfl
  rw [hp]
  simp only [gaussianCall, if_pos h, docKernel, pdist_sq, Option.some.injEq]
  congr 1
  ring

/-- **C49 for the Taz kernel.** Within an array whose particles are not all collapsed, `neg_log` is the squared relative distance:
between 0 and `1/kappa²`, the upper bound being attained. -/
theorem C49_taz (x : Mat (ι → ℝ)) (kappa : ℝ) (hk : 0 < kappa) (hm : maxDist x ≠ 0) :
    (∀ m < x.rows, ∀ i < x.cols, ∀ j < x.cols, ∃ a, 0 ≤ a ∧ a ≤ 1 / kappa ^ 2 ∧
      Kernel.taz.negLog kappa (maxDist x) (x.get m j) (x.get m i) = .fin a) ∧
    ∃ m < x.rows, ∃ i < x.cols, ∃ j < x.cols,
      Kernel.taz.negLog kappa (maxDist x) (x.get m j) (x.get m i) = .fin (1 / kappa ^ 2) := by
  have hpos : 0 < maxDist x := lt_of_le_of_ne (maxDist_nonneg x) hm.symm
  refine ⟨?_, ?_⟩
  · intro m hm' i hi j hj
    refine ⟨_, sq_nonneg (1 / kappa * pdist (x.get m j) (x.get m i) / maxDist x), ?_, ?_⟩
    · have h1 := le_maxDist x hm' hi hj
      have h0 := pdist_nonneg (x.get m j) (x.get m i)
      have h2 : pdist (x.get m j) (x.get m i) / maxDist x ≤ 1 := (div_le_one hpos).2 h1
      have h3 : 0 ≤ pdist (x.get m j) (x.get m i) / maxDist x := div_nonneg h0 hpos.le
      have e : (1 / kappa * pdist (x.get m j) (x.get m i) / maxDist x) ^ 2 =
          1 / kappa ^ 2 * (pdist (x.get m j) (x.get m i) / maxDist x) ^ 2 := by
        field_simp
      rw [e]
      have h4 : (pdist (x.get m j) (x.get m i) / maxDist x) ^ 2 ≤ 1 := pow_le_one₀ h3 h2
      have h5 : 0 ≤ 1 / kappa ^ 2 := by positivity
      nlinarith
    · simp only [Kernel.negLog, if_neg hm]
  · rcases maxDist_attained x with h | ⟨m, hm', i, hi, j, hj, e⟩
    · exact absurd h hm
    · refine ⟨m, hm', i, hi, j, hj, ?_⟩
      simp only [Kernel.negLog, if_neg hm, ← e]
      congr 1
      field_simp

/-- **C49 is false for the Taz kernel on collapsed ensembles.** If in every run all particles coincide, every entry of `neg_log` is
NaN (`0/0`), also on the diagonal. -/
theorem C49_taz_false (x : Mat (ι → ℝ)) (kappa : ℝ) (h : ∀ m < x.rows, ∀ i < x.cols, ∀ j < x.cols, x.get m i = x.get m j) :
    ∀ m < x.rows, ∀ i < x.cols, ∀ j < x.cols,
      Kernel.taz.negLog kappa (maxDist x) (x.get m j) (x.get m i) = .nan ∧
      Kernel.taz.call kappa (maxDist x) (x.get m j) (x.get m i) = .nan := by
  have hz : maxDist x = 0 := by
    rcases maxDist_attained x with h' | ⟨m, hm', i, hi, j, hj, e⟩
    · exact h'
    · rw [e, h m hm' j hj i hi, pdist_self]
  intro m hm i hi j hj
  have : Kernel.taz.negLog kappa (maxDist x) (x.get m j) (x.get m i) = .nan := by
    simp only [Kernel.negLog, hz, if_true, h m hm j hj i hi, pdist_self]
  exact ⟨this, by rw [call_exp, this]; rfl⟩

/-- C49: the points (3, 4) and (0, 0) of the plane and `kappa = 5` (distance 5): Laplace value `exp(-1)`, on the sphere of the constant
kernel. -/
example : Real.sqrt (∑ i, ((![(3 : ℝ), 4] : Fin 2 → ℝ) i - (![(0 : ℝ), 0] : Fin 2 → ℝ) i) ^ 2) = 5 ∧
    docKernel .laplace 5 5 = some (Real.exp (-1)) := by
  refine ⟨?_, by simp [docKernel]⟩
  rw [Fin.sum_univ_two]
  simp only [Matrix.cons_val_zero, Matrix.cons_val_one, sub_zero]
  rw [show (3 : ℝ) ^ 2 + 4 ^ 2 = 5 ^ 2 by norm_num, Real.sqrt_sq (by norm_num)]

/-! ### C50 -/

/-- **C50, weights.** In `PolarCBO.compute_consensus` on an array of runs, for a run `m` with parameter `a` and finite energies `f_j` at
the particles `x_j` (`l` the list of the pairs), `kappa > 0` and a positive kernel factor `q` (1, or `a` in mode `'alpha'`): the consensus of
particle `i` is `sum_j w_j x_j` with `w_j` proportional to `k(x_i, x_j)^q exp(-a f_j)`, where `k` is the kernel's own value `__call__`;
`w_j ≥ 0`, `sum_j w_j = 1`, and the particle itself has positive weight. (For the Taz kernel the runs must not all be
collapsed.) -/
theorem C50_weights (k : Kernel) (kappa : ℝ) (hk : 0 < kappa) (mode : KernelMode) (wx : Mat (ℝ × Flt ℝ × (ι → ℝ)))
    (c : Mat (ι → ℝ)) (h : polarConsensus k kappa mode wx = .ok c)
    (hm : k = .taz → maxDist (wx.map fun p => p.2.2) ≠ 0)
    (kv : (ι → ℝ) → (ι → ℝ) → ℝ)
    (hkv : ∀ x y, k.call kappa (maxDist (wx.map fun p => p.2.2)) x y = .fin (kv x y))
    (m : ℕ) (a : ℝ) (l : List (ℝ × (ι → ℝ))) (hl : wx.row m = l.map fun p => (a, .fin p.1, p.2))
    (q : ℝ) (hq : mode.factor a = .ok q) (hq0 : 0 < q) (i : Fin l.length) :
    c.get m i = polarGibbs (fun x y => kv x y ^ q) a l l[i].2 ∧
    ∃ w : Fin l.length → ℝ, (∀ j, w j = kv l[i].2 l[j].2 ^ q * Real.exp (-(a * l[j].1)) /
        ∑ j' : Fin l.length, kv l[i].2 l[j'].2 ^ q * Real.exp (-(a * l[j'].1))) ∧
      (∀ j, 0 ≤ w j) ∧ 0 < w i ∧ ∑ j, w j = 1 ∧ c.get m i = ∑ j, w j • l[j].2 := by
  have hmode : mode ≠ .other := by
    rintro rfl
    cases hq
  have hkf : mode.kf a = q := by
    cases mode with
    | const => simp only [KernelMode.factor, Except.ok.injEq] at hq; exact hq
    | alpha => simp only [KernelMode.factor, Except.ok.injEq] at hq; exact hq
    | other => exact absurd rfl hmode
  simp only [polarConsensus, if_neg hmode, Except.ok.injEq] at h
  subst h
  have hg := fun x y : ι → ℝ => negLog_good k hk hm x y
  have hv : ∀ x y, expNeg (k.negLog kappa (maxDist (wx.map fun p => p.2.2)) x y) = .fin (kv x y) := fun x y => by
    rw [← call_exp, hkv]
  have hself : ∀ x, kv x x = 1 := fun x => by
    have := hv x x
    rw [negLog_self k hm] at this
    simp only [expNeg, neg_zero, Real.exp_zero, Flt.fin.injEq] at this
    exact this.symm
  have hcomm : ∀ x y, kv x y = kv y x := fun x y => by
    have h1 := hv x y
    rw [negLog_comm, hv y x] at h1
    injection h1 with h1
    exact h1.symm
  have hnn : ∀ x y, 0 ≤ kv x y := fun x y => kernel_nonneg (hg x y) (hv x y)
  have hmem : l[i] ∈ l := List.getElem_mem _
  have key : polarRule (k.negLog kappa (maxDist (wx.map fun p => p.2.2))) mode.kf (wx.row m) i =
      polarGibbs (fun x y => kv x y ^ q) a l l[i].2 := by
    rw [hl]
    unfold polarRule
    have e : ((l.map fun p => ((a, Flt.fin p.1, p.2) : ℝ × Flt ℝ × (ι → ℝ))).map fun p => p.2.2).getD i 0 = l[i].2 := by
      rw [List.map_map, List.getD_eq_getElem?_getD, List.getElem?_map, List.getElem?_eq_getElem i.2]
      rfl
    rw [e]
    have := polarAt_fin (a := a) (kf := mode.kf) (by rw [hkf]; exact hq0) hg hv l l[i].2
      ⟨l[i], hmem, by rw [hself]; exact one_pos⟩
    unfold finSample at this
    rw [this, hkf]
    congr 1
    funext x y
    rw [hcomm]
  refine ⟨key, fun j => kv l[i].2 l[j].2 ^ q * Real.exp (-(a * l[j].1)) /
        ∑ j' : Fin l.length, kv l[i].2 l[j'].2 ^ q * Real.exp (-(a * l[j'].1)), fun j => rfl, ?_, ?_, ?_, ?_⟩
  all_goals
    have hterm : ∀ j : Fin l.length, 0 ≤ kv l[i].2 l[j].2 ^ q * Real.exp (-(a * l[j].1)) := fun j =>
      mul_nonneg (Real.rpow_nonneg (hnn _ _) _) (Real.exp_pos _).le
    have hi : 0 < kv l[i].2 l[i].2 ^ q * Real.exp (-(a * l[i].1)) := by
      rw [hself, Real.one_rpow, one_mul]; exact Real.exp_pos _
    have hsum : 0 < ∑ j' : Fin l.length, kv l[i].2 l[j'].2 ^ q * Real.exp (-(a * l[j'].1)) :=
      lt_of_lt_of_le hi (Finset.single_le_sum (f := fun j : Fin l.length => kv l[i].2 l[j].2 ^ q * Real.exp (-(a * l[j].1)))
        (fun j _ => hterm j) (Finset.mem_univ i))
  · exact fun j => div_nonneg (hterm j) hsum.le
  · exact div_pos hi hsum
  · rw [← Finset.sum_div, div_self hsum.ne']
  · rw [← polarGibbs_sum (fun x y => kv x y ^ q)]
    exact key

/-- **C50, convexity.** The polarised consensus of every particle lies in every convex set containing the particles of its
run. -/
theorem C50_convex (k : Kernel) (kappa : ℝ) (hk : 0 < kappa) (mode : KernelMode) (wx : Mat (ℝ × Flt ℝ × (ι → ℝ)))
    (c : Mat (ι → ℝ)) (h : polarConsensus k kappa mode wx = .ok c)
    (hm : k = .taz → maxDist (wx.map fun p => p.2.2) ≠ 0)
    (m : ℕ) (a : ℝ) (l : List (ℝ × (ι → ℝ))) (hl : wx.row m = l.map fun p => (a, .fin p.1, p.2))
    (q : ℝ) (hq : mode.factor a = .ok q) (hq0 : 0 < q) (S : Set (ι → ℝ)) (hS : Convex ℝ S) (hx : ∀ p ∈ l, p.2 ∈ S)
    (i : ℕ) (hi : i < l.length) : c.get m i ∈ S := by
  have hex : ∀ x y : ι → ℝ, ∃ v, k.call kappa (maxDist (wx.map fun p => p.2.2)) x y = .fin v := fun x y => by
    obtain ⟨-, -, -, ⟨v, -, -, e⟩, -⟩ := C49_laws k kappa _ hk hm x y
    exact ⟨v, e⟩
  choose kv hkv using hex
  obtain ⟨-, w, -, w1, -, w2, w3⟩ := C50_weights k kappa hk mode wx c h hm kv hkv m a l hl q hq hq0 ⟨i, hi⟩
  have w3' : c.get m i = ∑ j, w j • l[j].2 := w3
  rw [w3']
  exact hS.sum_mem (fun j _ => w1 j) w2 fun j _ => hx _ (List.getElem_mem _)

/-- **C50, constant kernel value.** If all particles of the run have the same kernel value to particle `i` (for instance the constant kernel and
all of them closer than `kappa`), the polarised consensus of `i` is the CBO consensus of the run. -/
theorem C50_cbo (k : Kernel) (kappa : ℝ) (hk : 0 < kappa) (mode : KernelMode) (wx : Mat (ℝ × Flt ℝ × (ι → ℝ)))
    (c : Mat (ι → ℝ)) (h : polarConsensus k kappa mode wx = .ok c)
    (hm : k = .taz → maxDist (wx.map fun p => p.2.2) ≠ 0)
    (m : ℕ) (a : ℝ) (l : List (ℝ × (ι → ℝ))) (hl : wx.row m = l.map fun p => (a, .fin p.1, p.2))
    (q : ℝ) (hq : mode.factor a = .ok q) (hq0 : 0 < q) (i : Fin l.length) (v : ℝ)
    (hconst : ∀ j : Fin l.length, k.call kappa (maxDist (wx.map fun p => p.2.2)) l[i].2 l[j].2 = .fin v) :
    c.get m i = consDefault (wx.row m) := by
  have hex : ∀ x y : ι → ℝ, ∃ v, k.call kappa (maxDist (wx.map fun p => p.2.2)) x y = .fin v := fun x y => by
    obtain ⟨-, -, -, ⟨v, -, -, e⟩, -⟩ := C49_laws k kappa _ hk hm x y
    exact ⟨v, e⟩
  choose kv hkv using hex
  obtain ⟨e, -⟩ := C50_weights k kappa hk mode wx c h hm kv hkv m a l hl q hq hq0 i
  have hv1 : v = 1 := by
    have h1 := hconst i
    rw [(C49_laws k kappa _ hk hm l[i].2 l[i].2).2.2.2.2] at h1
    injection h1 with h1
    exact h1.symm
  have hone : ∀ p ∈ l, kv l[i].2 p.2 ^ q = 1 := fun p hp => by
    obtain ⟨j, hj, rfl⟩ := List.mem_iff_getElem.1 hp
    have h1 := hconst ⟨j, hj⟩
    rw [hkv] at h1
    injection h1 with h1
    have h2 : kv l[i].2 l[j].2 = v := h1
    rw [h2, hv1, Real.one_rpow]
  rw [e, hl]
  have := consDefault_fin a l
  unfold finSample at this
  rw [this]
  unfold polarGibbs gibbs
  have e1 : (l.map fun p => kv l[i].2 p.2 ^ q * Real.exp (-(a * p.1))) = l.map fun p => Real.exp (-(a * p.1)) :=
    List.map_congr_left fun p hp => by rw [hone p hp, one_mul]
  have e2 : (l.map fun p => (kv l[i].2 p.2 ^ q * Real.exp (-(a * p.1))) • p.2) = l.map fun p => Real.exp (-(a * p.1)) • p.2 :=
    List.map_congr_left fun p hp => by rw [hone p hp, one_mul]
  rw [e1, e2]

/-- **C50, runs are independent.** For every kernel but Taz the polarised consensus of a run is a function of the particles,
energies and parameter of that run: replacing the other runs (even changing their number) does not change it. -/
theorem C50_runs_partial (k : Kernel) (hk : k ≠ .taz) (kappa : ℝ) (mode : KernelMode) (wx wx' : Mat (ℝ × Flt ℝ × (ι → ℝ)))
    (c c' : Mat (ι → ℝ)) (h : polarConsensus k kappa mode wx = .ok c) (h' : polarConsensus k kappa mode wx' = .ok c')
    (m m' : ℕ) (hrow : wx.row m = wx'.row m') (i : ℕ) : c.get m i = c'.get m' i := by
  by_cases hmode : mode = .other
  · simp [polarConsensus, hmode] at h
  · simp only [polarConsensus, if_neg hmode, Except.ok.injEq] at h h'
    subst h h'
    simp only [hrow]
    have : ∀ mx mx', k.negLog (ι := ι) kappa mx = k.negLog kappa mx' := by
      intro mx mx'
      cases k <;> first | rfl | exact absurd rfl hk
    rw [this]

/-- The Taz kernel couples the runs. -/
noncomputable def tazArray (b : ℝ) : Mat (ℝ × Flt ℝ × (Fin 1 → ℝ)) :=
  ⟨2, 2, fun m i => (1, .fin 0, fun _ => if i = 0 then 0 else if m = 0 then 1 else b)⟩

/-- **C50 is false for the Taz kernel.** Two runs of two particles on the line, all energies 0, `kappa = 1`: the first run is at 0 and 1 in
both arrays, the second at 0 and `b`. The consensus of the first particle of the *first* run differs between `b = 1` and `b = 2`. -/
theorem C50_taz_false (mode : KernelMode) (hmode : mode ≠ .other) :
    (tazArray 1).row 0 = (tazArray 2).row 0 ∧
    ∃ c c', polarConsensus .taz 1 mode (tazArray 1) = .ok c ∧ polarConsensus .taz 1 mode (tazArray 2) = .ok c' ∧
      c.get 0 0 ≠ c'.get 0 0 := by
  have hd : ∀ u v : ℝ, pdist (fun _ : Fin 1 => u) (fun _ => v) = |u - v| := by
    intro u v
    simp [pdist, euclid, Real.sqrt_sq_eq_abs]
  have hmx : ∀ b : ℝ, 1 ≤ b → maxDist ((tazArray b).map fun p => p.2.2) = b := by
    intro b hb
    simp only [maxDist, Mat.map, tazArray, List.range_succ, List.range_zero, List.nil_append,
      List.flatMap_cons, List.flatMap_nil, List.map_cons, List.map_nil, List.append_nil, hd,
      List.cons_append, List.foldl_cons, List.foldl_nil]
    norm_num
    rw [abs_of_nonneg (by linarith)]
    simp only [max_eq_right, hb, le_refl, show (0 : ℝ) ≤ b by linarith]
  have hkf : mode.kf 1 = 1 := by cases mode <;> rfl
  have hval : ∀ b : ℝ, 1 ≤ b → ∃ c, polarConsensus .taz 1 mode (tazArray b) = .ok c ∧
      c.get 0 0 0 = Real.exp (-(1 / b) ^ 2) / (1 + Real.exp (-(1 / b) ^ 2)) := by
    intro b hb
    refine ⟨_, by unfold polarConsensus; rw [if_neg hmode], ?_⟩
    simp only
    rw [hmx b hb]
    have hl : (tazArray b).row 0 = finSample 1 [((0 : ℝ), fun _ : Fin 1 => (0 : ℝ)), (0, fun _ => 1)] := by
      simp [Mat.row, tazArray, finSample, List.range_succ]
    rw [hl]
    have hx : ((finSample 1 [((0 : ℝ), fun _ : Fin 1 => (0 : ℝ)), (0, fun _ => 1)]).map fun p => p.2.2).getD 0 0 = fun _ => 0 := rfl
    have hb0 : b ≠ 0 := by linarith
    have hm : Kernel.taz = .taz → b ≠ 0 := fun _ => hb0
    have hnl : ∀ x y : Fin 1 → ℝ, Kernel.taz.negLog 1 b x y = .fin ((pdist x y / b) ^ 2) := by
      intro x y
      simp only [Kernel.negLog, if_neg hb0, div_one, one_mul]
    have := polarAt_fin (a := 1) (kf := mode.kf) (nl := Kernel.taz.negLog 1 b) (kv := fun x y => Real.exp (-(pdist x y / b) ^ 2))
      (by rw [hkf]; exact one_pos) (fun x y => negLog_good .taz one_pos hm x y)
      (fun x y => by rw [hnl]; rfl) [((0 : ℝ), fun _ : Fin 1 => (0 : ℝ)), (0, fun _ => 1)] (fun _ => 0)
      ⟨_, List.mem_cons_self, Real.exp_pos _⟩
    unfold polarRule
    rw [hx, this, hkf]
    simp only [polarGibbs, List.map_cons, List.map_nil, List.sum_cons, List.sum_nil, hd, Real.rpow_one]
    simp [Pi.smul_apply]
    rw [← div_eq_inv_mul]
  refine ⟨by simp [Mat.row, tazArray], ?_⟩
  obtain ⟨c, hc, e⟩ := hval 1 le_rfl
  obtain ⟨c', hc', e'⟩ := hval 2 (by norm_num)
  refine ⟨c, c', hc, hc', ?_⟩
  intro h
  rw [h, e'] at e
  have h1 : (0 : ℝ) < Real.exp (-(1 / 1) ^ 2) := Real.exp_pos _
  have h2 : (0 : ℝ) < Real.exp (-(1 / 2) ^ 2) := Real.exp_pos _
  rw [div_eq_div_iff (by linarith) (by linarith)] at e
  have h3 : Real.exp (-(1 / 2 : ℝ) ^ 2) = Real.exp (-(1 / 1 : ℝ) ^ 2) := by linarith
  have h4 := Real.exp_injective h3
  norm_num at h4

/-- **C50, unknown mode.** The consensus step raises exactly for a kernel factor mode other than `'const'` and `'alpha'`. -/
theorem C50_mode (k : Kernel) (kappa : ℝ) (mode : KernelMode) (wx : Mat (ℝ × Flt ℝ × (ι → ℝ))) :
    polarConsensus k kappa mode wx = .error .notImpl ↔ ∀ a, mode.factor a = .error .notImpl := by
  cases mode <;> simp [polarConsensus, KernelMode.factor]

/-- The array-level consensus is the consensus rule used in the machine, for the kernels acting run by run. -/
theorem polarConsensus_apply (k : Kernel) (hk : k ≠ .taz) (kappa : ℝ) (mode : KernelMode) (hm : mode ≠ .other)
    (wx : Mat (ℝ × Flt ℝ × (ι → ℝ))) : polarConsensus k kappa mode wx = .ok ((polarCons k kappa mode).apply wx) := by
  have : ∀ mx mx', k.negLog (ι := ι) kappa mx = k.negLog kappa mx' := by
    intro mx mx'
    cases k <;> first | rfl | exact absurd rfl hk
  simp only [polarConsensus, if_neg hm, polarCons, Cons.apply]
  rw [this _ 1]

/-- The consensus points of a step of `PolarCBO` from a well-formed state. -/
theorem polar_step (env : Env ℝ (ι → ℝ)) (k : Kernel) (hk : k ≠ .taz) (kappa : ℝ) (hkap : 0 < kappa) (mode : KernelMode)
    (hc : env.cons = polarCons k kappa mode) (f : (ι → ℝ) → ℝ) (hf : ∀ v, env.f v = .fin (f v)) (hp : PermOK env)
    {s s' : St ℝ (ι → ℝ)} (hw : WF s) (hs : step env (cboInner env) s = .ok s')
    (kv : (ι → ℝ) → (ι → ℝ) → ℝ) (hkv : ∀ x y, k.call kappa 1 x y = .fin (kv x y)) :
    ∃ c, s'.cons = some c ∧ c.rows = s.active.length ∧ c.cols = s'.cIdx.cols ∧
      ∀ i < s.active.length, ∀ q, mode.factor (s.alpha (s.active.getD i 0)) = .ok q → 0 < q → ∀ j < c.cols,
        let pt := fun j => s.x.get (s.active.getD i 0) (s'.cIdx.par i j)
        c.get i j = polarGibbs (fun x y => kv x y ^ q) (s.alpha (s.active.getD i 0))
          ((List.range c.cols).map fun j => (f (pt j), pt j)) (pt j) ∧
        ∀ S : Set (ι → ℝ), Convex ℝ S → (∀ n < s.N, s.x.get (s.active.getD i 0) n ∈ S) → c.get i j ∈ S := by
  rw [cboInner_eq] at hs
  have fr := step_frame (consThen_frame (cboMove_ok env)) hs
  obtain ⟨v, hv, hps⟩ := step_split.1 hs
  obtain ⟨st, hcc, hmv⟩ := consThen_split.1 hv
  have hix := preStep_idx env hp hw
  have p1 := preStep_frame env s
  have pact : (preStep env s).active = s.active := by rw [p1]
  have px : (preStep env s).x = s.x := by rw [p1]
  have palpha : (preStep env s).alpha = s.alpha := by rw [p1]
  obtain ⟨cm, hcm, cm1, cm2, cm3⟩ := computeConsensus_polar hc (by rw [pact]; exact hix.cRows) hcc
  have hcons : s'.cons = some cm := by
    have m1 := (cboMove_ok env).frame _ _ hmv
    unfold MoveFrame at m1
    rw [(postStep_facts hps).frame]
    simp only
    rw [m1]
    exact hcm
  refine ⟨cm, hcons, by rw [cm1, pact], by rw [cm2, fr.cIdx], ?_⟩
  intro i hi q hq hq0 j hj
  simp only
  have hrun : (preStep env s).cIdx.run i = s.active.getD i 0 := hix.cRun i hi
  have hsam : sampleOf env (preStep env s) i = ((List.range cm.cols).map fun j =>
      (f (s.x.get (s.active.getD i 0) (s'.cIdx.par i j)), s.x.get (s.active.getD i 0) (s'.cIdx.par i j))).map
      fun p => (s.alpha (s.active.getD i 0), Flt.fin p.1, p.2) := by
    simp only [sampleOf, pact, px, palpha, hrun, hf, List.map_map, cm2, fr.cIdx]
    rfl
  have hmode : mode ≠ .other := by rintro rfl; cases hq
  have hpc := polarConsensus_apply k hk kappa mode hmode
    (⟨1, cm.cols, fun _ j => (s.alpha (s.active.getD i 0), Flt.fin (f (s.x.get (s.active.getD i 0) (s'.cIdx.par i j))),
      s.x.get (s.active.getD i 0) (s'.cIdx.par i j))⟩ : Mat (ℝ × Flt ℝ × (ι → ℝ)))
  have hget : cm.get i j = ((polarCons k kappa mode).apply
      (⟨1, cm.cols, fun _ j => (s.alpha (s.active.getD i 0), Flt.fin (f (s.x.get (s.active.getD i 0) (s'.cIdx.par i j))),
      s.x.get (s.active.getD i 0) (s'.cIdx.par i j))⟩ : Mat (ℝ × Flt ℝ × (ι → ℝ)))).get 0 j := by
    rw [cm3 i (by rw [pact]; exact hi), hsam]
    simp only [polarCons, Cons.apply, Mat.row, List.map_map]
    rfl
  have hkv' : ∀ mx (x y : ι → ℝ), k.call kappa mx x y = .fin (kv x y) := by
    intro mx x y
    rw [← hkv x y]
    cases k <;> first | rfl | exact absurd rfl hk
  have hlen : j < ((List.range cm.cols).map fun j =>
      (f (s.x.get (s.active.getD i 0) (s'.cIdx.par i j)), s.x.get (s.active.getD i 0) (s'.cIdx.par i j))).length := by
    simpa using hj
  have hrow : (⟨1, cm.cols, fun _ j => (s.alpha (s.active.getD i 0), Flt.fin (f (s.x.get (s.active.getD i 0) (s'.cIdx.par i j))),
      s.x.get (s.active.getD i 0) (s'.cIdx.par i j))⟩ : Mat (ℝ × Flt ℝ × (ι → ℝ))).row 0 =
      ((List.range cm.cols).map fun j =>
      (f (s.x.get (s.active.getD i 0) (s'.cIdx.par i j)), s.x.get (s.active.getD i 0) (s'.cIdx.par i j))).map
      fun p => (s.alpha (s.active.getD i 0), Flt.fin p.1, p.2) := by
    simp only [Mat.row, List.map_map]
    rfl
  refine ⟨?_, ?_⟩
  · have := (C50_weights k kappa hkap mode _ _ hpc (fun h => absurd h hk) kv (hkv' _) 0 _ _ hrow q hq hq0 ⟨j, hlen⟩).1
    rw [hget]
    refine this.trans ?_
    congr 1
    simp
  · intro S hS hx
    rw [hget]
    refine C50_convex k kappa hkap mode _ _ hpc (fun h => absurd h hk) 0 _ _ hrow q hq hq0 S hS ?_ j hlen
    intro p hp'
    obtain ⟨j', hj', rfl⟩ := List.mem_map.1 hp'
    refine hx _ ?_
    have := (hix.cIn i (by rw [hix.cRows]; exact hi) j' (by
      have := List.mem_range.1 hj'
      rw [cm2] at this
      exact this)).2
    rw [fr.cIdx]
    exact this

/-- **C50 in the dynamic.** Whatever happened before, after a step of `PolarCBO` (all kernels but Taz, `kappa > 0`, finite objective, any
noise and correction) the stored consensus point of slot `j` of the `i`-th active run is the quotient of sums over the batch of that
run, with weights `k(x_j, x_j')^q exp(-alpha f(x_j'))`, and lies in every convex set that contained the particles of that run
before the step. -/
theorem C50_step (env : Env ℝ (ι → ℝ)) (k : Kernel) (hk : k ≠ .taz) (kappa : ℝ) (hkap : 0 < kappa) (mode : KernelMode)
    (hc : env.cons = polarCons k kappa mode) (f : (ι → ℝ) → ℝ) (hf : ∀ v, env.f v = .fin (f v)) (hp : PermOK env)
    (hpost : PostOK env) (a : Args ℝ (ι → ℝ)) (s₀ s s' : St ℝ (ι → ℝ)) (ops : List Op) (h0 : init env a = .ok s₀)
    (h : execAll env (cboInner env) ops s₀ = .ok s) (hs : step env (cboInner env) s = .ok s')
    (kv : (ι → ℝ) → (ι → ℝ) → ℝ) (hkv : ∀ x y, k.call kappa 1 x y = .fin (kv x y)) :
    ∃ c, s'.cons = some c ∧ c.rows = s.active.length ∧ c.cols = s'.cIdx.cols ∧
      ∀ i < s.active.length, ∀ q, mode.factor (s.alpha (s.active.getD i 0)) = .ok q → 0 < q → ∀ j < c.cols,
        let pt := fun j => s.x.get (s.active.getD i 0) (s'.cIdx.par i j)
        c.get i j = polarGibbs (fun x y => kv x y ^ q) (s.alpha (s.active.getD i 0))
          ((List.range c.cols).map fun j => (f (pt j), pt j)) (pt j) ∧
        ∀ S : Set (ι → ℝ), Convex ℝ S → (∀ n < s.N, s.x.get (s.active.getD i 0) n ∈ S) → c.get i j ∈ S := by
  have hw : WF s := by
    rw [cboInner_eq] at h
    exact (execAll_induct (cboMove_ok env) hpost hp (P := fun _ => True) (fun _ _ _ _ _ _ => trivial) ops s₀ s
      (init_wf hp h0) trivial h).1
  exact polar_step env k hk kappa hkap mode hc f hf hp hw hs kv hkv

/-- **C50 is false for batches that move the whole ensemble.** With `batch_partial=False` and a batch of `2 ≤ B < N` particles a step of
`PolarCBO` raises: there is one consensus point per batch particle, but all `N` particles shall be moved. -/
theorem C50_batch_raises (env : Env ℝ (ι → ℝ)) (r : List (ℝ × Flt ℝ × (ι → ℝ)) → ℕ → ι → ℝ) (hc : env.cons = .polar r)
    (hp : PermOK env) (hpost : PostOK env) (a : Args ℝ (ι → ℝ)) (s₀ s : St ℝ (ι → ℝ)) (ops : List Op) (h0 : init env a = .ok s₀)
    (h : execAll env (cboInner env) ops s₀ = .ok s) (hb : s.batched = true) (hpa : s.batchPartial = false) (hB : 2 ≤ s.batchSize) :
    step env (cboInner env) s = .error .value := by
  have hw : WF s := by
    rw [cboInner_eq] at h
    exact (execAll_induct (cboMove_ok env) hpost hp (P := fun _ => True) (fun _ _ _ _ _ _ => trivial) ops s₀ s
      (init_wf hp h0) trivial h).1
  have hix := preStep_idx env hp hw
  have p1 := preStep_frame env s
  have pact : (preStep env s).active = s.active := by rw [p1]
  have px : (preStep env s).x = s.x := by rw [p1]
  have pe : (preStep env s).energy = s.energy := by rw [p1]
  have hpI := (preStep_pIdx env s hw).2.1 hb hpa
  by_cases hne : NonEmpty env s
  swap
  · unfold NonEmpty at hne
    push Not at hne
    exact step_empty (move := cboMove env) hp hw hne.1 (.inl (by by_contra h0; exact absurd (hne.2 h0) (by omega)))
  obtain ⟨st, hst⟩ := computeConsensus_total (env := env) (s := preStep env s) hne.pre (by rw [px, hw.xr, hw.xc]; exact hix.cIn)
    (by rw [pe, hw.er, hw.ec]; exact hix.cIn) (by rw [pact]; exact hix.cRows) (by rw [preStep_batchSize]; exact hix.cCols)
  obtain ⟨cm, hcm, cm1, cm2, -⟩ := computeConsensus_polar hc (by rw [pact]; exact hix.cRows) hst
  have cf := computeConsensus_frame hst
  have cx : st.x = s.x := by rw [cf]; exact px
  have cp : st.pIdx = Idx.ofRuns s.active s.N := by rw [cf]; exact hpI
  have hmv : cboMove env st = .error .value := by
    unfold cboMove
    rw [hcm, cx, cp]
    have hin : (Idx.ofRuns s.active s.N).InBounds s.x.rows s.x.cols := by
      have := hix.pIn
      rw [hpI] at this
      rw [hw.xr, hw.xc]; exact this
    simp only
    rw [Mat.gather_of_inBounds hin]
    have hlt := (hw.bat hb).1
    have hcc : cm.cols = s.batchSize := by rw [cm2, hix.cCols]
    have e : Mat.bdim s.N cm.cols = none := by
      rw [hcc]
      unfold Mat.bdim
      rw [if_neg (by omega), if_neg (by omega), if_neg (by omega)]
    have : Mat.bin (fun a b : ι → ℝ => a - b)
        ⟨(Idx.ofRuns s.active s.N).rows, (Idx.ofRuns s.active s.N).cols, fun i j =>
          s.x.get ((Idx.ofRuns s.active s.N).run i) ((Idx.ofRuns s.active s.N).par i j)⟩ cm = .error .value := by
      unfold Mat.bin
      simp only [Idx.ofRuns] at *
      rw [e]
      cases Mat.bdim s.active.length cm.rows <;> rfl
    simp only [bind, Except.bind] at *
    rw [this]
  unfold step cboInner
  simp only [bind, Except.bind, hst, hmv]

/-- **Covariance noise of `PolarCBO` raises with several runs.** For `M ≥ 2` runs, unless `M` equals the batch size (at least 2), the update
of the covariance raises. -/
theorem C50_covariance_raises (M N k B : ℕ) (hM : 2 ≤ M) (hMB : M ≠ B) (kf : ℕ → ℝ) (nl : ℕ → ℕ → ℕ → Flt ℝ)
    (alpha : ℕ → ℝ) (energy : ℕ → ℕ → Flt ℝ) (drift : ℕ → ℕ → ι → ℝ) :
    polarCov M N k B kf nl alpha energy drift = .error .value := by
  unfold polarCov
  rw [if_neg]
  rintro ⟨h | h, -⟩ <;> omega

/-- **Covariance noise of `PolarCBO` mixes the runs.** If there are as many runs as particles (two and two, all active, no batching) it does not
raise, but the matrix of particle 1 of run 0 is built from the drift of run 1: with run 0 collapsed (drift 0) and run 1 not it
is different from zero. -/
theorem C50_covariance_false : ∃ D : ℕ → ℕ → Fin 1 → Fin 1 → ℝ,
    polarCov 2 2 2 2 (fun _ => 1) (fun _ _ _ => .fin 0) (fun _ => 1) (fun _ _ => .fin 0)
      (fun m _ _ => if m = 0 then 0 else 1) = .ok D ∧ D 0 1 0 0 = 1 := by
  refine ⟨_, by unfold polarCov; rw [if_pos (by simp)], ?_⟩
  have hw : ∀ m i j, polarCovWeight 2 (fun _ => 1) (fun _ _ _ => .fin 0) (fun _ => 1) (fun _ _ => .fin 0) m i j = .fin 0 := by
    intro m i j
    simp [polarCovWeight, polarWeight, Flt.mul, Flt.sub, Flt.neg, Flt.add]
  have h2 : ([Flt.fin (0 : ℝ), .fin 0].map expFin).sum = 2 := by simp [expFin]; norm_num
  simp only [hw, List.range_succ, List.range_zero, List.nil_append, List.cons_append, List.map_cons, List.map_nil,
    List.sum_cons, List.sum_nil]
  rw [softmax_eq (by rw [h2]; norm_num), h2]
  simp [Mat.bpos, expFin]
  norm_num

/-- **Covariance noise of `PolarCBO` for a single run.** For `M = 1` and no batching the matrix of particle `i` is
`sum_j w_j d_j d_jᵀ` with weights `w_j ≥ 0` of sum 1, proportional to `exp(-(q neg_log(x_i, x_j) + alpha f_j))`. Missing: several
runs (`C50_covariance_raises`, `C50_covariance_false`) and batches. -/
theorem C50_covariance_partial (B : ℕ) (hB : 1 ≤ B) (kf : ℕ → ℝ) (nl : ℕ → ℕ → ℕ → ℝ) (alpha : ℕ → ℝ) (f : ℕ → ℕ → ℝ)
    (drift : ℕ → ℕ → ι → ℝ) : ∃ D, polarCov 1 B 1 B kf (fun m i j => .fin (nl m i j)) alpha (fun m j => .fin (f m j)) drift = .ok D ∧
    ∀ i < B, ∃ w : ℕ → ℝ,
      (∀ j, w j = Real.exp (-(kf 0 * nl 0 i j + alpha 0 * f 0 j)) /
        ((List.range B).map fun j' => Real.exp (-(kf 0 * nl 0 i j' + alpha 0 * f 0 j'))).sum) ∧
      (∀ j, 0 < w j) ∧ ((List.range B).map w).sum = 1 ∧
      ∀ a b, D 0 i a b = ((List.range B).map fun j => w j * (drift 0 j a * drift 0 j b)).sum := by
  refine ⟨_, by unfold polarCov; rw [if_pos (by simp)], ?_⟩
  intro i hi
  have hw : ∀ j, polarCovWeight 1 kf (fun m i j => .fin (nl m i j)) alpha (fun m j => .fin (f m j)) 0 i j =
      .fin (-(kf 0 * nl 0 i j + alpha 0 * f 0 j)) := by
    intro j
    simp only [polarCovWeight, polarWeight, Flt.mul, Flt.sub, Flt.neg, Flt.add, Mat.bpos, if_true]
    congr 1
    ring
  have hne : List.range B ≠ [] := by
    rw [Ne, List.range_eq_nil]; omega
  have hpos := list_sum_pos (List.range B) (fun j' => Real.exp (-(kf 0 * nl 0 i j' + alpha 0 * f 0 j'))) (fun _ _ => Real.exp_pos _) hne
  refine ⟨fun j => Real.exp (-(kf 0 * nl 0 i j + alpha 0 * f 0 j)) /
        ((List.range B).map fun j' => Real.exp (-(kf 0 * nl 0 i j' + alpha 0 * f 0 j'))).sum, fun _ => rfl,
    fun j => div_pos (Real.exp_pos _) hpos, ?_, ?_⟩
  · simp only [div_eq_mul_inv]
    rw [List.sum_map_mul_right, mul_inv_cancel₀ hpos.ne']
  · intro a b
    simp only [Mat.bpos, if_true]
    congr 1
    apply List.map_congr_left
    intro j _
    have hs : 0 < (((List.range B).map (polarCovWeight 1 kf (fun m i j => .fin (nl m i j)) alpha (fun m j => .fin (f m j)) 0 i)).map
        expFin).sum := by
      rw [List.map_map]
      simpa [Function.comp_def, hw, expFin] using hpos
    rw [softmax_eq hs, hw, List.map_map]
    simp only [Function.comp_def, hw, expFin]
    rw [div_eq_inv_mul]
    ring

/-- C50: one run of three particles on the line, Gaussian kernel: the hypotheses of `C50_weights` hold. -/
example : ∃ c, polarConsensus .gaussian 2 .alpha
      (⟨1, 3, fun _ j => (3, .fin j, fun _ => j)⟩ : Mat (ℝ × Flt ℝ × (Fin 1 → ℝ))) = .ok c ∧
    (⟨1, 3, fun _ j => (3, .fin j, fun _ => j)⟩ : Mat (ℝ × Flt ℝ × (Fin 1 → ℝ))).row 0 =
      [((0 : ℝ), fun _ : Fin 1 => (0 : ℝ)), (1, fun _ => 1), (2, fun _ => 2)].map (fun p => (3, .fin p.1, p.2)) ∧
    KernelMode.alpha.factor 3 = .ok 3 ∧
    ∀ x y : Fin 1 → ℝ, Kernel.gaussian.call 2 7 x y = .fin (Real.exp (-(1 / (2 * 2 ^ 2)) * sqdist x y)) :=
  ⟨_, by unfold polarConsensus; rw [if_neg (by decide)], by simp [Mat.row, List.range_succ], rfl, fun _ _ => rfl⟩

/-- **C50, no exception.** With no batching or `batch_partial=True` (the default), the built-in noise models but covariance, no correction,
and stateless termination criteria, no sequence of steps, checks, scheduler updates and resets of `PolarCBO` raises; the shapes
are kept. As in `C19_never_raises_partial`, no step is made without particles, unless this is tolerated. -/
theorem C50_never_raises {K V : Type} [Zero K] [One K] [Neg K] [Add K] [Sub K] [Mul K] [Inv K] [Div K] [NatCast K] [Pow K ℕ] [LinearOrder K] [Add V] [Sub V] [SMul K V] (env : Env K V)
    (hcorr : env.corr = .none) (hpolar : ∃ r, env.cons = .polar r) (hnoise : NoiseOK env)
    (hpost : ∀ s, ∃ x', env.post s = .ok x' ∧ x'.rows = s.x.rows ∧ x'.cols = s.x.cols) (hsched : ∀ s, ∃ p, env.sched s = .ok p)
    (hp : PermOK env) (a : Args K V) (hN : 1 ≤ a.x0.cols) (hsi : 1 ≤ a.saveInt) (hst : ∀ tm ∈ a.terms, Stateless tm)
    (hba : a.batchSize = none ∨ a.batchPartial = true) (hb0 : env.emptyRaises = true → a.batchSize ≠ some 0) :
    ∃ s₀, init env a = .ok s₀ ∧ ∀ ops : List Op, (env.emptyRaises = true → StepsActive env (cboInner env) ops s₀) →
      ∃ s, execAll env (cboInner env) ops s₀ = .ok s ∧ s.x.rows = a.x0.rows ∧ s.x.cols = a.x0.cols ∧ s.energy.rows = a.x0.rows ∧ s.energy.cols = a.x0.cols := by
  have postOK : PostOK env := by
    intro s x' hx
    obtain ⟨y, hy, h1, h2⟩ := hpost s
    rw [hy] at hx
    injection hx with hx
    subst hx
    exact ⟨h1, h2⟩
  have h0 : ∃ s₀, init env a = .ok s₀ ∧ s₀.saveInt = a.saveInt ∧ s₀.terms = a.terms ∧ s₀.M = a.x0.rows ∧
      s₀.N = a.x0.cols ∧ (s₀.batched = false ∨ s₀.batchPartial = true) := by
    unfold init
    rw [if_neg (by omega)]
    refine ⟨_, rfl, ?_, ?_, ?_, ?_, ?_⟩
    · split_ifs <;> rfl
    · split_ifs <;> rfl
    · split_ifs <;> rfl
    · split_ifs <;> rfl
    · rcases hba with h | h
      · left; unfold initBatch; simp [h, batchSizeOf]
      · right; split_ifs <;> exact h
  obtain ⟨s₀, h0, e1, e2, e3, e4, e5⟩ := h0
  refine ⟨s₀, h0, ?_⟩
  have key : ∀ (ops : List Op) (s : St K V), WF s → s.saveInt ≠ 0 → (∀ tm ∈ s.terms, Stateless tm) →
      (s.batched = false ∨ s.batchPartial = true) → (env.emptyRaises = true → s.batchSize ≠ 0) →
      (env.emptyRaises = true → StepsActive env (cboInner env) ops s) →
      ∃ s', execAll env (cboInner env) ops s = .ok s' ∧ WF s' ∧ s'.M = s.M ∧ s'.N = s.N := by
    intro ops
    induction ops with
    | nil => intro s hw _ _ _ _ _; exact ⟨s, rfl, hw, rfl, rfl⟩
    | cons o l ih =>
      intro s hw hsi hst hbp hbz hact
      have hex : ∃ q, exec env (cboInner env) o s = .ok q ∧ q.saveInt ≠ 0 ∧ q.terms = s.terms ∧ q.M = s.M ∧
          q.N = s.N ∧ q.batched = s.batched ∧ q.batchPartial = s.batchPartial ∧ q.batchSize = s.batchSize := by
        cases o with
        | step =>
          obtain ⟨q, hq⟩ := cboStep_total_polar hcorr hpolar hpost hp hw hsi (fun h => ⟨(hact h).1 rfl, hbz h⟩) hbp fun q d h _ _ _ _ _ _ => hnoise q d h
          have f := step_frame (consThen_frame (cboMove_ok env)) hq
          exact ⟨q, hq, by rw [f.saveInt]; exact hsi, f.terms, f.M, f.N, f.batched, f.batchPartial, f.batchSize⟩
        | select =>
          obtain ⟨q, h1, h2, -⟩ := select_stateless (env := env) hst
          exact ⟨q, h1, by rw [h2]; exact hsi, by rw [h2], by rw [h2], by rw [h2], by rw [h2], by rw [h2], by rw [h2]⟩
        | sched =>
          obtain ⟨pp, hpp⟩ := hsched s
          exact ⟨{s with alpha := pp.alpha, lamda := pp.lamda, sigma := pp.sigma, dt := pp.dt},
            by simp only [exec, schedUpdate, hpp]; rfl, hsi, rfl, rfl, rfl, rfl, rfl, rfl⟩
        | reset => exact ⟨_, rfl, by simp [reset, initHistory], rfl, rfl, rfl, rfl, rfl, rfl⟩
      obtain ⟨q, hq, q1, q2, q3, q4, q5, q6, q7⟩ := hex
      have hwq := exec_wf (cboMove_ok env) postOK hp hw (o := o) hq
      obtain ⟨s', r1, r2, r3, r4⟩ := ih q hwq q1 (by rw [q2]; exact hst) (by rw [q5, q6]; exact hbp) (by rw [q7]; exact hbz)
        fun h => (hact h).2 q hq
      refine ⟨s', ?_, r2, by omega, by omega⟩
      simp only [execAll, bind_ok]
      exact ⟨q, hq, r1⟩
  intro ops hops
  obtain ⟨s, r1, r2, r3, r4⟩ := key ops s₀ (init_wf hp h0) (by omega) (by rw [e2]; exact hst) e5 (fun h => init_batch_pos h0 (hb0 h)) hops
  exact ⟨s, r1, by rw [r2.xr, r3, e3], by rw [r2.xc, r4, e4], by rw [r2.er, r3, e3], by rw [r2.ec, r4, e4]⟩

/-- The dynamic of `Spec/ExampleReal` with the polarised consensus. -/
noncomputable def Example.polarEnv (k : Kernel) (mode : KernelMode) : Env ℝ (Fin 2 → ℝ) :=
  { Example.realEnv (rowNoise isoRule Example.smp) with cons := polarCons k 2 mode }

/-- C50: two runs of four particles with batches of two, moved partially: the hypotheses of `C50_never_raises` hold, hence those of
`C50_step` for every sequence of operations. -/
example (k : Kernel) (mode : KernelMode) (x : ℕ → ℕ → Fin 2 → ℝ) :
    ∃ s₀, init (Example.polarEnv k mode) (Example.realArgs x 1 (some 2)) = .ok s₀ ∧ ∀ ops : List Op,
      ∃ s, execAll (Example.polarEnv k mode) (cboInner (Example.polarEnv k mode)) ops s₀ = .ok s := by
  obtain ⟨s₀, h0, h1⟩ := C50_never_raises (Example.polarEnv k mode) rfl ⟨_, rfl⟩ (Example.realEnv_standard isoRule).noise.ok
    (fun s => ⟨_, rfl, rfl, rfl⟩) (fun s => ⟨_, rfl⟩) (Example.perm_ok (rowNoise isoRule Example.smp))
    (Example.realArgs x 1 (some 2)) (by simp [Example.realArgs]) (by simp [Example.realArgs]) (by
      intro tm ht
      simp only [Example.realArgs, List.mem_cons, List.not_mem_nil, or_false] at ht
      rcases ht with rfl | rfl <;> trivial) (Or.inr rfl) (fun h => by cases h)
  exact ⟨s₀, h0, fun ops => let ⟨s, h, _⟩ := h1 ops (fun h => by cases h); ⟨s, h⟩⟩

/-- C50: a start state with batches of two that move everything, for `C50_batch_raises`. -/
example (k : Kernel) (mode : KernelMode) (x : ℕ → ℕ → Fin 2 → ℝ) :
    ∃ s₀, init (Example.polarEnv k mode) { Example.realArgs x 1 (some 2) with batchPartial := false } = .ok s₀ ∧
      s₀.batched = true ∧ s₀.batchPartial = false ∧ 2 ≤ s₀.batchSize := by
  unfold init
  rw [if_neg (by simp [Example.realArgs])]
  refine ⟨_, rfl, ?_, ?_, ?_⟩ <;> simp [Example.realArgs, initBatch, batchSizeOf, initHistory, checkFDims, callF, baseSt]

end Verif
