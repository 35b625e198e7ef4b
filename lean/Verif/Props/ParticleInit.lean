import Verif.Model.ParticleInit
import Verif.Spec.ParticleInit
import Mathlib.Tactic.Linarith
import Mathlib.Tactic.Ring
import Mathlib.Tactic.NormNum
import Mathlib.Tactic.LinearCombination
import Mathlib.Algebra.BigOperators.Ring.Finset

/-! Property C66: initial particles. -/

set_option linter.unusedSectionVars false

namespace Verif

variable (shape : List ℕ) (xMin xMax delta : ℝ) (v : ℕ → ℕ → ℕ → ℝ) (unif z : ℕ → ℝ)

/-- **C66, exceptions.** `init_particles` raises, always a `RuntimeError`, if and only if the method is unknown, or the method is `"normal"` and the shape has not two or three axes. -/
theorem C66_raises (method : String) :
    ((∃ e, initParticles shape xMin xMax delta method v unif z = .error e) ↔
      (method ≠ "uniform" ∧ method ≠ "normal") ∨ (method = "normal" ∧ shape.length ≠ 2 ∧ shape.length ≠ 3)) ∧
    ∀ e, initParticles shape xMin xMax delta method v unif z = .error e → e = .runtime := by
  unfold initParticles
  by_cases h1 : method = "uniform"
  · subst h1
    simp
  · by_cases h2 : method = "normal"
    · subst h2
      match shape with
      | [] => simp [eq_comm]
      | [a] => simp [eq_comm]
      | [a, b] => simp
      | [a, b, c] => simp
      | a :: b :: c :: d :: l => simp [eq_comm]
    · simp [h1, h2, eq_comm]

/-- **C66, shape.** For shapes with two or three axes both methods give, after the constructor's `init_x`, an ensemble of shape `(M, N, d)` with `M N d` entries, where `M = 1` if the shape was `(N, d)`. -/
theorem C66_ensemble (method : String) (hm : method = "uniform" ∨ method = "normal") (M N d : ℕ) (hs : shape = [M, N, d] ∨ (shape = [N, d] ∧ M = 1))
    (M' N' : ℕ) (d' : Option ℕ) (smp : ℕ → ℝ) :
    ∃ x y, initParticles shape xMin xMax delta method v unif z = .ok x ∧ initX (some x) M' N' d' smp = .ok y ∧ y.shape = [M, N, d] ∧ y.WF := by
  rcases hm with rfl | rfl <;> rcases hs with rfl | ⟨rfl, rfl⟩
  · exact ⟨_, _, rfl, rfl, rfl, by simp [Nd.WF, uniformArray]⟩
  · exact ⟨_, _, rfl, rfl, rfl, by simp [Nd.WF, uniformArray]⟩
  · exact ⟨_, _, rfl, rfl, rfl, by simp [Nd.WF, normalArray, mul_assoc]⟩
  · exact ⟨_, _, rfl, rfl, rfl, by simp [Nd.WF, normalArray]⟩

/-- **C66, uniform.** Any shape is accepted and returned, and all entries lie in `[x_min, x_max)` (for `x_min < x_max`; with `x_max < x_min` in `(x_max, x_min]`). -/
theorem C66_uniform (hu : ∀ i, 0 ≤ unif i ∧ unif i < 1) :
    ∃ x, initParticles shape xMin xMax delta "uniform" v unif z = .ok x ∧ x.shape = shape ∧ x.WF ∧
      (xMin < xMax → ∀ a ∈ x.data, xMin ≤ a ∧ a < xMax) ∧ (xMax < xMin → ∀ a ∈ x.data, xMax < a ∧ a ≤ xMin) := by
  refine ⟨_, rfl, rfl, by simp [Nd.WF, uniformArray], ?_, ?_⟩
  · intro h a ha
    simp only [uniformArray, List.mem_map] at ha
    obtain ⟨i, -, rfl⟩ := ha
    obtain ⟨h1, h2⟩ := hu i
    constructor <;> nlinarith
  · intro h a ha
    simp only [uniformArray, List.mem_map] at ha
    obtain ⟨i, -, rfl⟩ := ha
    obtain ⟨h1, h2⟩ := hu i
    constructor <;> nlinarith

/-- **C66, normal.** Entry `(m, n, c)` of the result is a linear combination of the `d` standard normal numbers of that particle only, no two particles share one, and the squared Euclidean norm of each particle
is exactly `delta²` times the squared norm of its standard normal numbers. So the particles are scaled by `|delta|` and only rotated otherwise, for every sign of `delta` and every decomposition LAPACK may return. -/
theorem C66_normal (M N d : ℕ) (hv : RowsOrthonormal d (v d)) :
    ∃ x, initParticles [M, N, d] xMin xMax delta "normal" v unif z = .ok x ∧ x.shape = [M, N, d] ∧
      ∀ m < M, ∀ n < N,
        (∀ c < d, ∃ a, x.at? [m, n, c] = some a ∧ ∀ z', (∀ j < d, z' ((m * N + n) * d + j) = z ((m * N + n) * d + j)) → normalEntry delta d (v d) z' (m * N + n) c = a) ∧
        ∑ c ∈ Finset.range d, ((x.at? [m, n, c]).getD 0) ^ 2 = delta ^ 2 * ∑ j ∈ Finset.range d, z ((m * N + n) * d + j) ^ 2 := by
  refine ⟨_, rfl, rfl, ?_⟩
  intro m hm n hn
  have hat : ∀ c < d, (normalArray delta M N d (v d) z).at? [m, n, c] = some (normalEntry delta d (v d) z (m * N + n) c) := by
    intro c hc
    have hd : 0 < d := by omega
    have e : Nd.ravel [M, N, d] [m, n, c] = (m * N + n) * d + c := by
      simp [Nd.ravel]
      ring
    have hlt : (m * N + n) * d + c < M * N * d := by
      have h1 : m * N + n + 1 ≤ M * N := by nlinarith
      have h2 : (m * N + n + 1) * d ≤ M * N * d := Nat.mul_le_mul_right d h1
      nlinarith
    unfold Nd.at?
    simp only [normalArray]
    rw [e, List.getElem?_map, List.getElem?_range hlt]
    simp only [Option.map_some]
    rw [show ((m * N + n) * d + c) / d = m * N + n by rw [Nat.mul_comm, Nat.mul_add_div hd, Nat.div_eq_of_lt hc, Nat.add_zero],
      show ((m * N + n) * d + c) % d = c by rw [Nat.mul_comm, Nat.mul_add_mod, Nat.mod_eq_of_lt hc]]
  refine ⟨fun c hc => ⟨_, hat c hc, fun z' hz' => ?_⟩, ?_⟩
  · unfold normalEntry
    refine Finset.sum_congr rfl fun j hj => ?_
    rw [hz' j (Finset.mem_range.1 hj)]
  · have e1 : ∀ c ∈ Finset.range d, (((normalArray delta M N d (v d) z).at? [m, n, c]).getD 0) ^ 2 =
        delta ^ 2 * ∑ i ∈ Finset.range d, ∑ j ∈ Finset.range d, z ((m * N + n) * d + i) * z ((m * N + n) * d + j) * (v d i c * v d j c) := by
      intro c hc
      rw [hat c (Finset.mem_range.1 hc), Option.getD_some, normalEntry, pow_two, Finset.sum_mul_sum, Finset.mul_sum]
      refine Finset.sum_congr rfl fun i _ => ?_
      rw [Finset.mul_sum]
      refine Finset.sum_congr rfl fun j _ => ?_
      linear_combination z ((m * N + n) * d + i) * z ((m * N + n) * d + j) * v d i c * v d j c * Real.mul_self_sqrt (sq_nonneg delta)
    rw [Finset.sum_congr rfl e1, ← Finset.mul_sum]
    congr 1
    rw [Finset.sum_comm]
    refine Finset.sum_congr rfl fun i hi => ?_
    rw [Finset.sum_comm]
    have e2 : ∀ j ∈ Finset.range d, ∑ c ∈ Finset.range d, z ((m * N + n) * d + i) * z ((m * N + n) * d + j) * (v d i c * v d j c) =
        if i = j then z ((m * N + n) * d + i) ^ 2 else 0 := by
      intro j hj
      rw [← Finset.mul_sum, hv i (Finset.mem_range.1 hi) j (Finset.mem_range.1 hj)]
      split_ifs with h
      · subst h; ring
      · ring
    rw [Finset.sum_congr rfl e2, Finset.sum_ite_eq, if_pos hi]

/-- C66, disagreement with the documented shape `(M, N, d)` of the result: for `shape = (N, d)` the method `"normal"` returns `(1, N, d)`, the default `"uniform"` returns `(N, d)`. -/
theorem C66_shape_false (N d : ℕ) : ∃ x y, initParticles [N, d] xMin xMax delta "normal" v unif z = .ok x ∧ initParticles [N, d] xMin xMax delta "uniform" v unif z = .ok y ∧
    x.shape = [1, N, d] ∧ y.shape = [N, d] := ⟨_, _, rfl, rfl, rfl, rfl⟩

/-- C66: a rotation by 3/5, 4/5 in two dimensions has orthonormal rows. -/
example : RowsOrthonormal 2 fun i j => if i = j then 3 / 5 else if i = 0 then 4 / 5 else -(4 / 5) := by
  intro i hi j hj
  have h1 : i = 0 ∨ i = 1 := by omega
  have h2 : j = 0 ∨ j = 1 := by omega
  rcases h1 with rfl | rfl <;> rcases h2 with rfl | rfl <;> norm_num [Finset.sum_range_succ]

/-- C66: numbers in `[0, 1)`, and the exceptional cases. -/
example : (∀ i : ℕ, (0 : ℝ) ≤ (fun i : ℕ => 1 / ((i : ℝ) + 2)) i ∧ (fun i : ℕ => 1 / ((i : ℝ) + 2)) i < 1) ∧
    initParticles [3] xMin xMax delta "normal" v unif z = .error .runtime ∧ initParticles [3, 5, 7] xMin xMax delta "unknown" v unif z = .error .runtime := by
  refine ⟨fun i => ⟨by positivity, ?_⟩, rfl, rfl⟩
  have : (0 : ℝ) ≤ i := Nat.cast_nonneg i
  rw [div_lt_one (by linarith)]
  linarith

end Verif
