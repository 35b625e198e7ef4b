import Verif.Proofs.Objectives
import Verif.Proofs.Holder

/-! Property C42: documented minima of the test objectives. -/

namespace Verif

open Obj Real

/-- **C42, three-hump camel**: `(0,0)` is the only global minimiser, value 0. -/
theorem C42_three_hump : UniqueMin threeHump ![0, 0] 0 := by
  have key : ∀ x : Fin 2 → ℝ, threeHump x = (x 1 + x 0 / 2) ^ 2 +
      x 0 ^ 2 * ((x 0 ^ 2 - 3.15) ^ 2 / 6 + (7 / 4 - 3.15 ^ 2 / 6)) := fun x => by
    simp only [threeHump]; ring
  have pos : ∀ u : ℝ, 0 < (u ^ 2 - 3.15) ^ 2 / 6 + ((7 : ℝ) / 4 - 3.15 ^ 2 / 6) := fun u => by
    have : (0 : ℝ) < 7 / 4 - 3.15 ^ 2 / 6 := by norm_num
    have := sq_nonneg (u ^ 2 - 3.15)
    linarith
  refine ⟨⟨by simp [threeHump], fun x => ?_⟩, fun x hx => ?_⟩
  · rw [key]
    exact add_nonneg (sq_nonneg _) (mul_nonneg (sq_nonneg _) (pos _).le)
  · rw [key] at hx
    have h1 := sq_nonneg (x 1 + x 0 / 2)
    have h2 := mul_nonneg (sq_nonneg (x 0)) (pos (x 0)).le
    have h3 : x 0 ^ 2 * ((x 0 ^ 2 - 3.15) ^ 2 / 6 + ((7 : ℝ) / 4 - 3.15 ^ 2 / 6)) = 0 := by linarith
    have h4 : x 0 = 0 := by
      rcases mul_eq_zero.1 h3 with h | h
      · exact pow_eq_zero_iff (two_ne_zero) |>.1 h
      · exact absurd h (pos _).ne'
    have h5 : (x 1 + x 0 / 2) ^ 2 = 0 := by linarith
    have h6 : x 1 = 0 := by
      have := pow_eq_zero_iff (two_ne_zero) |>.1 h5
      rw [h4] at this; linarith
    funext i
    fin_cases i <;> simp [h4, h6]

/-- **C42 is false for McCormick**: none of the two documented points is a global minimiser (on all of `ℝ²` the function is
unbounded below), and the second one is not even as good as the first. -/
theorem C42_mccormick_false :
    (∀ v : ℝ, ∃ x, mcCormick x < v) ∧ (∀ p ∈ mcCormickMinima, ∀ v, ¬ GlobalMin mcCormick p v) ∧
      mcCormick ![-0.54719, -1.54719] < mcCormick ![1.54719, 0.54719] := by
  have h1 : ∀ v : ℝ, ∃ x, mcCormick x < v := by
    intro v
    refine ⟨![v - 3, v - 3], ?_⟩
    have := sin_le_one (v - 3 + (v - 3))
    simp only [mcCormick, Matrix.cons_val_zero, Matrix.cons_val_one]
    norm_num
    linarith
  refine ⟨h1, ?_, ?_⟩
  · intro p _ v hp
    obtain ⟨x, hx⟩ := h1 v
    have := hp.2 x
    linarith
  · simp only [mcCormick, Matrix.cons_val_zero, Matrix.cons_val_one]
    have h := neg_one_le_sin (1.54719 + 0.54719)
    have h' := sin_le_one (-0.54719 + -1.54719)
    norm_num at h h' ⊢
    linarith

/-- **C42, Rosenbrock**: for `b > 0` the point `(a, a²)` — `(1,1)` for the default `a = 1` — is the only global minimiser,
value 0. -/
theorem C42_rosenbrock (a b : ℝ) (hb : 0 < b) : UniqueMin (rosenbrock a b) ![a, a ^ 2] 0 := by
  refine ⟨⟨by simp [rosenbrock], fun x => ?_⟩, fun x hx => ?_⟩
  · exact add_nonneg (sq_nonneg _) (mul_nonneg hb.le (sq_nonneg _))
  · simp only [rosenbrock] at hx
    have h1 := sq_nonneg (a - x 0)
    have h2 := mul_nonneg hb.le (sq_nonneg (x 1 - x 0 ^ 2))
    have h3 : (a - x 0) ^ 2 = 0 := by linarith
    have h4 : b * (x 1 - x 0 ^ 2) ^ 2 = 0 := by linarith
    have h5 : x 0 = a := by have := pow_eq_zero_iff (two_ne_zero) |>.1 h3; linarith
    have h6 : x 1 = a ^ 2 := by
      rcases mul_eq_zero.1 h4 with h | h
      · exact absurd h hb.ne'
      · have := pow_eq_zero_iff (two_ne_zero) |>.1 h; rw [h5] at this; linarith
    funext i
    fin_cases i <;> simp [h5, h6]

example : UniqueMin (rosenbrock 1 100) ![1, 1] 0 := by simpa using C42_rosenbrock 1 100 (by norm_num)

/-- **C42, Himmelblau** (partial): with the default factor 1, `(3,2)` is a global minimiser with value 0, and at the other three
documented points, which are roundings, the value exceeds the global minimum 0 by less than `10⁻⁹`. For another factor the
minimisers are the documented points divided by the factor. -/
theorem C42_himmelblau_partial : GlobalMin (himmelblau 1) ![3, 2] 0 ∧ (∀ p ∈ himmelblauMinima, himmelblau 1 p < 1e-9) ∧
    ∀ factor : ℝ, factor ≠ 0 → ∀ p v, GlobalMin (himmelblau 1) p v → GlobalMin (himmelblau factor) (fun i => p i / factor) v := by
  refine ⟨⟨?_, fun x => ?_⟩, ?_, ?_⟩
  · simp only [himmelblau, Matrix.cons_val_zero, Matrix.cons_val_one]; norm_num
  · exact add_nonneg (sq_nonneg _) (sq_nonneg _)
  · intro p hp
    simp only [himmelblauMinima, List.mem_cons, List.not_mem_nil, or_false] at hp
    rcases hp with rfl | rfl | rfl | rfl <;>
      simp only [himmelblau, Matrix.cons_val_zero, Matrix.cons_val_one] <;> norm_num
  · intro factor hf p v hp
    have e : ∀ x : Fin 2 → ℝ, himmelblau factor x = himmelblau 1 fun i => factor * x i := fun x => by simp [himmelblau]
    refine ⟨?_, fun x => ?_⟩
    · rw [e, ← hp.1]
      congr 1
      funext i
      field_simp
    · rw [e]; exact hp.2 _

/-- **C42 is false for Himmelblau** with `factor ≠ 1`: the attribute `minima` is not rescaled. Here factor 2: none of the listed
points is a global minimiser. Already for factor 1, three of the listed points are only approximate. -/
theorem C42_himmelblau_false :
    (∀ p ∈ himmelblauMinima, ∀ v, ¬ GlobalMin (himmelblau 2) p v) ∧
      ∀ v, ¬ GlobalMin (himmelblau 1) ![-2.805118, 3.131312] v := by
  have h0 : himmelblau 2 ![3 / 2, 1] = 0 := by
    simp only [himmelblau, Matrix.cons_val_zero, Matrix.cons_val_one]; norm_num
  constructor
  · intro p hp v hv
    have h1 := hv.2 ![3 / 2, 1]
    rw [h0, ← hv.1] at h1
    revert h1
    simp only [himmelblauMinima, List.mem_cons, List.not_mem_nil, or_false] at hp
    rcases hp with rfl | rfl | rfl | rfl <;>
      simp only [himmelblau, Matrix.cons_val_zero, Matrix.cons_val_one] <;> norm_num
  · intro v hv
    have h1 := hv.2 ![3, 2]
    rw [C42_himmelblau_partial.1.1, ← hv.1] at h1
    revert h1
    simp only [himmelblau, Matrix.cons_val_zero, Matrix.cons_val_one]
    norm_num

/-- **C42, Rastrigin**: in every dimension, for `A ≥ 0`, the point `(b,…,b)` is the only global minimiser, value `c`. -/
theorem C42_rastrigin {d : ℕ} (b c A : ℝ) (hA : 0 ≤ A) : UniqueMin (rastrigin (d := d) b c A) (fun _ => b) c := by
  have nn : ∀ (x : Fin d → ℝ) i, 0 ≤ (x i - b) ^ 2 + A * (1 - cos (2 * π * (x i - b))) := fun x i =>
    add_nonneg (sq_nonneg _) (mul_nonneg hA (by linarith [cos_le_one (2 * π * (x i - b))]))
  refine ⟨⟨by simp [rastrigin_eq], fun x => ?_⟩, fun x hx => ?_⟩
  · rw [rastrigin_eq]
    linarith [Finset.sum_nonneg fun i (_ : i ∈ Finset.univ) => nn x i]
  · rw [rastrigin_eq] at hx
    have h0 : ∑ i, ((x i - b) ^ 2 + A * (1 - cos (2 * π * (x i - b)))) = 0 := by linarith
    rw [Finset.sum_eq_zero_iff_of_nonneg fun i _ => nn x i] at h0
    funext i
    have h1 := h0 i (Finset.mem_univ i)
    have h2 := mul_nonneg hA (by linarith [cos_le_one (2 * π * (x i - b))] : 0 ≤ 1 - cos (2 * π * (x i - b)))
    have h3 : (x i - b) ^ 2 = 0 := by linarith [sq_nonneg (x i - b)]
    have := pow_eq_zero_iff (two_ne_zero) |>.1 h3
    linarith

example : UniqueMin (rastrigin (d := 3) 2 (-1) 10) (fun _ => 2) (-1) := C42_rastrigin 2 (-1) 10 (by norm_num)

/-- **C42, Ackley**: in every dimension `d ≥ 1`, for `A, b ≥ 0`, the point `minima` is a global minimiser with value 0; the only
one if `A, b > 0`. -/
theorem C42_ackley {d : ℕ} (hd : 0 < d) (A b c : ℝ) (hA : 0 ≤ A) (hb : 0 ≤ b) (m : Fin d → ℝ) :
    GlobalMin (ackley A b c m) m 0 ∧ (0 < A → 0 < b → UniqueMin (ackley A b c m) m 0) := by
  have hd' : (0 : ℝ) < d := by exact_mod_cast hd
  have e1 : ∀ x : Fin d → ℝ, -b * √(1 / d) * norm2 (fun i => x i - m i) ≤ 0 := fun x => by
    have := mul_nonneg (mul_nonneg hb (sqrt_nonneg (1 / (d : ℝ)))) (norm2_nonneg fun i => x i - m i)
    linarith
  have g : GlobalMin (ackley A b c m) m 0 := by
    constructor
    · simp only [ackley, sub_self, mul_zero, cos_zero, norm2]
      have : (0 : ℝ) ^ 2 = 0 := by norm_num
      simp only [this, Finset.sum_const_zero, sqrt_zero, mul_zero, exp_zero, Finset.sum_const, Finset.card_univ,
        Fintype.card_fin, nsmul_eq_mul, mul_one]
      rw [one_div, inv_mul_cancel₀ hd'.ne']
      ring
    · intro x
      simp only [ackley]
      have h1 : exp (-b * √(1 / d) * norm2 fun i => x i - m i) ≤ 1 := exp_le_one_iff.2 (e1 x)
      have h2 : exp ((1 / (d : ℝ)) * ∑ i, cos (c * (x i - m i))) ≤ exp 1 := exp_le_exp.2 (ackley_arg2 hd c _)
      have h3 := mul_le_mul_of_nonneg_left h1 hA
      linarith
  refine ⟨g, fun hA' hb' => ⟨g, fun x hx => ?_⟩⟩
  simp only [ackley] at hx
  have h2 : exp ((1 / (d : ℝ)) * ∑ i, cos (c * (x i - m i))) ≤ exp 1 := exp_le_exp.2 (ackley_arg2 hd c _)
  have h1 : exp (-b * √(1 / d) * norm2 fun i => x i - m i) ≤ 1 := exp_le_one_iff.2 (e1 x)
  have h3 : A * 1 ≤ A * exp (-b * √(1 / d) * norm2 fun i => x i - m i) := by linarith
  have h4 := le_of_mul_le_mul_left h3 hA'
  have h5 : -b * √(1 / d) * norm2 (fun i => x i - m i) = 0 := by
    have := exp_eq_one_iff _ |>.1 (le_antisymm h1 h4)
    exact this
  have h6 : norm2 (fun i => x i - m i) = 0 := by
    rcases mul_eq_zero.1 h5 with h | h
    · have : √(1 / (d : ℝ)) ≠ 0 := (sqrt_pos.2 (by positivity)).ne'
      rcases mul_eq_zero.1 h with h | h
      · linarith
      · exact absurd h this
    · exact h
  have h7 := norm2_eq_zero h6
  funext i
  have := congrFun h7 i
  simp only [Pi.zero_apply] at this
  linarith

example : UniqueMin (ackley (d := 4) 20 0.2 (2 * π) (fun _ => 1)) (fun _ => 1) 0 :=
  (C42_ackley (by norm_num) 20 0.2 (2 * π) (by norm_num) (by norm_num) _).2 (by norm_num) (by norm_num)

/-- **C42, multimodal Rastrigin and Ackley**: every shift vector `z_i` (these are the attribute `minima`) is a global minimiser
with value 0, for all factors `alpha_i`; and if no `alpha_i` is 0 there are no others. -/
theorem C42_multimodal {d : ℕ} (hd : 0 < d) (l : List (ℝ × (Fin d → ℝ))) :
    (∀ p ∈ l, GlobalMin (multimodal (rastrigin 0 0 10) l) p.2 0 ∧ GlobalMin (multimodal (ackley 20 0.2 (2 * π) 0) l) p.2 0) ∧
    ((∀ p ∈ l, p.1 ≠ 0) → ∀ x, (multimodal (rastrigin 0 0 10) l x = 0 → ∃ p ∈ l, x = p.2) ∧
      (multimodal (ackley 20 0.2 (2 * π) 0) l x = 0 → ∃ p ∈ l, x = p.2)) := by
  have hr : UniqueMin (rastrigin (d := d) 0 0 10) 0 0 := C42_rastrigin 0 0 10 (by norm_num)
  have ha := C42_ackley hd 20 0.2 (2 * π) (by norm_num) (by norm_num) (0 : Fin d → ℝ)
  have ha2 := ha.2 (by norm_num) (by norm_num)
  refine ⟨fun p hp => ⟨multimodal_min _ hr.1 l p hp, multimodal_min _ ha.1 l p hp⟩, fun hl x => ⟨fun h => ?_, fun h => ?_⟩⟩
  · rcases ((multimodal_acc _ hr.1.2 l x 1 zero_le_one).2).2 h with h | ⟨p, hp, h⟩
    · exact absurd h one_ne_zero
    · refine ⟨p, hp, ?_⟩
      have := hr.2 _ h
      funext i
      have := congrFun this i
      rcases mul_eq_zero.1 this with h | h
      · exact absurd h (hl p hp)
      · linarith
  · rcases ((multimodal_acc _ ha.1.2 l x 1 zero_le_one).2).2 h with h | ⟨p, hp, h⟩
    · exact absurd h one_ne_zero
    · refine ⟨p, hp, ?_⟩
      have := ha2.2 _ h
      funext i
      have := congrFun this i
      rcases mul_eq_zero.1 this with h | h
      · exact absurd h (hl p hp)
      · linarith

/-- **C42, constructing the multimodal objectives fails** for every shift array with more than one entry — in particular
for the example in their docstrings: `z if z else …` asks for the truth value of an array. -/
theorem C42_multimodal_init_false (alpha : Option (List ℝ)) (z : List (List ℝ)) (hz : 2 ≤ z.flatten.length) :
    multiInit alpha (some z) = .error .value := by
  have h0 : z.flatten ≠ [] := fun h => by rw [h] at hz; simp at hz
  simp only [multiInit]
  split
  · rename_i h; exact absurd h (by simp)
  · rename_i v h; injection h with h; subst h; simp at hz
  · rename_i z' _ h
    injection h with h
    subst h
    rw [if_neg h0]

example : multiInit (some [2, 3]) (some [[2, 3], [4, 5]]) = .error .value :=
  C42_multimodal_init_false _ _ (by simp)

/-- **C42, Quadratic and Unimodal** (no minimum is documented for them): minimisers are the origin with value 0 and the given
centre with value `log 2`. -/
theorem C42_quadratic {d : ℕ} (alpha : ℝ) (a : Fin 2 → ℝ) :
    GlobalMin (quadratic (d := d) alpha) 0 0 ∧ UniqueMin (unimodal a) a (log 2) := by
  have e : ∀ x, unimodal a x = log 2 + ((x 0 - a 0) ^ 2 / 8 + (x 1 - a 1) ^ 2 / 0.5) := by
    intro x
    simp only [unimodal]
    rw [log_mul (by norm_num) (exp_pos _).ne', log_exp]
    have : (0.5 : ℝ) = 2⁻¹ := by norm_num
    rw [this, log_inv]
    ring
  refine ⟨⟨by simp [quadratic, norm2], fun x => sq_nonneg _⟩, ⟨by rw [e]; simp, fun x => ?_⟩, fun x hx => ?_⟩
  · rw [e]
    have h1 := sq_nonneg (x 0 - a 0)
    have h2 := sq_nonneg (x 1 - a 1)
    have h3 : 0 ≤ (x 1 - a 1) ^ 2 / 0.5 := div_nonneg h2 (by norm_num)
    linarith
  · rw [e] at hx
    have h1 := sq_nonneg (x 0 - a 0)
    have h2 := sq_nonneg (x 1 - a 1)
    have h3 : 0 ≤ (x 1 - a 1) ^ 2 / 0.5 := div_nonneg h2 (by norm_num)
    have h4 : (x 0 - a 0) ^ 2 = 0 := by linarith
    have h5 : (x 1 - a 1) ^ 2 = 0 := by
      have : (x 1 - a 1) ^ 2 / 0.5 = 0 := by linarith
      rcases div_eq_zero_iff.1 this with h | h
      · exact h
      · norm_num at h
    have h6 := pow_eq_zero_iff (two_ne_zero) |>.1 h4
    have h7 := pow_eq_zero_iff (two_ne_zero) |>.1 h5
    funext i
    fin_cases i
    · show x 0 = a 0; linarith
    · show x 1 = a 1; linarith

/-- **C42 is false for Bukin6**: the documented point `(0,0)` with documented value 0 has value 1/10, the global minimum 0 is
at `(-10, 1)` only. -/
theorem C42_bukin6_false :
    bukin6 ![0, 0] = 1 / 10 ∧ (∀ v, ¬ GlobalMin bukin6 ![0, 0] v) ∧ UniqueMin bukin6 ![-10, 1] 0 := by
  have h0 : bukin6 ![0, 0] = 1 / 10 := by
    simp only [bukin6, Matrix.cons_val_zero, Matrix.cons_val_one]; norm_num
  have h1 : bukin6 ![-10, 1] = 0 := by
    simp only [bukin6, Matrix.cons_val_zero, Matrix.cons_val_one]; norm_num
  refine ⟨h0, fun v hv => ?_, ⟨h1, fun x => ?_⟩, fun x hx => ?_⟩
  · have := hv.2 ![-10, 1]
    rw [← hv.1, h0, h1] at this
    norm_num at this
  · exact add_nonneg (mul_nonneg (by norm_num) (sqrt_nonneg _)) (mul_nonneg (by norm_num) (abs_nonneg _))
  · simp only [bukin6] at hx
    have a1 := sqrt_nonneg (abs (x 1 - 0.01 * x 0 ^ 2))
    have a2 := abs_nonneg (x 0 + 10)
    have b1 : √(abs (x 1 - 0.01 * x 0 ^ 2)) = 0 := by linarith
    have b2 : |x 0 + 10| = 0 := by linarith
    rw [sqrt_eq_zero (abs_nonneg _), abs_eq_zero] at b1
    rw [abs_eq_zero] at b2
    have c0 : x 0 = -10 := by linarith
    have c1 : x 1 = 1 := by rw [c0] at b1; norm_num at b1; linarith
    funext i
    fin_cases i
    · exact c0
    · exact c1

/-- **C42, Easom**: `(π, π)` is the only global minimiser, value -1. -/
theorem C42_easom : UniqueMin easom ![π, π] (-1) := by
  have key : ∀ x : Fin 2 → ℝ, cos (x 0) * cos (x 1) ≤ 1 := fun x => by
    have h1 := abs_cos_le_one (x 0)
    have h2 := abs_cos_le_one (x 1)
    calc cos (x 0) * cos (x 1) ≤ |cos (x 0) * cos (x 1)| := le_abs_self _
      _ = |cos (x 0)| * |cos (x 1)| := abs_mul _ _
      _ ≤ 1 * 1 := mul_le_mul h1 h2 (abs_nonneg _) (by norm_num)
      _ = 1 := by norm_num
  refine ⟨⟨by simp [easom], fun x => ?_⟩, fun x hx => ?_⟩
  · simp only [easom]
    have h1 := key x
    have h2 : exp (-((x 0 - π) ^ 2 + (x 1 - π) ^ 2)) ≤ 1 :=
      exp_le_one_iff.2 (by linarith [sq_nonneg (x 0 - π), sq_nonneg (x 1 - π)])
    have h3 := exp_pos (-((x 0 - π) ^ 2 + (x 1 - π) ^ 2))
    have h4 := mul_le_mul_of_nonneg_right h1 h3.le
    linarith
  · simp only [easom] at hx
    have h1 := key x
    have h3 := exp_pos (-((x 0 - π) ^ 2 + (x 1 - π) ^ 2))
    have h4 := mul_le_mul_of_nonneg_right h1 h3.le
    have h5 : 1 ≤ exp (-((x 0 - π) ^ 2 + (x 1 - π) ^ 2)) := by linarith
    rw [one_le_exp_iff] at h5
    have h6 := sq_nonneg (x 0 - π)
    have h7 := sq_nonneg (x 1 - π)
    have h8 : (x 0 - π) ^ 2 = 0 := by linarith
    have h9 : (x 1 - π) ^ 2 = 0 := by linarith
    have k1 := pow_eq_zero_iff (two_ne_zero) |>.1 h8
    have k2 := pow_eq_zero_iff (two_ne_zero) |>.1 h9
    funext i
    fin_cases i
    · show x 0 = π; linarith
    · show x 1 = π; linarith

/-- **C42, drop wave** (partial): `(0,0)` is the only global minimiser, but the value is -2. -/
theorem C42_drop_wave_partial : UniqueMin dropWave ![0, 0] (-2) := by
  have e2 : ∀ q : ℝ, 0 ≤ q → -0.5 * q / (1 + 0.001 * q) ≤ 0 := fun q hq =>
    div_nonpos_of_nonpos_of_nonneg (by linarith) (by linarith)
  refine ⟨⟨by simp [dropWave]; norm_num, fun x => ?_⟩, fun x hx => ?_⟩
  · simp only [dropWave]
    have hq : 0 ≤ x 0 ^ 2 + x 1 ^ 2 := add_nonneg (sq_nonneg _) (sq_nonneg _)
    have h1 := cos_le_one (12 * √(x 0 ^ 2 + x 1 ^ 2))
    have h2 := exp_le_one_iff.2 (e2 _ hq)
    have h3 := exp_pos (-0.5 * (x 0 ^ 2 + x 1 ^ 2) / (1 + 0.001 * (x 0 ^ 2 + x 1 ^ 2)))
    have h4 : (1 + cos (12 * √(x 0 ^ 2 + x 1 ^ 2))) * exp (-0.5 * (x 0 ^ 2 + x 1 ^ 2) / (1 + 0.001 * (x 0 ^ 2 + x 1 ^ 2))) ≤
        2 * exp (-0.5 * (x 0 ^ 2 + x 1 ^ 2) / (1 + 0.001 * (x 0 ^ 2 + x 1 ^ 2))) :=
      mul_le_mul_of_nonneg_right (by linarith) h3.le
    linarith
  · simp only [dropWave] at hx
    have hq : 0 ≤ x 0 ^ 2 + x 1 ^ 2 := add_nonneg (sq_nonneg _) (sq_nonneg _)
    have h1 := cos_le_one (12 * √(x 0 ^ 2 + x 1 ^ 2))
    have h3 := exp_pos (-0.5 * (x 0 ^ 2 + x 1 ^ 2) / (1 + 0.001 * (x 0 ^ 2 + x 1 ^ 2)))
    have h4 : (1 + cos (12 * √(x 0 ^ 2 + x 1 ^ 2))) * exp (-0.5 * (x 0 ^ 2 + x 1 ^ 2) / (1 + 0.001 * (x 0 ^ 2 + x 1 ^ 2))) ≤
        2 * exp (-0.5 * (x 0 ^ 2 + x 1 ^ 2) / (1 + 0.001 * (x 0 ^ 2 + x 1 ^ 2))) :=
      mul_le_mul_of_nonneg_right (by linarith) h3.le
    have h5 : 1 ≤ exp (-0.5 * (x 0 ^ 2 + x 1 ^ 2) / (1 + 0.001 * (x 0 ^ 2 + x 1 ^ 2))) := by linarith
    rw [one_le_exp_iff] at h5
    have h6 : x 0 ^ 2 + x 1 ^ 2 = 0 := by
      have hden : 0 < 1 + 0.001 * (x 0 ^ 2 + x 1 ^ 2) := by linarith
      have := (div_nonneg_iff.1 h5)
      rcases this with h | h
      · linarith [h.1]
      · linarith [h.2]
    have h7 : x 0 ^ 2 = 0 := by linarith [sq_nonneg (x 0), sq_nonneg (x 1)]
    have h8 : x 1 ^ 2 = 0 := by linarith [sq_nonneg (x 0), sq_nonneg (x 1)]
    funext i
    fin_cases i
    · exact pow_eq_zero_iff (two_ne_zero) |>.1 h7
    · exact pow_eq_zero_iff (two_ne_zero) |>.1 h8

/-- **C42 is false for drop wave**: the documented value at `(0,0)` is -1. -/
theorem C42_drop_wave_false : ¬ GlobalMin dropWave ![0, 0] (-1) := by
  intro h
  have := C42_drop_wave_partial.1.1
  rw [h.1] at this
  norm_num at this

/-- **C42 is false for the egg holder**: on `ℝ²` the function takes values below its value at the documented minimiser
(no domain is documented). -/
theorem C42_eggholder_false : ∀ v, ¬ GlobalMin eggholder ![512, 404.2319] v := by
  intro v hv
  set t : ℝ := π / 2 + 5 * (2 * π) with ht
  have hpi := pi_gt_three
  have ht0 : 0 ≤ t := by positivity
  have h1 : eggholder ![0, t ^ 2 - 47] = -t ^ 2 := by
    simp only [eggholder, Matrix.cons_val_zero, Matrix.cons_val_one]
    have e : |t ^ 2 - 47 + 0 / 2 + 47| = t ^ 2 := by
      rw [show t ^ 2 - 47 + 0 / 2 + 47 = t ^ 2 by ring]; exact abs_of_nonneg (sq_nonneg _)
    have hs : sin t = 1 := by
      have := sin_add_nat_mul_two_pi (π / 2) 5
      rw [sin_pi_div_two] at this
      rw [ht, ← this]
      norm_num
    rw [e, sqrt_sq ht0, hs]
    ring
  have h2 := hv.2 ![0, t ^ 2 - 47]
  rw [h1, ← hv.1] at h2
  have h3 : -964 ≤ eggholder ![512, 404.2319] := by
    simp only [eggholder, Matrix.cons_val_zero, Matrix.cons_val_one]
    have a := sin_le_one (√(abs (404.2319 + 512 / 2 + 47)))
    have b := sin_le_one (√(abs (512 - (404.2319 + 47))))
    nlinarith
  have h4 : 31.5 < t := by rw [ht]; linarith
  nlinarith

/-- **C42 is false for Michalewicz** in two dimensions with `m = 10`: the documented minimiser of the square `[0,π]²` is not a
global minimiser (no domain is documented); `(π√6.5, π/2)` is better. -/
theorem C42_michalewicz_false : ∀ v, ¬ GlobalMin (michalewicz (d := 2) 10) ![2.2029, 1.5708] v := by
  intro v hv
  have hpi := pi_gt_d6
  have hpi2 := pi_lt_d6
  have h1 := hv.2 ![π * √6.5, π / 2]
  rw [← hv.1] at h1
  simp only [michalewicz, Fin.sum_univ_two, Matrix.cons_val_zero, Matrix.cons_val_one, Fin.val_zero, Fin.val_one,
    Nat.cast_zero, Nat.cast_one] at h1
  have e1 : (0 + 1) * (π * √6.5) ^ 2 / π = π / 2 + 3 * (2 * π) := by
    rw [mul_pow, sq_sqrt (by norm_num)]
    field_simp
    norm_num
  have e2 : (1 + 1) * (π / 2) ^ 2 / π = π / 2 := by
    field_simp
    norm_num
  have s1 : sin (π / 2 + 3 * (2 * π)) = 1 := by
    have := sin_add_nat_mul_two_pi (π / 2) 3
    rw [sin_pi_div_two] at this
    rw [← this]; norm_num
  rw [e1, e2, s1, sin_pi_div_two] at h1
  have r1 : (2.549 : ℝ) ≤ √6.5 := le_sqrt_of_sq_le (by norm_num)
  have r2 : √6.5 ≤ (2.55 : ℝ) := sqrt_le_iff.2 ⟨by norm_num, by norm_num⟩
  have s2 : 0.9 ≤ sin (π * √6.5) := by
    have : sin (π * √6.5) = cos (π * √6.5 - π / 2 - 2 * π) := by
      rw [cos_sub_two_pi, cos_sub_pi_div_two]
    rw [this]
    have := one_sub_sq_div_two_le_cos (x := π * √6.5 - π / 2 - 2 * π)
    have l1 : 0 ≤ π * √6.5 - π / 2 - 2 * π := by nlinarith
    have l2 : π * √6.5 - π / 2 - 2 * π ≤ 0.2 := by nlinarith
    nlinarith
  have s3 : sin 2.2029 ≤ 0.85 := by
    have : sin 2.2029 = cos (2.2029 - π / 2) := by rw [cos_sub_pi_div_two]
    rw [this]
    have l1 : 0.63 ≤ 2.2029 - π / 2 := by linarith
    have l2 : 2.2029 - π / 2 ≤ π := by linarith
    refine (cos_le_cos_of_nonneg_of_le_pi (by norm_num) l2 l1).trans ?_
    have := abs_sub_le_iff.1 (cos_bound (x := 0.63) (by rw [abs_of_pos] <;> norm_num))
    have h := this.1
    rw [abs_of_pos (by norm_num)] at h
    norm_num at h ⊢
    linarith
  have p0 : 0 ≤ sin ((0 + 1) * 2.2029 ^ 2 / π) ^ (2 * 10) := by rw [pow_mul]; positivity
  have q0 : 0 ≤ sin ((1 + 1) * 1.5708 ^ 2 / π) ^ (2 * 10) := by rw [pow_mul]; positivity
  have p1 : sin ((0 + 1) * 2.2029 ^ 2 / π) ^ (2 * 10) ≤ 1 := by
    rw [pow_mul]; exact pow_le_one₀ (sq_nonneg _) (sin_sq_le_one _)
  have q1 : sin ((1 + 1) * 1.5708 ^ 2 / π) ^ (2 * 10) ≤ 1 := by
    rw [pow_mul]; exact pow_le_one₀ (sq_nonneg _) (sin_sq_le_one _)
  have a1 := mul_le_mul_of_nonneg_right s3 p0
  have a2 := mul_le_mul_of_nonneg_right (sin_le_one 1.5708) q0
  simp only [one_pow, mul_one] at h1
  linarith

/-- **C42 is false for the cross-in-tray**: on `ℝ²` it is unbounded below (no domain is documented), so none of the listed
points is a global minimiser. They have the same value. -/
theorem C42_cross_in_tray_false : (∀ v, ∃ x, crossInTray x < v) ∧
    (∀ p ∈ crossInTrayMinima, ∀ v, ¬ GlobalMin crossInTray p v) ∧
    ∀ p ∈ crossInTrayMinima, crossInTray p = crossInTray ![1.34941, 1.34941] := by
  have h1 : ∀ v : ℝ, ∃ x, crossInTray x < v := by
    intro v
    obtain ⟨k, hk⟩ := exists_nat_gt (100000 * |v| + 100)
    set t : ℝ := π / 2 + k * (2 * π) with ht
    have ht0 : 0 ≤ t := by positivity
    refine ⟨![t, t], ?_⟩
    simp only [crossInTray, Matrix.cons_val_zero, Matrix.cons_val_one]
    rw [ht, sin_peak, ← ht]
    set u : ℝ := abs (100 - √(t ^ 2 + t ^ 2) / π) with hu
    have hu1 : 100000 * |v| < u := by
      have e1 : t ≤ √(t ^ 2 + t ^ 2) := le_sqrt_of_sq_le (by linarith [sq_nonneg t])
      have e2 : t / π ≤ √(t ^ 2 + t ^ 2) / π := div_le_div_of_nonneg_right e1 pi_pos.le
      have e3 : t / π = 1 / 2 + 2 * k := by rw [ht]; field_simp
      have e4 := neg_abs_le (100 - √(t ^ 2 + t ^ 2) / π)
      rw [← hu] at e4
      have e5 : (0 : ℝ) ≤ k := Nat.cast_nonneg k
      linarith
    have hu0 : 0 ≤ u := abs_nonneg _
    rw [one_mul, one_mul, abs_of_pos (exp_pos u)]
    have e6 : exp (u / 10) ≤ (exp u + 1) ^ (0.1 : ℝ) := by
      have : exp (u / 10) = exp u ^ (0.1 : ℝ) := by
        rw [← exp_mul]; congr 1; norm_num; ring
      rw [this]
      exact rpow_le_rpow (exp_pos u).le (by linarith) (by norm_num)
    have e7 := add_one_le_exp (u / 10)
    have e8 := neg_abs_le v
    norm_num at e6 ⊢
    linarith
  refine ⟨h1, ?_, ?_⟩
  · intro p _ v hp
    obtain ⟨x, hx⟩ := h1 v
    have := hp.2 x
    linarith
  · intro p hp
    simp only [crossInTrayMinima, List.mem_cons, List.not_mem_nil, or_false] at hp
    rcases hp with rfl | rfl | rfl | rfl <;>
      simp only [crossInTray, Matrix.cons_val_zero, Matrix.cons_val_one, sin_neg, neg_mul, mul_neg, abs_neg, neg_sq, neg_neg]

/-- **C42, Holder table**: on the documented domain `[-10,10]²` the four listed points, which are roundings, have the documented value `-19.2085` (to all digits given), no point of the
domain has a value lower by `1e-9` or more, and every point that is at least as good lies within `1e-5` of a listed point. On `ℝ²`, as the docstring says, the function takes arbitrarily small values. -/
theorem C42_holder_table : (∀ v, ∃ x, holderTable 1 0 x < v) ∧ ∀ p ∈ holderMinima, |holderTable 1 0 p + 19.2085| ≤ 5e-5 ∧
    ∀ x : Fin 2 → ℝ, |x 0| ≤ 10 → |x 1| ≤ 10 → holderTable 1 0 p ≤ holderTable 1 0 x + 1e-9 ∧
      (holderTable 1 0 x ≤ holderTable 1 0 p → ∃ q ∈ holderMinima, |x 0 - q 0| ≤ 1e-5 ∧ |x 1 - q 1| ≤ 1e-5) := by
  refine ⟨fun v => ?_, ?_⟩
  · obtain ⟨k, hk⟩ := exists_nat_gt |v|
    set t : ℝ := π / 2 + k * (2 * π) with ht
    have ht0 : 0 ≤ t := by positivity
    refine ⟨![t, 0], ?_⟩
    simp only [holderTable, Matrix.cons_val_zero, Matrix.cons_val_one, sub_zero, mul_one, cos_zero]
    rw [ht, sin_peak, ← ht]
    have e0 : t ^ 2 + (0 : ℝ) ^ 2 = t ^ 2 := by ring
    rw [e0, sqrt_sq ht0]
    set u : ℝ := abs (1 - t / π) with hu
    have e3 : t / π = 1 / 2 + 2 * k := by rw [ht]; field_simp
    have e4 := neg_abs_le (1 - t / π)
    rw [← hu] at e4
    rw [one_mul, abs_of_pos (exp_pos u)]
    have e7 := add_one_le_exp u
    have e8 := neg_abs_le v
    have e9 := abs_nonneg v
    linarith
  · have hx : ∀ x : Fin 2 → ℝ, holderTable 1 0 x = -hold |x 0| |x 1| := by
      intro x
      have hs : abs (sin |x 0|) = abs (sin (x 0)) := by
        rcases abs_choice (x 0) with h | h <;> rw [h]
        rw [sin_neg, abs_neg]
      simp only [holderTable, hold, sub_zero, mul_one, cos_abs, sq_abs, abs_mul, hs]
    intro p hp
    have hp0 : |p 0| = 8.05502 ∧ |p 1| = 9.66459 := by
      simp only [holderMinima, List.mem_cons, List.not_mem_nil, or_false] at hp
      rcases hp with rfl | rfl | rfl | rfl <;>
        simp only [Matrix.cons_val_zero, Matrix.cons_val_one, abs_neg] <;> constructor <;> exact abs_of_pos (by norm_num)
    have hp1 : holderTable 1 0 p = -hold 8.05502 9.66459 := by rw [hx, hp0.1, hp0.2]
    obtain ⟨-, -, -, h1, h2⟩ := hold_slopes
    refine ⟨by rw [hp1, abs_le]; constructor <;> linarith, fun x h0 h1 => ?_⟩
    have main := hold_main (abs_nonneg (x 0)) h0 (abs_nonneg (x 1)) h1
    rw [hp1, hx]
    refine ⟨by linarith [main.1], fun hle => ?_⟩
    obtain ⟨m0, m1⟩ := main.2 (by linarith)
    have pick : ∀ {y a : ℝ}, |(|y|) - a| ≤ 1e-5 → |y - a| ≤ 1e-5 ∨ |y - -a| ≤ 1e-5 := by
      intro y a h
      rcases abs_choice y with e | e <;> rw [e] at h
      · exact .inl h
      · refine .inr ?_
        rwa [← abs_neg, show -(y - -a) = -y - a by ring]
    rcases pick m0 with a | a <;> rcases pick m1 with b | b
    · exact ⟨![8.05502, 9.66459], by simp [holderMinima], a, b⟩
    · exact ⟨![8.05502, -9.66459], by simp [holderMinima], a, b⟩
    · exact ⟨![-8.05502, 9.66459], by simp [holderMinima], a, b⟩
    · exact ⟨![-8.05502, -9.66459], by simp [holderMinima], a, b⟩

/-- The listed points lie in the documented domain. -/
example : ∀ p ∈ holderMinima, |p 0| ≤ 10 ∧ |p 1| ≤ 10 := by
  intro p hp
  simp only [holderMinima, List.mem_cons, List.not_mem_nil, or_false] at hp
  rcases hp with rfl | rfl | rfl | rfl <;>
    simp only [Matrix.cons_val_zero, Matrix.cons_val_one, abs_neg] <;> norm_num [abs_of_pos]

/-- **C42, snowflake**: for `alpha ≠ 0` the six listed points are global minimisers with value -1/4, and there are no others. -/
theorem C42_snowflake (alpha : ℝ) (ha : alpha ≠ 0) :
    (∀ x ∈ snowflakeMinima alpha, GlobalMin (snowflake alpha) x (-1 / 4)) ∧
      ∀ x, snowflake alpha x = -1 / 4 → x ∈ snowflakeMinima alpha := by
  have key : ∀ x, snowflake alpha x = -1 / 4 ↔ x ∈ snowflakeMinima alpha := by
    intro x
    rw [(snowflake_eq alpha x).2, snowflake_mem alpha ha]
    constructor
    · rintro ⟨psi, hpsi, h⟩
      exact ⟨psi, hpsi, (ray_iff (fun i => alpha * x i) psi).1 h⟩
    · rintro ⟨psi, hpsi, h⟩
      exact ⟨psi, hpsi, (ray_iff (fun i => alpha * x i) psi).2 h⟩
  exact ⟨fun x hx => ⟨(key x).2 hx, fun y => (snowflake_eq alpha y).1⟩, fun x => (key x).1⟩

example : snowflakeMinima 0.5 ≠ [] ∧ (0.5 : ℝ) ≠ 0 := ⟨by simp [snowflakeMinima], by norm_num⟩

end Verif
