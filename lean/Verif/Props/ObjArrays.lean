import Verif.Proofs.ObjArrays

/-!
# C73: objectives on ensembles, and the objectives without documentation
-/

namespace Verif

open Obj Real

/-- **C73, shapes.** The objectives that combine the first two coordinates, or reduce the last axis, return one value per particle, in an array of shape `(M, N)` for an ensemble of shape `(M, N, d)`, for all `M`, `N`, and `check_f_dims` accepts them. -/
theorem C73_shape_partial (M N d : ℕ) (x : Arr ℝ) (hx : x.shape = [M, N, d]) (e : ℝ → ℝ → ℝ) (g : List ℝ → ℝ) :
    (2 ≤ d → checkDims (twoCoord e) x M N = .ok () ∧ ∃ y, twoCoord e x = .ok y ∧ y.shape = [M, N] ∧
      ∀ i < M, ∀ j < N, y.get [i, j] = e (x.get [i, j, 0]) (x.get [i, j, 1])) ∧
    checkDims (lastAxis g) x M N = .ok () ∧ ∃ y, lastAxis g x = .ok y ∧ y.shape = [M, N] ∧
      ∀ i < M, ∀ j < N, y.get [i, j] = g ((List.range d).map fun q => x.get [i, j, q]) := by
  constructor
  · intro hd
    obtain ⟨y, h1, h2, h3⟩ := bin2 (M := M) (N := N) (a := ⟨[M, N], fun I => x.get (I ++ [0])⟩) (b := ⟨[M, N], fun I => x.get (I ++ [1])⟩) rfl rfl e
    have hy : twoCoord e x = .ok y := by
      simp only [twoCoord, pick3 hx (show 0 < d by omega), pick3 hx (show 1 < d by omega), bind, Except.bind, h1]
    refine ⟨?_, y, hy, h2, h3⟩
    simp [checkDims, hy, h2, bind, Except.bind, pure, Except.pure]
  · have hy := alongLast3 hx g
    refine ⟨?_, _, hy, rfl, fun i _ j _ => rfl⟩
    simp [checkDims, lastAxis, hy, bind, Except.bind, pure, Except.pure]

/-- The objectives that read `x[...,1]` raise `IndexError` on one-dimensional particles. -/
theorem C73_index_raises (M N d : ℕ) (x : Arr ℝ) (hx : x.shape = [M, N, d]) (e : ℝ → ℝ → ℝ) : (∃ err, twoCoord e x = .error err) ↔ d < 2 := by
  constructor
  · rintro ⟨err, h⟩
    by_contra hd
    obtain ⟨-, y, hy, -⟩ := (C73_shape_partial M N d x hx e (fun _ => 0)).1 (by omega)
    rw [hy] at h
    cases h
  · intro hd
    refine ⟨.index, ?_⟩
    have : x.pick 1 = .error .index := by
      unfold Arr.pick
      rw [hx]
      simp only [List.reverse_cons, List.reverse_nil, List.nil_append, List.cons_append]
      rw [if_neg (by omega)]
    unfold twoCoord
    cases h0 : x.pick 0 with
    | error e =>
      unfold Arr.pick at h0
      rw [hx] at h0
      simp only [List.reverse_cons, List.reverse_nil, List.nil_append, List.cons_append] at h0
      split_ifs at h0
      injection h0 with h0
      rw [← h0]
      rfl
    | ok a => simp only [bind, Except.bind, this]

/-- **C73, squeezed objectives, two or more runs of two or more particles.** `accelerated_sinus`, `nd_sinus`, `p_4th_order` and `Multimodal` evaluate every particle and are accepted. -/
theorem C73_squeeze_partial (M N d : ℕ) (hM : M ≠ 1) (hN : N ≠ 1) (x : Arr ℝ) (hx : x.shape = [M, N, d]) (a : ℝ) (g : List ℝ → List ℝ) :
    (checkDims (accSinusArr a) x M N = .ok () ∧ ∃ y, accSinusArr a x = .ok y ∧ y.shape = [M, N] ∧
      ∀ i < M, ∀ j < N, y.get [i, j] = accSinus a fun q : Fin d => x.get [i, j, q]) ∧
    (∀ k, d = k + 1 → checkDims ndSinusArr x M N = .ok () ∧ ∃ y, ndSinusArr x = .ok y ∧ y.shape = [M, N] ∧
      ∀ i < M, ∀ j < N, y.get [i, j] = ndSinus fun q : Fin (k + 1) => x.get [i, j, q]) ∧
    (checkDims p4Arr x M N = .ok () ∧ ∃ y, p4Arr x = .ok y ∧ y.shape = [M, N] ∧
      ∀ i < M, ∀ j < N, y.get [i, j] = p4 fun q : Fin d => x.get [i, j, q]) ∧
    (checkDims (gaussMixArr g) x M N = .ok () ∧ ∃ y, gaussMixArr g x = .ok y ∧ y.shape = [M, N] ∧
      ∀ i < M, ∀ j < N, y.get [i, j] = -log (g ((List.range d).map fun q => x.get [i, j, q])).sum) := by
  have chk : ∀ {F : Arr ℝ → Except Err (Arr ℝ)} {y}, F x = .ok y → y.shape = [M, N] → checkDims F x M N = .ok () := by
    intro F y h1 h2
    simp [checkDims, h1, h2, bind, Except.bind, pure, Except.pure]
  refine ⟨?_, ?_, ?_, ?_⟩
  · have hy : accSinusArr a x = .ok ((Arr.map (fun r => sin (a * r / (1 + r * r)))
      (⟨[M, N], fun I => √(((List.range d).map fun j => x.get (I ++ [j]) ^ 2).sum)⟩ : Arr ℝ)).squeeze.map fun v => v + 1) := by
      simp only [accSinusArr, normLast3 hx, bind, Except.bind, pure, Except.pure]
    have sq := squeeze2 (a := Arr.map (fun r => sin (a * r / (1 + r * r)))
      (⟨[M, N], fun I => √(((List.range d).map fun j => x.get (I ++ [j]) ^ 2).sum)⟩ : Arr ℝ)) rfl hM hN
    refine ⟨chk hy sq.1, _, hy, sq.1, fun i hi j hj => ?_⟩
    simp only [Arr.map] at sq ⊢
    rw [sq.2 i j]
    rw [norm2_range fun q => x.get ([i, j] ++ [q])]
    rfl
  · rintro k rfl
    have hx' : (x.map fun v => 0.3 * v).shape = [M, N, k + 1] := hx
    obtain ⟨c, h1, h2, h3⟩ := bin2 (M := M) (N := N)
      (a := Arr.map (fun v => 1 / (((x.map fun v => 0.3 * v).shape.getLastD 0 : ℕ) : ℝ) * v ^ 2)
        (⟨[M, N], fun I => √(((List.range (k + 1)).map fun j => (x.map fun v => 0.3 * v).get (I ++ [j]) ^ 2).sum)⟩ : Arr ℝ))
      (b := ⟨[M, N], fun I => (x.map fun v => 0.3 * v).get (I ++ [0])⟩) rfl rfl (fun z p => (sin z + 1) * (p ^ 4 - p ^ 2 + 1))
    have hy : ndSinusArr x = .ok c.squeeze := by
      simp only [ndSinusArr, normLast3 hx', pick3 hx' (Nat.succ_pos k), bind, Except.bind, pure, Except.pure, h1]
    have sq := squeeze2 h2 hM hN
    refine ⟨chk hy sq.1, _, hy, sq.1, fun i hi j hj => ?_⟩
    rw [sq.2, h3 i hi j hj]
    simp only [Arr.map, hx]
    rw [norm2_range fun q => 0.3 * x.get ([i, j] ++ [q])]
    unfold ndSinus
    have : (([M, N, k + 1].getLastD 0 : ℕ) : ℝ) = (k : ℝ) + 1 := by simp
    rw [this]
    rfl
  · obtain ⟨c, h1, h2, h3⟩ := bin2 (M := M) (N := N)
      (a := ⟨[M, N], fun I => ((List.range d).map fun j => (x.map fun v => v ^ 4).get (I ++ [j])).sum⟩)
      (b := ⟨[M, N], fun I => ((List.range d).map fun j => (x.map fun v => v ^ 2).get (I ++ [j])).sum⟩) rfl rfl (fun a b : ℝ => a - b + 1)
    have hy : p4Arr x = .ok c.squeeze := by
      simp only [p4Arr, alongLast3 (x := x.map fun v => v ^ 4) hx, alongLast3 (x := x.map fun v => v ^ 2) hx, bind, Except.bind, pure, Except.pure, h1]
    have sq := squeeze2 h2 hM hN
    refine ⟨chk hy sq.1, _, hy, sq.1, fun i hi j hj => ?_⟩
    rw [sq.2, h3 i hi j hj]
    simp only [Arr.map, p4, sum_range_fin]
    rfl
  · have hy : gaussMixArr g x = .ok ((⟨[M, N], fun I => g ((List.range d).map fun j => x.get (I ++ [j]))⟩ : Arr (List ℝ)).squeeze.map fun v => -log v.sum) := by
      simp only [gaussMixArr, alongLast3 hx, bind, Except.bind, pure, Except.pure]
    have sq := squeeze2 (a := (⟨[M, N], fun I => g ((List.range d).map fun j => x.get (I ++ [j]))⟩ : Arr (List ℝ))) rfl hM hN
    refine ⟨chk hy sq.1, _, hy, sq.1, fun i hi j hj => ?_⟩
    simp only [Arr.map] at sq ⊢
    rw [sq.2 i j]
    rfl

/-- **C73, squeezed objectives (negation).** With a single run (the default `M=1`) or a single particle the result has the wrong shape: `check_f_dims` raises, so with these four objectives no dynamic can be constructed unless the check is switched off. -/
theorem C73_squeeze_false (M N d : ℕ) (h : M = 1 ∨ N = 1) (hd : 0 < d) (x : Arr ℝ) (hx : x.shape = [M, N, d]) (a : ℝ) (g : List ℝ → List ℝ) :
    checkDims (accSinusArr a) x M N = .error .value ∧ checkDims ndSinusArr x M N = .error .value ∧
    checkDims p4Arr x M N = .error .value ∧ checkDims (gaussMixArr g) x M N = .error .value := by
  have chk : ∀ {F : Arr ℝ → Except Err (Arr ℝ)} {y}, F x = .ok y → y.shape ≠ [M, N] → checkDims F x M N = .error .value := by
    intro F y h1 h2
    simp [checkDims, h1, h2, bind, Except.bind]
  refine ⟨?_, ?_, ?_, ?_⟩
  · have hy : accSinusArr a x = .ok ((Arr.map (fun r => sin (a * r / (1 + r * r)))
      (⟨[M, N], fun I => √(((List.range d).map fun j => x.get (I ++ [j]) ^ 2).sum)⟩ : Arr ℝ)).squeeze.map fun v => v + 1) := by
      simp only [accSinusArr, normLast3 hx, bind, Except.bind, pure, Except.pure]
    exact chk hy (squeeze2_one (a := Arr.map (fun r => sin (a * r / (1 + r * r)))
      (⟨[M, N], fun I => √(((List.range d).map fun j => x.get (I ++ [j]) ^ 2).sum)⟩ : Arr ℝ)) rfl h)
  · have hx' : (x.map fun v => 0.3 * v).shape = [M, N, d] := hx
    obtain ⟨c, h1, h2, h3⟩ := bin2 (M := M) (N := N)
      (a := Arr.map (fun v => 1 / (((x.map fun v => 0.3 * v).shape.getLastD 0 : ℕ) : ℝ) * v ^ 2)
        (⟨[M, N], fun I => √(((List.range d).map fun j => (x.map fun v => 0.3 * v).get (I ++ [j]) ^ 2).sum)⟩ : Arr ℝ))
      (b := ⟨[M, N], fun I => (x.map fun v => 0.3 * v).get (I ++ [0])⟩) rfl rfl (fun z p => (sin z + 1) * (p ^ 4 - p ^ 2 + 1))
    have hy : ndSinusArr x = .ok c.squeeze := by
      simp only [ndSinusArr, normLast3 hx', pick3 hx' hd, bind, Except.bind, pure, Except.pure, h1]
    exact chk hy (squeeze2_one h2 h)
  · obtain ⟨c, h1, h2, h3⟩ := bin2 (M := M) (N := N)
      (a := ⟨[M, N], fun I => ((List.range d).map fun j => (x.map fun v => v ^ 4).get (I ++ [j])).sum⟩)
      (b := ⟨[M, N], fun I => ((List.range d).map fun j => (x.map fun v => v ^ 2).get (I ++ [j])).sum⟩) rfl rfl (fun a b : ℝ => a - b + 1)
    have hy : p4Arr x = .ok c.squeeze := by
      simp only [p4Arr, alongLast3 (x := x.map fun v => v ^ 4) hx, alongLast3 (x := x.map fun v => v ^ 2) hx, bind, Except.bind, pure, Except.pure, h1]
    exact chk hy (squeeze2_one h2 h)
  · have hy : gaussMixArr g x = .ok ((⟨[M, N], fun I => g ((List.range d).map fun j => x.get (I ++ [j]))⟩ : Arr (List ℝ)).squeeze.map fun v => -log v.sum) := by
      simp only [gaussMixArr, alongLast3 hx, bind, Except.bind, pure, Except.pure]
    exact chk hy (squeeze2_one (a := (⟨[M, N], fun I => g ((List.range d).map fun j => x.get (I ++ [j]))⟩ : Arr (List ℝ))) rfl h)

/-- One run of twenty particles in three dimensions meets the hypotheses of the negation, three runs those of the positive theorem. -/
example : (1 = 1 ∨ 20 = 1) ∧ 0 < 3 ∧ (⟨[1, 20, 3], fun _ => 0⟩ : Arr ℝ).shape = [1, 20, 3] ∧
    (3 ≠ 1 ∧ 20 ≠ 1) ∧ (⟨[3, 20, 2], fun I => I.getD 2 0⟩ : Arr ℝ).shape = [3, 20, 2] := by decide

/-- **C73, minima.** `p_4th_order` has minimum `1 - d/4`, attained exactly at the `2^d` points with all coordinates `±1/√2`. -/
theorem C73_p4 {d : ℕ} (x : Fin d → ℝ) : 1 - (d : ℝ) / 4 ≤ p4 x ∧ (p4 x = 1 - (d : ℝ) / 4 ↔ ∀ i, x i = 1 / √2 ∨ x i = -(1 / √2)) := by
  have e : p4 x = 1 - (d : ℝ) / 4 + ∑ i, (x i ^ 2 - 1 / 2) ^ 2 := by
    unfold p4
    rw [← Finset.sum_sub_distrib]
    have : ∑ i, (x i ^ 2 - 1 / 2) ^ 2 = ∑ i, (x i ^ 4 - x i ^ 2) + (d : ℝ) / 4 := by
      have h : (d : ℝ) / 4 = ∑ _i : Fin d, (1 / 4 : ℝ) := by simp; ring
      rw [h, ← Finset.sum_add_distrib]
      exact Finset.sum_congr rfl fun i _ => by ring
    rw [this]
    ring
  have nn : 0 ≤ ∑ i, (x i ^ 2 - 1 / 2) ^ 2 := Finset.sum_nonneg fun i _ => sq_nonneg _
  refine ⟨by linarith, ?_⟩
  have h2 : (1 / √2 : ℝ) ^ 2 = 1 / 2 := by rw [div_pow, one_pow, sq_sqrt (by norm_num)]
  constructor
  · intro h i
    have h0 : ∑ i, (x i ^ 2 - 1 / 2) ^ 2 = 0 := by linarith
    rw [Finset.sum_eq_zero_iff_of_nonneg fun i _ => sq_nonneg _] at h0
    have := pow_eq_zero_iff (two_ne_zero) |>.1 (h0 i (Finset.mem_univ i))
    exact sq_eq_sq_iff_eq_or_eq_neg.1 (by rw [h2]; linarith)
  · intro h
    have : ∑ i, (x i ^ 2 - 1 / 2) ^ 2 = 0 := Finset.sum_eq_zero fun i _ => by
      rcases h i with h | h <;> rw [h] <;> simp only [neg_sq, h2] <;> ring
    linarith

/-- `accelerated_sinus` with `0 < a < 2π` (default 1) has its unique minimum 1 at the origin. -/
theorem C73_accelerated_sinus {d : ℕ} (a : ℝ) (h0 : 0 < a) (h1 : a < 2 * π) : UniqueMin (accSinus (d := d) a) 0 1 := by
  have key : ∀ x : Fin d → ℝ, 0 ≤ a * norm2 x / (1 + norm2 x * norm2 x) ∧ a * norm2 x / (1 + norm2 x * norm2 x) < π := by
    intro x
    have hr := norm2_nonneg x
    have hp : 0 < 1 + norm2 x * norm2 x := by positivity
    refine ⟨by positivity, ?_⟩
    rw [div_lt_iff₀ hp]
    nlinarith [sq_nonneg (norm2 x - 1), pi_pos]
  refine ⟨⟨?_, fun x => ?_⟩, fun x hx => ?_⟩
  · simp [accSinus, norm2]
  · have := sin_nonneg_of_nonneg_of_le_pi (key x).1 (key x).2.le
    unfold accSinus
    linarith
  · unfold accSinus at hx
    have hs : sin (a * norm2 x / (1 + norm2 x * norm2 x)) = 0 := by linarith
    rw [sin_eq_zero_iff_of_lt_of_lt (by linarith [pi_pos, (key x).1]) (key x).2] at hs
    have hp : 1 + norm2 x * norm2 x ≠ 0 := by have := mul_self_nonneg (norm2 x); linarith
    rw [div_eq_zero_iff] at hs
    rcases hs with hs | hs
    · exact norm2_eq_zero ((mul_eq_zero.1 hs).resolve_left h0.ne')
    · exact absurd hs hp

/-- `nd_sinus` is non-negative and vanishes exactly on the spheres `0.09 |x|² / d = 3π/2 + 2πk`; the minimum 0 is attained. -/
theorem C73_nd_sinus {d : ℕ} (x : Fin (d + 1) → ℝ) :
    0 ≤ ndSinus x ∧ (ndSinus x = 0 ↔ ∃ k : ℤ, 0.09 * (∑ i, x i ^ 2) / ((d : ℝ) + 1) = -(π / 2) + k * (2 * π)) ∧
    ∃ y : Fin (d + 1) → ℝ, ndSinus y = 0 := by
  have hz : ∀ x : Fin (d + 1) → ℝ, 1 / ((d : ℝ) + 1) * norm2 (fun i => 0.3 * x i) ^ 2 = 0.09 * (∑ i, x i ^ 2) / ((d : ℝ) + 1) := by
    intro x
    unfold norm2
    rw [sq_sqrt (Finset.sum_nonneg fun i _ => sq_nonneg _)]
    have : ∑ i, (0.3 * x i) ^ 2 = 0.09 * ∑ i, x i ^ 2 := by
      rw [Finset.mul_sum]
      exact Finset.sum_congr rfl fun i _ => by norm_num [mul_pow]
    rw [this]
    ring
  have hq : ∀ p : ℝ, 0 < p ^ 4 - p ^ 2 + 1 := fun p => by nlinarith [sq_nonneg (p ^ 2 - 1 / 2)]
  have hiff : ∀ x : Fin (d + 1) → ℝ, ndSinus x = 0 ↔ ∃ k : ℤ, 0.09 * (∑ i, x i ^ 2) / ((d : ℝ) + 1) = -(π / 2) + k * (2 * π) := by
    intro x
    unfold ndSinus
    rw [hz, mul_eq_zero, or_iff_left (hq _).ne']
    have : sin (0.09 * (∑ i, x i ^ 2) / ((d : ℝ) + 1)) + 1 = 0 ↔ sin (0.09 * (∑ i, x i ^ 2) / ((d : ℝ) + 1)) = -1 :=
      ⟨fun h => by linarith, fun h => by linarith⟩
    rw [this, sin_eq_neg_one_iff]
    exact ⟨fun ⟨k, h⟩ => ⟨k, h.symm⟩, fun ⟨k, h⟩ => ⟨k, h.symm⟩⟩
  refine ⟨?_, hiff x, ⟨fun _ => √(3 * π / 2 / 0.09), ?_⟩⟩
  · unfold ndSinus
    exact mul_nonneg (by linarith [neg_one_le_sin (1 / ((d : ℝ) + 1) * norm2 (fun i => 0.3 * x i) ^ 2)]) (hq _).le
  · rw [hiff]
    refine ⟨1, ?_⟩
    rw [sq_sqrt (by positivity)]
    simp only [Finset.sum_const, Finset.card_univ, Fintype.card_fin, nsmul_eq_mul]
    have : (d : ℝ) + 1 ≠ 0 := by positivity
    push_cast
    field_simp
    ring

/-- `Banana` is non-negative; it vanishes only for `m = 2.5` and only at the origin, so with the default `m = 0` the value 0 is not attained. -/
theorem C73_banana (m s t : ℝ) (hs : s ≠ 0) (ht : t ≠ 0) (x : Fin 2 → ℝ) : 0 ≤ banana m s t x ∧ (banana m s t x = 0 ↔ x = 0 ∧ m = 2.5) := by
  have h1 : 0 < 0.5 / s ^ 2 := by positivity
  have h2 : 0 < 0.5 / t ^ 2 := by positivity
  have a1 : 0 ≤ 0.5 / s ^ 2 * ((x 1 - 1) ^ 2 - (x 0 - 2.5) - 1 - m) ^ 2 := mul_nonneg h1.le (sq_nonneg _)
  have a2 : 0 ≤ 0.5 / t ^ 2 * norm2 x ^ 2 := mul_nonneg h2.le (sq_nonneg _)
  refine ⟨by unfold banana; exact add_nonneg a1 a2, ?_⟩
  constructor
  · intro h
    unfold banana at h
    simp only at h
    have b1 : 0.5 / t ^ 2 * norm2 x ^ 2 = 0 := by linarith
    have b2 : 0.5 / s ^ 2 * ((x 1 - 1) ^ 2 - (x 0 - 2.5) - 1 - m) ^ 2 = 0 := by linarith
    have hx : x = 0 := norm2_eq_zero (pow_eq_zero_iff (two_ne_zero) |>.1 ((mul_eq_zero.1 b1).resolve_left h2.ne'))
    have hg := pow_eq_zero_iff (two_ne_zero) |>.1 ((mul_eq_zero.1 b2).resolve_left h1.ne')
    rw [hx] at hg
    simp only [Pi.zero_apply] at hg
    exact ⟨hx, by norm_num at hg ⊢; linarith⟩
  · rintro ⟨rfl, rfl⟩
    unfold banana norm2
    norm_num

/-- `Bimodal` is well defined (the argument of the logarithm is positive) and bounded below by `-log 1.5`, and negative at its first centre. -/
theorem C73_bimodal (a b x : Fin 2 → ℝ) :
    0 < exp (-((x 0 - a 0) ^ 2 + (x 1 - a 1) ^ 2 / 0.2)) + 0.5 * exp (-(x 0 - b 0) ^ 2 / 8 - (x 1 - b 1) ^ 2 / 0.5) ∧
    -log 1.5 ≤ bimodal a b x ∧ bimodal a b a < 0 := by
  have p1 := exp_pos (-((x 0 - a 0) ^ 2 + (x 1 - a 1) ^ 2 / 0.2))
  have p2 := exp_pos (-(x 0 - b 0) ^ 2 / 8 - (x 1 - b 1) ^ 2 / 0.5)
  have q1 : exp (-((x 0 - a 0) ^ 2 + (x 1 - a 1) ^ 2 / 0.2)) ≤ 1 := exp_le_one_iff.2 (by
    have := sq_nonneg (x 0 - a 0); have : 0 ≤ (x 1 - a 1) ^ 2 / 0.2 := by positivity
    linarith)
  have q2 : exp (-(x 0 - b 0) ^ 2 / 8 - (x 1 - b 1) ^ 2 / 0.5) ≤ 1 := exp_le_one_iff.2 (by
    have := sq_nonneg (x 0 - b 0); have : 0 ≤ (x 1 - b 1) ^ 2 / 0.5 := by positivity
    linarith)
  refine ⟨by positivity, ?_, ?_⟩
  · unfold bimodal
    have := log_le_log (by positivity) (show exp (-((x 0 - a 0) ^ 2 + (x 1 - a 1) ^ 2 / 0.2)) + 0.5 * exp (-(x 0 - b 0) ^ 2 / 8 - (x 1 - b 1) ^ 2 / 0.5) ≤ 1.5 by
      linarith)
    linarith
  · unfold bimodal
    have p3 := exp_pos (-(a 0 - b 0) ^ 2 / 8 - (a 1 - b 1) ^ 2 / 0.5)
    have : 0 < log (exp (-((a 0 - a 0) ^ 2 + (a 1 - a 1) ^ 2 / 0.2)) + 0.5 * exp (-(a 0 - b 0) ^ 2 / 8 - (a 1 - b 1) ^ 2 / 0.5)) := by
      apply log_pos
      simp only [sub_self]
      norm_num
      exact exp_pos _
    linarith

/-- `Multimodal` with its default arguments (one standard normal component) is `|x|²/2 + log(2π)`, with its unique minimum at the origin. -/
theorem C73_multimodal : (∀ x, gaussMix [(0, 1, 1)] x = (x 0 ^ 2 + x 1 ^ 2) / 2 + log (2 * π)) ∧ UniqueMin (gaussMix [(0, 1, 1)]) 0 (log (2 * π)) := by
  have key : ∀ x, gaussMix [(0, 1, 1)] x = (x 0 ^ 2 + x 1 ^ 2) / 2 + log (2 * π) := by
    intro x
    simp only [gaussMix, mvnPdf, List.map_cons, List.map_nil, List.sum_cons, List.sum_nil, add_zero, Fin.sum_univ_two, Pi.zero_apply, sub_zero, sqrt_one, mul_one]
    rw [log_div (exp_pos _).ne' (by positivity), log_exp]
    simp
    ring
  refine ⟨key, ⟨?_, fun x => ?_⟩, fun x hx => ?_⟩
  · rw [key]; simp
  · rw [key]; have := sq_nonneg (x 0); have := sq_nonneg (x 1); linarith
  · rw [key] at hx
    have h0 : x 0 ^ 2 = 0 := by nlinarith [sq_nonneg (x 0), sq_nonneg (x 1)]
    have h1 : x 1 ^ 2 = 0 := by nlinarith [sq_nonneg (x 0), sq_nonneg (x 1)]
    funext i
    fin_cases i
    · exact pow_eq_zero_iff (two_ne_zero) |>.1 h0
    · exact pow_eq_zero_iff (two_ne_zero) |>.1 h1

/-- **C73, constructor (negation).** `Bimodal` and `Unimodal` accept any list of two or more numbers as centre but raise for the same centre given as an array. -/
theorem C73_centre_false (l dflt : List ℝ) (h : 2 ≤ l.length) :
    centreInit false (some l) dflt = .ok l ∧ centreInit true (some l) dflt = .error .value ∧ centreInit true none dflt = .ok dflt := by
  match l, h with
  | u :: v :: l, _ => exact ⟨rfl, rfl, rfl⟩

example : 2 ≤ ([1, 3 / 2] : List ℝ).length := le_rfl

/-- The default parameters meet the hypotheses of the theorems on minima. -/
example : 0 < (1 : ℝ) ∧ (1 : ℝ) < 2 * π ∧ (0.5 : ℝ) ≠ 0 ∧ (2 : ℝ) ≠ 0 :=
  ⟨one_pos, by linarith [two_le_pi], by norm_num, by norm_num⟩

/-- The array form of `Himmelblau` evaluates `himmelblau` on every particle. -/
example (M N : ℕ) (x : Arr ℝ) (hx : x.shape = [M, N, 2]) : ∃ y, twoCoord (fun u v => himmelblau 1 ![u, v]) x = .ok y ∧ y.shape = [M, N] ∧
    ∀ i < M, ∀ j < N, y.get [i, j] = himmelblau 1 ![x.get [i, j, 0], x.get [i, j, 1]] :=
  ((C73_shape_partial M N 2 x hx (fun u v => himmelblau 1 ![u, v]) fun _ => 0).1 le_rfl).2

end Verif
