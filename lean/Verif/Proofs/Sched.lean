import Verif.Model.Sched
import Verif.Spec.Sched
import Mathlib.Analysis.Convex.SpecificFunctions.Basic
import Mathlib.Algebra.Order.BigOperators.Ring.Finset
import Mathlib.Algebra.BigOperators.Field
import Mathlib.Algebra.Order.Chebyshev
import Mathlib.Tactic.Positivity
import Mathlib.Tactic.FieldSimp
import Mathlib.Tactic.Ring
import Mathlib.Topology.Algebra.Monoid
import Mathlib.Topology.Algebra.Field

/-! Helper lemmas on schedulers. -/

namespace Verif

section Weak
variable {K : Type} [Zero K] [Neg K] [Add K] [Div K] [OfNat K 2] [LinearOrder K]

/-- Invariant principle for the bisection loop. -/
theorem bisLoop_induct {f : (ℕ → K) → ℕ → K} {M : ℕ} {thresh : K} {maxIt : ℕ} {P : Bis K → Prop}
    (hP : ∀ s, P s → P (bisBody f M thresh s)) :
    ∀ n s, P s → P (bisLoop f M thresh maxIt n s)
  | 0, s, h => h
  | n + 1, s, h => by
    simp only [bisLoop]
    split_ifs
    · exact hP s h
    · exact bisLoop_induct hP n _ (hP s h)

theorem bisLoop_stop {f : (ℕ → K) → ℕ → K} {M : ℕ} {thresh : K} {maxIt : ℕ} :
    ∀ n (s : Bis K), 0 < n → s.it + n = maxIt + 1 →
      let r := bisLoop f M thresh maxIt n s
      (r.it = maxIt + 1 ∨ ∀ j < M, absK (f r.x j) ≤ thresh) ∧ r.it ≤ maxIt + 1 ∧ s.it < r.it ∧ r.idx.length ≤ M ∧
        ∀ j, j ∈ r.idx ↔ j < M ∧ thresh < absK (f r.x j)
  | 0, s, h, _ => absurd h (lt_irrefl 0)
  | n + 1, s, _, hit => by
    have hmem : ∀ j, j ∈ (bisBody f M thresh s).idx ↔ j < M ∧ thresh < absK (f (bisBody f M thresh s).x j) := by
      intro j; simp [bisBody]
    have hlen : (bisBody f M thresh s).idx.length ≤ M := by
      simp only [bisBody]
      exact (List.length_filter_le _ _).trans (by simp)
    have hi : (bisBody f M thresh s).it = s.it + 1 := rfl
    simp only [bisLoop]
    split_ifs with hc
    · refine ⟨?_, by omega, by omega, hlen, hmem⟩
      rcases hc with hc | hc
      · left; omega
      · right
        intro j hj
        by_contra hn
        have := (hmem j).2 ⟨hj, not_le.1 hn⟩
        rw [hc] at this
        simp at this
    · have hn : 0 < n := by
        rcases Nat.eq_zero_or_pos n with h0 | h0
        · have h1 : maxIt < (bisBody f M thresh s).it := by rw [hi]; omega
          exact (hc (Or.inl h1)).elim
        · exact h0
      obtain ⟨h1, h2, h3, h4, h5⟩ := bisLoop_stop (maxIt := maxIt) n (bisBody f M thresh s) hn (by omega)
      exact ⟨h1, h2, by omega, h4, h5⟩

end Weak

section Bis
variable {K : Type} [Field K] [LinearOrder K] [IsStrictOrderedRing K]

theorem absK_eq (a : K) : absK a = |a| := rfl

theorem mid_le {a b : K} (h : a ≤ b) : a ≤ (a + b) / 2 ∧ (a + b) / 2 ≤ b := by
  constructor <;> linarith

/-- With one component, only the value of `f` at component 0 matters. -/
theorem bisection_one (f g : (ℕ → K) → ℕ → K) (low high : ℕ → K) (maxIt : ℕ) (thresh : K)
    (h : ∀ x y, x 0 = y 0 → f x 0 = g y 0) :
    (bisection f 1 low high maxIt thresh).x 0 = (bisection g 1 low high maxIt thresh).x 0 := by
  have key : ∀ n (s t : Bis K), s.low 0 = t.low 0 → s.high 0 = t.high 0 → s.x 0 = t.x 0 → s.idx = t.idx → s.it = t.it →
      (bisLoop f 1 thresh maxIt n s).x 0 = (bisLoop g 1 thresh maxIt n t).x 0 := by
    intro n
    induction n with
    | zero => intro s t _ _ hx _ _; exact hx
    | succ n ih =>
      intro s t h1 h2 _ h4 h5
      have hx : (s.low 0 + s.high 0) / 2 = (t.low 0 + t.high 0) / 2 := by rw [h1, h2]
      have hf := h (fun j => (s.low j + s.high j) / 2) (fun j => (t.low j + t.high j) / 2) hx
      have hi : (bisBody f 1 thresh s).idx = (bisBody g 1 thresh t).idx := by
        simp only [bisBody, List.range_one, List.filter_cons, List.filter_nil, hf]
      have ht : (bisBody f 1 thresh s).it = (bisBody g 1 thresh t).it := by simp only [bisBody, h5]
      simp only [bisLoop, hi, ht]
      split_ifs
      · exact hx
      · refine ih _ _ ?_ ?_ hx hi ht
        · simp only [bisBody, hf, h4, h1, h2]
        · simp only [bisBody, hf, h4, h1, h2]
  exact key _ _ _ rfl rfl rfl rfl rfl

end Bis

/-! ### Effective sample size -/

/-- Partition sum. -/
noncomputable def part (N : ℕ) (e : ℕ → ℝ) (a : ℝ) : ℝ := ∑ i ∈ Finset.range N, Real.exp (-(a * e i))

theorem part_pos {N : ℕ} (hN : 0 < N) (e : ℕ → ℝ) (a : ℝ) : 0 < part N e a :=
  Finset.sum_pos (fun i _ => Real.exp_pos _) ⟨0, by simpa using hN⟩

theorem part_two (N : ℕ) (e : ℕ → ℝ) (a : ℝ) : part N e (2 * a) = ∑ i ∈ Finset.range N, Real.exp (-(a * e i)) ^ 2 := by
  unfold part
  refine Finset.sum_congr rfl fun i _ => ?_
  rw [pow_two, ← Real.exp_add]
  congr 1
  ring

theorem Jeff_eq (N : ℕ) (e : ℕ → ℝ) (a : ℝ) : Jeff N e a = part N e a ^ 2 / part N e (2 * a) := by
  rw [part_two]; rfl

/-- The logarithm of the partition sum is convex. -/
theorem log_part_convex {N : ℕ} (hN : 0 < N) (e : ℕ → ℝ) : ConvexOn ℝ Set.univ fun a => Real.log (part N e a) := by
  refine ⟨convex_univ, fun a _ b _ s t hs ht hst => ?_⟩
  simp only [smul_eq_mul]
  have pa := part_pos hN e a
  have pb := part_pos hN e b
  have pc := part_pos hN e (s * a + t * b)
  rw [Real.log_le_iff_le_exp pc]
  have key : ∀ i, Real.exp (-((s * a + t * b) * e i) - (s * Real.log (part N e a) + t * Real.log (part N e b))) ≤
      s * (Real.exp (-(a * e i)) / part N e a) + t * (Real.exp (-(b * e i)) / part N e b) := by
    intro i
    have h := convexOn_exp.2 (Set.mem_univ (-(a * e i) - Real.log (part N e a)))
      (Set.mem_univ (-(b * e i) - Real.log (part N e b))) hs ht hst
    simp only [smul_eq_mul] at h
    rw [Real.exp_sub (-(a * e i)), Real.exp_sub (-(b * e i)), Real.exp_log pa, Real.exp_log pb] at h
    refine le_trans (le_of_eq ?_) h
    congr 1
    ring
  have hsum := Finset.sum_le_sum fun i (_ : i ∈ Finset.range N) => key i
  rw [Finset.sum_add_distrib, ← Finset.mul_sum, ← Finset.mul_sum, ← Finset.sum_div, ← Finset.sum_div] at hsum
  have e1 : (∑ i ∈ Finset.range N, Real.exp (-(a * e i))) / part N e a = 1 := div_self pa.ne'
  have e2 : (∑ i ∈ Finset.range N, Real.exp (-(b * e i))) / part N e b = 1 := div_self pb.ne'
  rw [e1, e2, mul_one, mul_one, hst] at hsum
  simp only [Real.exp_sub] at hsum
  rw [← Finset.sum_div, div_le_one (Real.exp_pos _)] at hsum
  exact hsum

theorem log_part_slope {N : ℕ} (hN : 0 < N) (e : ℕ → ℝ) {a b : ℝ} (ha : 0 ≤ a) (hab : a ≤ b) :
    2 * (Real.log (part N e b) - Real.log (part N e a)) ≤
      Real.log (part N e (2 * b)) - Real.log (part N e (2 * a)) := by
  rcases hab.eq_or_lt with rfl | hlt
  · simp
  have hc := log_part_convex hN e
  set L := fun a => Real.log (part N e a) with hL
  -- slope on [a, b] ≤ slope on [a, 2b] ≤ slope on [2a, 2b]
  have hb : 0 < b := lt_of_le_of_lt ha hlt
  have h1 : (L b - L a) / (b - a) ≤ (L (2 * b) - L a) / (2 * b - a) :=
    hc.secant_mono (Set.mem_univ a) (Set.mem_univ b) (Set.mem_univ (2 * b)) hlt.ne' (by linarith) (by linarith)
  have h2 : (L (2 * b) - L a) / (2 * b - a) ≤ (L (2 * b) - L (2 * a)) / (2 * b - 2 * a) := by
    have h := hc.secant_mono (Set.mem_univ (2 * b)) (Set.mem_univ a) (Set.mem_univ (2 * a)) (by linarith) (by linarith)
      (by linarith)
    have e1 : (L a - L (2 * b)) / (a - 2 * b) = (L (2 * b) - L a) / (2 * b - a) := by
      rw [← neg_div_neg_eq]; congr 1 <;> ring
    have e2 : (L (2 * a) - L (2 * b)) / (2 * a - 2 * b) = (L (2 * b) - L (2 * a)) / (2 * b - 2 * a) := by
      rw [← neg_div_neg_eq]; congr 1 <;> ring
    rw [e1, e2] at h
    exact h
  have h3 := h1.trans h2
  have hd : 0 < b - a := by linarith
  rw [show (2 * b - 2 * a) = 2 * (b - a) by ring, div_le_div_iff₀ hd (by linarith)] at h3
  have : (L b - L a) * 2 * (b - a) ≤ (L (2 * b) - L (2 * a)) * (b - a) := by linarith
  have := le_of_mul_le_mul_right this hd
  linarith

end Verif
