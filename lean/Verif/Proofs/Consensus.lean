import Verif.Model.Consensus
import Verif.Spec.Consensus
import Mathlib.Analysis.Convex.Combination
import Mathlib.Algebra.BigOperators.Fin
import Mathlib.Algebra.Order.BigOperators.Ring.Finset
import Mathlib.Algebra.Order.BigOperators.Group.List
import Mathlib.Tactic.Ring
import Mathlib.Topology.Algebra.Module.Basic
import Mathlib.Topology.Algebra.Order.Field
import Mathlib.Analysis.SpecialFunctions.Exp
import Mathlib.Tactic.Positivity

/-! Helper lemmas on consensus points. -/

namespace Verif

variable {V : Type} [AddCommGroup V] [Module ℝ V]

/-- A finite sample as the consensus rule sees it. -/
noncomputable def finSample (a : ℝ) (l : List (ℝ × V)) : List (ℝ × Flt ℝ × V) := l.map fun p => (a, .fin p.1, p.2)

theorem list_sum_pos {α : Type} (l : List α) (g : α → ℝ) (hg : ∀ p ∈ l, 0 < g p) (hl : l ≠ []) : 0 < (l.map g).sum := by
  apply List.sum_pos
  · intro x hx
    obtain ⟨p, hp, rfl⟩ := List.mem_map.1 hx
    exact hg p hp
  · simpa using hl

theorem consDefault_fin (a : ℝ) (l : List (ℝ × V)) : consDefault (finSample a l) = gibbs a l := by
  rcases eq_or_ne l [] with rfl | hl
  · simp [consDefault, gibbs, finSample]
  have hz : lseWeights (finSample a l) = Real.log (l.map fun p => Real.exp (-(a * p.1))).sum := by
    simp [lseWeights, finSample, expWeight, Function.comp_def]
  have hpos := list_sum_pos l (fun p => Real.exp (-(a * p.1))) (fun _ _ => Real.exp_pos _) hl
  unfold consDefault gibbs
  rw [List.smul_sum]
  conv_lhs => rw [finSample, List.map_map]
  rw [List.map_map]
  congr 1
  apply List.map_congr_left
  intro p _
  simp only [Function.comp_apply]
  rw [show (List.map (fun p : ℝ × V => ((a, Flt.fin p.1, p.2) : ℝ × Flt ℝ × V)) l) = finSample a l from rfl]
  simp only [coeff, hz]
  rw [Real.exp_sub, Real.exp_log hpos, smul_smul]
  congr 1
  rw [neg_mul, div_eq_inv_mul]

theorem gibbs_sum (a : ℝ) (l : List (ℝ × V)) :
    gibbs a l = ∑ i : Fin l.length, (Real.exp (-(a * l[i].1)) / ∑ j : Fin l.length, Real.exp (-(a * l[j].1))) • l[i].2 := by
  unfold gibbs
  rw [← Fin.sum_univ_fun_getElem l (fun p => Real.exp (-(a * p.1))),
    ← Fin.sum_univ_fun_getElem l (fun p => Real.exp (-(a * p.1)) • p.2), Finset.smul_sum]
  refine Finset.sum_congr rfl fun i _ => ?_
  rw [smul_smul, div_eq_inv_mul]
  rfl

theorem minimum_fin (a b : ℝ) : Flt.minimum (.fin a) (.fin b) = .fin (if b < a then b else a) := by
  simp only [Flt.minimum, Flt.isNaN, Flt.lt]
  by_cases h : b < a <;> simp [h]

theorem rowEMin_fin (a : ℝ) (l : List (ℝ × V)) (hl : l ≠ []) : ∃ e, rowEMin (finSample a l) = .fin e := by
  cases l with
  | nil => exact absurd rfl hl
  | cons q l =>
    have key : ∀ (l : List (ℝ × V)) (e : ℝ), ∃ e', (finSample a l).foldl (fun acc q => Flt.minimum acc q.2.1) (.fin e) = .fin e' := by
      intro l
      induction l with
      | nil => exact fun e => ⟨e, rfl⟩
      | cons q l ih =>
        intro e
        have : (finSample a (q :: l)).foldl (fun acc q => Flt.minimum acc q.2.1) (.fin e) =
          (finSample a l).foldl (fun acc q => Flt.minimum acc q.2.1) (Flt.minimum (.fin e) (.fin q.1)) := rfl
        rw [this, minimum_fin]
        exact ih _
    exact key l q.1

/-- Exponential sums concentrate on the smallest energies. -/
theorem tendsto_exp_sum {W : Type} [AddCommGroup W] [Module ℝ W] [TopologicalSpace W] [ContinuousAdd W] [ContinuousSMul ℝ W]
    (g : ℝ × V → W) (e : ℝ) : ∀ l : List (ℝ × V), (∀ p ∈ l, e ≤ p.1) →
    Filter.Tendsto (fun a => (l.map fun p => Real.exp (-(a * (p.1 - e))) • g p).sum) Filter.atTop
      (nhds ((l.filter fun p => p.1 = e).map g).sum)
  | [], _ => by simpa using tendsto_const_nhds
  | p :: l, h => by
    have ih := tendsto_exp_sum g e l fun q hq => h q (List.mem_cons_of_mem _ hq)
    simp only [List.map_cons, List.sum_cons]
    rcases (h p (List.mem_cons_self)).eq_or_lt with he | he
    · rw [List.filter_cons_of_pos (by simpa using he.symm), List.map_cons, List.sum_cons]
      refine Filter.Tendsto.add ?_ ih
      have : (fun a : ℝ => Real.exp (-(a * (p.1 - e))) • g p) = fun _ => g p := by
        funext a; rw [he, sub_self, mul_zero, neg_zero, Real.exp_zero, one_smul]
      rw [this]
      exact tendsto_const_nhds
    · rw [List.filter_cons_of_neg (by simpa using he.ne'), ← zero_add (List.sum _)]
      refine Filter.Tendsto.add ?_ ih
      rw [← zero_smul ℝ (g p)]
      refine Filter.Tendsto.smul_const ?_ (g p)
      apply Real.tendsto_exp_neg_atTop_nhds_zero.comp
      exact Filter.Tendsto.atTop_mul_const (sub_pos.2 he) Filter.tendsto_id

end Verif
