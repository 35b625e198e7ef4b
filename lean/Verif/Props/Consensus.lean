import Verif.Proofs.Consensus
import Verif.Proofs.Hull
import Mathlib.Algebra.BigOperators.Field
import Mathlib.Analysis.SpecialFunctions.Exp
import Mathlib.Topology.Algebra.Module.Basic
import Mathlib.Topology.Algebra.Order.Field
import Mathlib.Tactic.Linarith

/-! Properties C20 (convex combination), C21 (invariances), C22 (Laplace principle). -/

set_option linter.unusedSectionVars false

namespace Verif

variable {V : Type} [AddCommGroup V] [Module ℝ V]

/-- **C20, formula.** For finite energies `f_i`, the consensus point (log-sum-exp form of the code) is the textbook quotient,
i.e. `sum_i w_i x_i` with `w_i = exp(-a f_i) / sum_j exp(-a f_j) > 0` and `sum_i w_i = 1`. -/
theorem C20_weights (a : ℝ) (l : List (ℝ × V)) (hl : l ≠ []) :
    consDefault (finSample a l) = gibbs a l ∧
    ∃ w : Fin l.length → ℝ, (∀ i, w i = Real.exp (-(a * l[i].1)) / ∑ j : Fin l.length, Real.exp (-(a * l[j].1))) ∧
      (∀ i, 0 < w i) ∧ ∑ i, w i = 1 ∧ consDefault (finSample a l) = ∑ i, w i • l[i].2 := by
  have hpos : 0 < ∑ j : Fin l.length, Real.exp (-(a * l[j].1)) :=
    Finset.sum_pos (fun _ _ => Real.exp_pos _) ⟨⟨0, List.length_pos_of_ne_nil hl⟩, Finset.mem_univ _⟩
  refine ⟨consDefault_fin a l, _, fun i => rfl, fun i => div_pos (Real.exp_pos _) hpos, ?_, ?_⟩
  · rw [← Finset.sum_div, div_self hpos.ne']
  · rw [consDefault_fin, gibbs_sum]

/-- **C20, convexity.** The consensus point lies in every convex set containing the particles. -/
theorem C20_convex (a : ℝ) (l : List (ℝ × V)) (hl : l ≠ []) (S : Set V) (hS : Convex ℝ S) (hx : ∀ p ∈ l, p.2 ∈ S) :
    consDefault (finSample a l) ∈ S := by
  obtain ⟨-, w, -, h1, h2, h3⟩ := C20_weights a l hl
  rw [h3]
  exact hS.sum_mem (fun i _ => (h1 i).le) h2 fun i _ => hx _ (List.getElem_mem _)

/-- **C20, coordinates.** Every coordinate of the consensus point lies between the smallest and the largest coordinate of
the particles. -/
theorem C20_coordinates {ι : Type} (a : ℝ) (l : List (ℝ × (ι → ℝ))) (hl : l ≠ []) (k : ι) (lo hi : ℝ)
    (h : ∀ p ∈ l, lo ≤ p.2 k ∧ p.2 k ≤ hi) :
    lo ≤ consDefault (finSample a l) k ∧ consDefault (finSample a l) k ≤ hi := by
  refine C20_convex a l hl {v | lo ≤ v k ∧ v k ≤ hi} ?_ h
  intro u hu v hv s t hs ht hst
  have e : (s • u + t • v) k = s * u k + t * v k := rfl
  have t1 : t = 1 - s := by linarith
  constructor
  · rw [e]
    have h1 := mul_le_mul_of_nonneg_left hu.1 hs
    have h2 := mul_le_mul_of_nonneg_left hv.1 ht
    calc lo = s * lo + t * lo := by rw [t1]; ring
      _ ≤ _ := add_le_add h1 h2
  · rw [e]
    have h1 := mul_le_mul_of_nonneg_left hu.2 hs
    have h2 := mul_le_mul_of_nonneg_left hv.2 ht
    calc s * u k + t * v k ≤ s * hi + t * hi := add_le_add h1 h2
      _ = hi := by rw [t1]; ring

/-- **C20 in the dynamic.** Whatever happened before, after a CBO step with the default consensus rule, a finite objective and
a non-empty batch the stored consensus point of the `i`-th active run lies in every convex set that contained the particles of
that run before the step. -/
theorem C20_step (env : Env ℝ V) (f : V → ℝ) (ν : ℕ → ℝ → ℕ → ℕ → V → V) (p : V → V) (hE : Standard env f ν p) (a : Args ℝ V)
    (hb : a.batchSize ≠ some 0) (s₀ s s' : St ℝ V) (ops : List Op) (h0 : init env a = .ok s₀)
    (h : execAll env (cboInner env) ops s₀ = .ok s) (hs : step env (cboInner env) s = .ok s') :
    ∃ c, s'.cons = some c ∧ ∀ i < s.active.length, ∀ S : Set V, Convex ℝ S →
      (∀ n < s.N, s.x.get (s.active.getD i 0) n ∈ S) → c.get i 0 ∈ S := by
  obtain ⟨hw, hbs⟩ := std_reach hE hb h0 h
  obtain ⟨c, d, n, xm, cs⟩ := cboStep_facts hE.corr hE.noise.ok.shape hE.cons hE.perm hw hs
  refine ⟨c, cs.cons, fun i hi S hS hx => ?_⟩
  obtain ⟨i', c', r⟩ := runStep hE hw hbs hs _ (getD_mem hi)
  have hii : i' = i := getD_inj hw.nodup r.pos hi r.act
  subst hii
  obtain ⟨cm, e1, e2⟩ := r.cons
  rw [cs.cons] at e1
  injection e1 with e1
  subst e1
  rw [e2, r.pairs, ← consDefault_fin]
  refine C20_convex _ _ r.ne S hS fun q hq => ?_
  obtain ⟨k, hk, rfl⟩ := r.mem q hq
  exact hx k hk

/-- C20: energies 0, 1 at the points 0, 4 of the line; the consensus point lies strictly inside. -/
example : ([(0, 0), (1, 4)] : List (ℝ × ℝ)) ≠ [] ∧
    consDefault (finSample 1 ([(0, 0), (1, 4)] : List (ℝ × ℝ))) ∈ Set.Icc (0 : ℝ) 4 := by
  refine ⟨by simp, C20_convex 1 _ (by simp) _ (convex_Icc 0 4) ?_⟩
  intro p hp
  simp only [List.mem_cons, List.not_mem_nil, or_false] at hp
  rcases hp with rfl | rfl <;> norm_num

/-- **C21, shift.** Adding a constant to all energies does not change the consensus point. -/
theorem C21_shift (a b : ℝ) (l : List (ℝ × V)) :
    consDefault (finSample a (l.map fun p => (p.1 + b, p.2))) = consDefault (finSample a l) := by
  rw [consDefault_fin, consDefault_fin]
  have h : ∀ x : ℝ, Real.exp (-(a * (x + b))) = Real.exp (-(a * b)) * Real.exp (-(a * x)) := fun x => by
    rw [← Real.exp_add]; congr 1; ring
  simp only [gibbs, List.map_map, Function.comp_def, h, mul_smul]
  have h2 : (l.map fun x => Real.exp (-(a * b)) • Real.exp (-(a * x.1)) • x.2).sum =
      Real.exp (-(a * b)) • (l.map fun x => Real.exp (-(a * x.1)) • x.2).sum := by
    rw [List.smul_sum, List.map_map]; rfl
  rw [List.sum_map_mul_left, h2, mul_inv, smul_smul, mul_assoc, mul_comm _ (Real.exp (-(a * b))), ← mul_assoc,
    inv_mul_cancel₀ (Real.exp_pos _).ne', one_mul]

/-- **C21, permutation.** The order of the particles does not matter (any energies, including infinite ones). -/
theorem C21_perm (l l' : List (ℝ × Flt ℝ × V)) (h : l.Perm l') : consDefault l = consDefault l' := by
  have hz : lseWeights l = lseWeights l' := by
    unfold lseWeights
    rw [(h.map _).sum_eq]
  have hc : ∀ p, coeff l p = coeff l' p := fun p => by simp only [coeff, hz]
  unfold consDefault
  rw [(h.map _).sum_eq]
  simp only [hc]

/-- **C21, mean.** For `alpha = 0` the consensus point is the arithmetic mean. -/
theorem C21_mean (l : List (ℝ × V)) :
    consDefault (finSample 0 l) = (l.length : ℝ)⁻¹ • (l.map fun p => p.2).sum := by
  rw [consDefault_fin]
  simp [gibbs]

/-- **C21, rescaled variant.** The rule used by `HyperSurfaceCBO` (energies minus their minimum) gives the same point. -/
theorem C21_rescale (a : ℝ) (l : List (ℝ × V)) : consRescale (finSample a l) = consDefault (finSample a l) := by
  rcases eq_or_ne l [] with rfl | hl
  · rfl
  obtain ⟨e, he⟩ := rowEMin_fin a l hl
  have : (finSample a l).map (fun p => (p.1, Flt.sub p.2.1 (rowEMin (finSample a l)), p.2.2)) =
      finSample a (l.map fun p => (p.1 + -e, p.2)) := by
    rw [he]
    simp only [finSample, List.map_map, Function.comp_def, Flt.sub, Flt.neg, Flt.add]
  rw [consRescale, this, C21_shift]

/-- C21: a concrete ensemble whose energies differ, shifted by 7: the same consensus point. -/
example : consDefault (finSample 3 ([(7, 0), (8, 4)] : List (ℝ × ℝ))) = consDefault (finSample 3 [(0, 0), (1, 4)]) := by
  have := C21_shift 3 7 ([(0, 0), (1, 4)] : List (ℝ × ℝ))
  norm_num at this ⊢
  exact this

/-- **C22, limit.** As `alpha → ∞` the consensus point tends to the average of the particles with the smallest energy `e`. -/
theorem C22_laplace [TopologicalSpace V] [ContinuousAdd V] [ContinuousSMul ℝ V] (l : List (ℝ × V)) (e : ℝ)
    (h1 : ∀ p ∈ l, e ≤ p.1) (h2 : ∃ p ∈ l, p.1 = e) :
    Filter.Tendsto (fun a => consDefault (finSample a l)) Filter.atTop
      (nhds (((l.filter fun p => p.1 = e).length : ℝ)⁻¹ • ((l.filter fun p => p.1 = e).map fun p => p.2).sum)) := by
  have key : (fun a => consDefault (finSample a l)) = fun a =>
      (l.map fun p => Real.exp (-(a * (p.1 - e))) • (1 : ℝ)).sum⁻¹ •
        (l.map fun p => Real.exp (-(a * (p.1 - e))) • p.2).sum := by
    funext a
    rw [← C21_shift a (-e), consDefault_fin]
    simp only [gibbs, List.map_map, Function.comp_def, smul_eq_mul, mul_one, sub_eq_add_neg]
  rw [key]
  have h3 := tendsto_exp_sum (fun _ => (1 : ℝ)) e l h1
  have h4 := tendsto_exp_sum (fun p => p.2) e l h1
  have e1 : ((l.filter fun p => p.1 = e).map fun _ => (1 : ℝ)).sum = ((l.filter fun p => p.1 = e).length : ℝ) := by
    simp
  rw [e1] at h3
  refine Filter.Tendsto.smul (h3.inv₀ ?_) h4
  obtain ⟨p, hp, hpe⟩ := h2
  have : p ∈ l.filter fun p => p.1 = e := List.mem_filter.2 ⟨hp, by simpa using hpe⟩
  exact Nat.cast_ne_zero.2 (List.length_pos_of_mem this).ne'

/-- **C22, best particle.** If exactly one particle has the smallest energy, the consensus point tends to that particle. -/
theorem C22_best [TopologicalSpace V] [ContinuousAdd V] [ContinuousSMul ℝ V] (l₁ l₂ : List (ℝ × V)) (b : ℝ × V)
    (h1 : ∀ p ∈ l₁, b.1 < p.1) (h2 : ∀ p ∈ l₂, b.1 < p.1) :
    Filter.Tendsto (fun a => consDefault (finSample a (l₁ ++ b :: l₂))) Filter.atTop (nhds b.2) := by
  have h := C22_laplace (l₁ ++ b :: l₂) b.1
    (by
      intro p hp
      rcases List.mem_append.1 hp with hp | hp
      · exact (h1 p hp).le
      · rcases List.mem_cons.1 hp with rfl | hp
        · exact le_refl _
        · exact (h2 p hp).le) ⟨b, by simp, rfl⟩
  have f1 : ∀ l : List (ℝ × V), (∀ p ∈ l, b.1 < p.1) → l.filter (fun p => p.1 = b.1) = [] := fun l hl => by
    rw [List.filter_eq_nil_iff]
    intro p hp
    simpa using (hl p hp).ne'
  rw [List.filter_append, f1 l₁ h1, List.filter_cons_of_pos (by simp), f1 l₂ h2] at h
  simpa using h

/-- **C22, energies.** The energy average with the consensus weights (the consensus rule applied to the energies themselves)
is non-increasing in `alpha`. -/
theorem C22_energy_antitone (l : List ℝ) :
    Antitone fun a => consDefault (finSample a (l.map fun e => (e, e))) := by
  intro a b hab
  simp only [consDefault_fin, gibbs, List.map_map, Function.comp_def, smul_eq_mul]
  rw [← Fin.sum_univ_fun_getElem l, ← Fin.sum_univ_fun_getElem l, ← Fin.sum_univ_fun_getElem l,
    ← Fin.sum_univ_fun_getElem l]
  rcases Nat.eq_zero_or_pos l.length with h0 | h0
  · have : l = [] := List.length_eq_zero_iff.1 h0
    subst this
    simp
  have hpos : ∀ a : ℝ, 0 < ∑ i : Fin l.length, Real.exp (-(a * l[i.1])) := fun a =>
    Finset.sum_pos (fun _ _ => Real.exp_pos _) ⟨⟨0, h0⟩, Finset.mem_univ _⟩
  rw [inv_mul_eq_div, inv_mul_eq_div, div_le_div_iff₀ (hpos b) (hpos a), Finset.sum_mul_sum, Finset.sum_mul_sum]
  -- symmetrise the double sums
  have h1 : ∀ g : Fin l.length → Fin l.length → ℝ, ∑ i, ∑ j, g i j = ∑ i, ∑ j, g j i := fun g => Finset.sum_comm
  suffices h : 0 ≤ ∑ i : Fin l.length, ∑ j : Fin l.length,
      (Real.exp (-(a * l[i.1])) * l[i.1] * Real.exp (-(b * l[j.1])) - Real.exp (-(b * l[i.1])) * l[i.1] * Real.exp (-(a * l[j.1]))) by
    simp only [Finset.sum_sub_distrib] at h
    linarith
  have h2 : ∑ i : Fin l.length, ∑ j : Fin l.length,
      (Real.exp (-(a * l[i.1])) * l[i.1] * Real.exp (-(b * l[j.1])) - Real.exp (-(b * l[i.1])) * l[i.1] * Real.exp (-(a * l[j.1]))) =
      ∑ i : Fin l.length, ∑ j : Fin l.length, (l[i.1] - l[j.1]) / 2 *
      (Real.exp (-(a * l[i.1])) * Real.exp (-(b * l[j.1])) - Real.exp (-(b * l[i.1])) * Real.exp (-(a * l[j.1]))) := by
    have e := h1 fun i j => Real.exp (-(a * l[i.1])) * l[i.1] * Real.exp (-(b * l[j.1])) -
      Real.exp (-(b * l[i.1])) * l[i.1] * Real.exp (-(a * l[j.1]))
    have e2 : ∀ x y : ℝ, x = y → x = (x + y) / 2 := fun x y h => by rw [h]; ring
    rw [e2 _ _ e, ← Finset.sum_add_distrib, Finset.sum_div]
    refine Finset.sum_congr rfl fun i _ => ?_
    rw [← Finset.sum_add_distrib, Finset.sum_div]
    refine Finset.sum_congr rfl fun j _ => ?_
    ring
  rw [h2]
  refine Finset.sum_nonneg fun i _ => Finset.sum_nonneg fun j _ => ?_
  rw [← Real.exp_add, ← Real.exp_add]
  rcases le_total l[i.1] l[j.1] with h | h
  · apply mul_nonneg_of_nonpos_of_nonpos
    · linarith
    · rw [sub_nonpos, Real.exp_le_exp]; nlinarith
  · apply mul_nonneg
    · linarith
    · rw [sub_nonneg, Real.exp_le_exp]; nlinarith

/-- **C22, energies.** For `alpha ≥ 0` the weighted energy average never exceeds the plain average. -/
theorem C22_energy_mean (l : List ℝ) (a : ℝ) (ha : 0 ≤ a) :
    consDefault (finSample a (l.map fun e => (e, e))) ≤ (l.length : ℝ)⁻¹ * l.sum := by
  refine (C22_energy_antitone l ha).trans (le_of_eq ?_)
  simp only [C21_mean]
  simp [Function.comp_def]

/-- C22: a concrete ensemble with unique best particle 5. -/
example : Filter.Tendsto (fun a => consDefault (finSample a ([(3, 7)] ++ (1, 5) :: [(2, -4)] : List (ℝ × ℝ)))) Filter.atTop
    (nhds 5) := C22_best [(3, 7)] [(2, -4)] (1, 5) (by simp) (by simp)

end Verif
