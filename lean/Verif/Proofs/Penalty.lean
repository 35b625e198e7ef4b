import Verif.Spec.Penalty
import Verif.Proofs.Hull
import Verif.Proofs.Regularizers

/-! Means with penalised weights. Helper lemmas for C119. -/

set_option linter.unusedSectionVars false

namespace Verif

open Filter Topology

section
variable {V W : Type} [AddCommGroup W] [Module ℝ W]

theorem gibbs_wmean (a : ℝ) (e : V → ℝ) (g : V → W) (l : List V) : gibbs a (l.map fun v => (e v, g v)) = wmean a e g l := by
  simp only [gibbs, wmean, List.map_map, Function.comp_def]

theorem cons_wmean (a : ℝ) (e : V → ℝ) (g : V → W) (l : List V) :
    consDefault (l.map fun v => (a, .fin (e v), g v)) = wmean a e g l := by
  rw [← gibbs_wmean, ← consDefault_fin]
  simp only [finSample, List.map_map, Function.comp_def]

theorem wsum_pos (a : ℝ) (e : V → ℝ) {l : List V} (hl : l ≠ []) : 0 < (l.map fun v => Real.exp (-(a * e v))).sum :=
  list_sum_pos l _ (fun _ _ => Real.exp_pos _) hl

/-- The mean violation falls as the penalty grows. -/
theorem wmean_antitone {a : ℝ} (ha : 0 ≤ a) (f r : V → ℝ) (l : List V) : Antitone fun lam => wmean a (fun v => f v + lam * r v) r l := by
  intro x y hxy
  rcases eq_or_ne l [] with rfl | hl
  · simp [wmean]
  show wmean a (fun v => f v + y * r v) r l ≤ wmean a (fun v => f v + x * r v) r l
  unfold wmean
  simp only [smul_eq_mul]
  have hx := wsum_pos a (fun v => f v + x * r v) hl
  have hy := wsum_pos a (fun v => f v + y * r v) hl
  rw [inv_mul_eq_div, inv_mul_eq_div, div_le_div_iff₀ hy hx]
  simp only [← Fin.sum_univ_fun_getElem l]
  rw [Finset.sum_mul_sum, Finset.sum_mul_sum]
  let u : Fin l.length → ℝ := fun i => Real.exp (-(a * (f l[i] + x * r l[i])))
  let v : Fin l.length → ℝ := fun i => Real.exp (-(a * (f l[i] + y * r l[i])))
  let q : Fin l.length → ℝ := fun i => r l[i]
  show ∑ i, ∑ j, v i * q i * u j ≤ ∑ i, ∑ j, u i * q i * v j
  have h1 : ∑ i, ∑ j, v i * q i * u j = ∑ i, ∑ j, u i * q j * v j := by
    rw [Finset.sum_comm]
    exact Finset.sum_congr rfl fun i _ => Finset.sum_congr rfl fun j _ => by ring
  have h2 : ∑ i, ∑ j, u i * q i * v j = ∑ i, ∑ j, v i * q j * u j := by
    rw [Finset.sum_comm]
    exact Finset.sum_congr rfl fun i _ => Finset.sum_congr rfl fun j _ => by ring
  suffices h : 0 ≤ ∑ i, ∑ j, (u i * q i * v j + v i * q j * u j - (v i * q i * u j + u i * q j * v j)) by
    simp only [Finset.sum_sub_distrib, Finset.sum_add_distrib] at h
    linarith
  refine Finset.sum_nonneg fun i _ => Finset.sum_nonneg fun j _ => ?_
  have e1 : u i * q i * v j + v i * q j * u j - (v i * q i * u j + u i * q j * v j) = (q i - q j) * (u i * v j - v i * u j) := by ring
  rw [e1]
  have e2 : u i * v j = Real.exp (-(a * (f l[i] + x * r l[i])) + -(a * (f l[j] + y * r l[j]))) := (Real.exp_add _ _).symm
  have e3 : v i * u j = Real.exp (-(a * (f l[i] + y * r l[i])) + -(a * (f l[j] + x * r l[j]))) := (Real.exp_add _ _).symm
  have hd : 0 ≤ a * (y - x) := mul_nonneg ha (by linarith)
  rcases le_total (q i) (q j) with h | h
  · refine mul_nonneg_of_nonpos_of_nonpos (by linarith) ?_
    rw [sub_nonpos, e2, e3, Real.exp_le_exp]
    have := mul_le_mul_of_nonneg_left h hd
    show -(a * (f l[i] + x * q i)) + -(a * (f l[j] + y * q j)) ≤ -(a * (f l[i] + y * q i)) + -(a * (f l[j] + x * q j))
    linarith
  · refine mul_nonneg (by linarith) ?_
    rw [sub_nonneg, e2, e3, Real.exp_le_exp]
    have := mul_le_mul_of_nonneg_left h hd
    show -(a * (f l[i] + y * q i)) + -(a * (f l[j] + x * q j)) ≤ -(a * (f l[i] + x * q i)) + -(a * (f l[j] + y * q j))
    linarith

/-- The weight of the points with much larger violation is exponentially small. -/
theorem wmean_tail {a lam δ K : ℝ} (ha : 0 ≤ a) (hlam : 0 ≤ lam) (f r : V → ℝ) (l : List V) {v₀ : V} (h₀ : v₀ ∈ l)
    (hK : ∀ v ∈ l, f v₀ - f v ≤ K) (P : V → Prop) [DecidablePred P] (hP : ∀ v ∈ l, P v → r v₀ + δ ≤ r v) :
    wmean a (fun v => f v + lam * r v) (fun v => if P v then (1 : ℝ) else 0) l ≤ l.length * Real.exp (-(a * (lam * δ - K))) := by
  unfold wmean
  simp only [smul_eq_mul]
  have hpos := wsum_pos a (fun v => f v + lam * r v) (List.ne_nil_of_mem h₀)
  rw [inv_mul_eq_div, div_le_iff₀ hpos]
  have hZ : Real.exp (-(a * (f v₀ + lam * r v₀))) ≤ (l.map fun v => Real.exp (-(a * (f v + lam * r v)))).sum :=
    List.single_le_sum (fun y hy => by
      obtain ⟨v, -, rfl⟩ := List.mem_map.1 hy
      exact (Real.exp_pos _).le) _ (List.mem_map_of_mem h₀)
  have hE : ∀ v ∈ l, Real.exp (-(a * (f v + lam * r v))) * (if P v then (1 : ℝ) else 0) ≤
      Real.exp (-(a * (lam * δ - K))) * Real.exp (-(a * (f v₀ + lam * r v₀))) := by
    intro v hv
    by_cases h : P v
    · rw [if_pos h, mul_one, ← Real.exp_add, Real.exp_le_exp]
      have h1 := mul_le_mul_of_nonneg_left (hP v hv h) hlam
      have h2 := mul_le_mul_of_nonneg_left (show f v₀ + lam * r v₀ + (lam * δ - K) ≤ f v + lam * r v by linarith [hK v hv]) ha
      linarith
    · rw [if_neg h, mul_zero]
      positivity
  have hs := List.sum_le_card_nsmul (l.map fun v => Real.exp (-(a * (f v + lam * r v))) * (if P v then (1 : ℝ) else 0))
    (Real.exp (-(a * (lam * δ - K))) * Real.exp (-(a * (f v₀ + lam * r v₀)))) (by
      intro y hy
      obtain ⟨v, hv, rfl⟩ := List.mem_map.1 hy
      exact hE v hv)
  rw [List.length_map, nsmul_eq_mul] at hs
  refine hs.trans ?_
  rw [mul_assoc]
  gcongr

end

section
variable {V W : Type} [AddCommGroup W] [Module ℝ W] [TopologicalSpace W] [ContinuousAdd W] [ContinuousSMul ℝ W]

/-- The limit of a large penalty: only the points of least violation count. -/
theorem wmean_limit {a : ℝ} (ha : 0 < a) (f r : V → ℝ) (g : V → W) (l : List V) {v₀ : V} (h₀ : v₀ ∈ l) (hmin : ∀ v ∈ l, r v₀ ≤ r v) :
    Tendsto (fun lam => wmean a (fun v => f v + lam * r v) g l) atTop (𝓝 (wmean a f g (l.filter fun v => r v = r v₀))) := by
  have ex : ∀ lam v, Real.exp (-(a * (f v + lam * r v))) = Real.exp (-(a * (lam * r v₀))) * (Real.exp (-(lam * (a * r v - a * r v₀))) * Real.exp (-(a * f v))) := by
    intro lam v
    rw [← Real.exp_add, ← Real.exp_add]
    congr 1
    ring
  have key : ∀ {U : Type} [AddCommGroup U] [Module ℝ U] [TopologicalSpace U] [ContinuousAdd U] [ContinuousSMul ℝ U] (g : V → U),
      Tendsto (fun lam => (l.map fun v => (Real.exp (-(lam * (a * r v - a * r v₀))) * Real.exp (-(a * f v))) • g v).sum) atTop
        (𝓝 ((l.filter fun v => r v = r v₀).map fun v => Real.exp (-(a * f v)) • g v).sum) := by
    intro U _ _ _ _ _ g
    clear h₀ ex
    induction l with
    | nil => simpa using tendsto_const_nhds
    | cons v l ih =>
      have ih := ih fun w hw => hmin w (List.mem_cons_of_mem _ hw)
      simp only [List.map_cons, List.sum_cons]
      rcases (hmin v List.mem_cons_self).eq_or_lt with he | he
      · rw [List.filter_cons_of_pos (by simp [he]), List.map_cons, List.sum_cons]
        refine Tendsto.add ?_ ih
        simp only [← he, sub_self, mul_zero, neg_zero, Real.exp_zero, one_mul]
        exact tendsto_const_nhds
      · rw [List.filter_cons_of_neg (by simp [he.ne'])]
        have h1 : Tendsto (fun lam : ℝ => Real.exp (-(lam * (a * r v - a * r v₀)))) atTop (𝓝 0) := by
          refine Real.tendsto_exp_neg_atTop_nhds_zero.comp ?_
          refine Tendsto.atTop_mul_const ?_ tendsto_id
          have := mul_lt_mul_of_pos_left he ha
          linarith
        have h2 := ((h1.mul_const (Real.exp (-(a * f v)))).smul_const (g v)).add ih
        simpa using h2
  have hne : (l.filter fun v => r v = r v₀) ≠ [] := List.ne_nil_of_mem (List.mem_filter.2 ⟨h₀, by simp⟩)
  have hz := key (fun _ => (1 : ℝ))
  simp only [smul_eq_mul, mul_one] at hz
  have hlim := (hz.inv₀ (wsum_pos a f hne).ne').smul (key g)
  refine hlim.congr fun lam => ?_
  unfold wmean
  simp only [ex, mul_smul]
  have hs : ∀ (c : ℝ) (h : V → W), (l.map fun v => c • h v).sum = c • (l.map h).sum := fun c h => by rw [List.smul_sum, List.map_map]; rfl
  have hs' : ∀ (c : ℝ) (h : V → ℝ), (l.map fun v => c * h v).sum = c * (l.map h).sum := fun c h => List.sum_map_mul_left ..
  rw [hs, hs', mul_inv, smul_smul, mul_comm (Real.exp _)⁻¹, mul_assoc, inv_mul_cancel₀ (Real.exp_pos _).ne', mul_one]

end

end Verif
