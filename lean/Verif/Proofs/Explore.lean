import Verif.Spec.Explore
import Verif.Proofs.Moments
import Verif.Proofs.Best

/-! Sets that a noisy step reaches with positive probability (for C114). -/

set_option linter.unusedSectionVars false

namespace Verif

open MeasureTheory ProbabilityTheory

section
variable {Ω ι : Type} [MeasurableSpace Ω] {μ : Measure Ω} [IsProbabilityMeasure μ] [Fintype ι] [DecidableEq ι]

/-- An interval has positive probability. -/
theorem normal_interval {Z : Ω → ℝ} (hZ : HasLaw Z (gaussianReal 0 1) μ) (u v : ℝ) {g ε : ℝ} (hg : g ≠ 0) (hε : 0 < ε) : μ (Z ⁻¹' {x | |u + g * x - v| < ε}) ≠ 0 := by
  have hO : IsOpen {x : ℝ | |u + g * x - v| < ε} := isOpen_lt (by fun_prop) continuous_const
  rw [← Measure.map_apply_of_aemeasurable hZ.aemeasurable hO.measurableSet, hZ.map_eq]
  intro h
  have h2 : (volume : Measure ℝ) {x : ℝ | |u + g * x - v| < ε} = 0 := gaussianReal_absolutelyContinuous' 0 one_ne_zero h
  have h3 : (0 : ENNReal) < volume {x : ℝ | |u + g * x - v| < ε} := hO.measure_pos volume ⟨(v - u) / g, by
    show |u + g * ((v - u) / g) - v| < ε
    rw [mul_div_cancel₀ _ hg]
    simpa using hε⟩
  exact h3.ne' h2

/-- Independent standard normal vectors reach prescribed open sets at the same time. -/
theorem normal_hits {z : Ω → ℕ → ℕ → ι → ℝ} (hz : StdNormalTape μ z) (T : Finset (ℕ × ℕ)) (u g : ℕ × ℕ → ι → ℝ) (hg : ∀ q ∈ T, ∀ l, g q l ≠ 0) (U : ℕ × ℕ → Set (ι → ℝ))
    (hU : ∀ q ∈ T, IsOpen (U q)) (hne : ∀ q ∈ T, (U q).Nonempty) : 0 < μ {ω | ∀ q ∈ T, (fun l => u q l + g q l * z ω q.1 q.2 l) ∈ U q} := by
  have hb : ∀ q : ℕ × ℕ, ∃ (v : ι → ℝ) (ε : ℝ), 0 < ε ∧ (q ∈ T → ∀ y : ι → ℝ, (∀ l, |y l - v l| < ε) → y ∈ U q) := by
    intro q
    by_cases hq : q ∈ T
    · obtain ⟨v, hv⟩ := hne q hq
      obtain ⟨ε, hε, hball⟩ := Metric.isOpen_iff.1 (hU q hq) v hv
      refine ⟨v, ε, hε, fun _ y hy => hball ?_⟩
      rw [Metric.mem_ball, dist_pi_lt_iff hε]
      exact hy
    · exact ⟨0, 1, one_pos, fun h => absurd h hq⟩
  choose v ε hε hvU using hb
  let S : Finset (ℕ × ℕ × ι) := (T ×ˢ Finset.univ).map ⟨fun r : (ℕ × ℕ) × ι => (r.1.1, r.1.2, r.2), fun a b e => by
    simp only [Prod.mk.injEq] at e
    exact Prod.ext (Prod.ext e.1 e.2.1) e.2.2⟩
  have hS : ∀ r ∈ S, (r.1, r.2.1) ∈ T := by
    intro r hr
    simp only [S, Finset.mem_map, Finset.mem_product, Finset.mem_univ, and_true, Function.Embedding.coeFn_mk] at hr
    obtain ⟨a, ha, rfl⟩ := hr
    exact ha
  have hS' : ∀ q ∈ T, ∀ l, (q.1, q.2, l) ∈ S := by
    intro q hq l
    simp only [S, Finset.mem_map, Finset.mem_product, Finset.mem_univ, and_true, Function.Embedding.coeFn_mk]
    exact ⟨(q, l), hq, rfl⟩
  let I : ℕ × ℕ × ι → Set ℝ := fun r => {x | |u (r.1, r.2.1) r.2.2 + g (r.1, r.2.1) r.2.2 * x - v (r.1, r.2.1) r.2.2| < ε (r.1, r.2.1)}
  have hprod := hz.indep.measure_inter_preimage_eq_mul S (sets := I) fun r _ => (isOpen_lt (by fun_prop) continuous_const).measurableSet
  have hpos : 0 < μ (⋂ r ∈ S, (fun ω => z ω r.1 r.2.1 r.2.2) ⁻¹' I r) := by
    rw [hprod, pos_iff_ne_zero, Finset.prod_ne_zero_iff]
    intro r hr
    exact normal_interval (hz.law _ _ _) _ _ (hg _ (hS r hr) _) (hε _)
  refine hpos.trans_le (measure_mono fun ω hω q hq => hvU q hq _ fun l => ?_)
  have := Set.mem_iInter₂.1 hω (q.1, q.2, l) (hS' q hq l)
  exact this

end

end Verif
