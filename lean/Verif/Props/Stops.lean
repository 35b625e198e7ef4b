import Verif.Proofs.StopsProb
import Verif.Proofs.NeverRaises
import Verif.Props.AlmostSure

/-! Property C85: with weak noise `optimize` with the criterion `diff_tol` stops almost surely, after a number of steps that is finite in the mean. -/

set_option linter.unusedSectionVars false

namespace Verif

open MeasureTheory ProbabilityTheory Filter
open scoped ENNReal Topology

section
variable {ι : Type} [Fintype ι] [DecidableEq ι]
  (env : Env ℝ (ι → ℝ)) (f : (ι → ℝ) → ℝ) (ν : ℕ → ℝ → ℕ → ℕ → (ι → ℝ) → ι → ℝ) (p : (ι → ℝ) → ι → ℝ) (hE : Standard env f ν p) (hnorm : env.normDiff = frobenius)
  (a : Args ℝ (ι → ℝ)) (hb : a.batchSize ≠ some 0) (s₀ s : St ℝ (ι → ℝ)) (ops : List Op) (h0 : init env a = .ok s₀)
  (h : execAll env (cboInner env) ops s₀ = .ok s) (hst : ∀ tm ∈ s.terms, BuiltIn tm) (tol : ℝ) (htol : 0 < tol) (hin : .diffTol (.fin tol) ∈ s.terms)
  (hfull : s.batched = false ∨ s.batchPartial = false) (hdt : 0 ≤ s.dt) (hf : Measurable f) (hp : Shrinks p) (hpp : ∀ v, p (p v) = p v)
  (ga gl gs gd : ℝ → ℝ) (hsch : SchedLocal env ga gl gs gd) (hgd : ∀ x, 0 ≤ x → 0 ≤ gd x)
  (rule : (ι → ℝ) → (ι → ℝ) → ι → ℝ) (κ : ℝ) (hrule : (rule = isoRule ∧ κ = Fintype.card ι) ∨ (rule = anisoRule ∧ κ = 1))
  (q : ℝ) (hq : ∀ j, (1 - gl^[j] s.lamda * gd^[j] s.dt) ^ 2 + ((s.N : ℝ) - 1) * κ * (gs^[j] s.sigma) ^ 2 * gd^[j] s.dt ≤ q)
  {Ω : Type} [MeasurableSpace Ω] (P : Measure Ω) [IsProbabilityMeasure P] (Z : ℕ → Ω → Fin s.M × Fin s.N × ι → ℝ) (hZ : IidNormal P Z)

include hE hnorm hb h0 h hst htol hin hfull hdt hf hp hpp hsch hgd hrule hq hZ

/-- **C85, tail.** CBO with any number `M` of runs, isotropic noise (`κ = d`) or anisotropic noise (`κ = 1`), the default norm, stateless built-in criteria with `diff_tol = tol > 0` among them,
without batches or with `batch_partial=False`; a scheduler that maps every parameter by a function of its own. From every reachable state, for every measurable objective and independent standard normal
numbers: if with the parameters of every round `(1 - lamda·dt)² + (N - 1)·κ·sigma²·dt ≤ q ≤ 1`, then the probability that `optimize` is still running after `k + 2` checks is at most
`(2(k + 1))^M · (5/2)·q^(k-1)·Σ_m spread_m / (N·tol)²`. -/
theorem C85_tail (hq1 : q ≤ 1) (k : ℕ) (hk : 1 ≤ k) :
    P {ω | optimize (withSamples env rule s.M s.N fun d => Z d ω) (cboInner (withSamples env rule s.M s.N fun d => Z d ω)) (k + 2) s = .outOfFuel} ≤
      ENNReal.ofReal ((2 * ((k : ℝ) + 1)) ^ s.M * (5 / 2 * q ^ (k - 1) * (∑ m ∈ Finset.range s.M, spread s.x s.N m) / (s.N * tol) ^ 2)) := by
  obtain ⟨hw, hbs⟩ := std_reach hE hb h0 h
  have hno : NormOK env := ⟨fun l hl => by rw [hnorm]; exact frobenius_ok.1 l hl, fun l => by rw [hnorm]; exact frobenius_ok.2 l⟩
  rw [cboInner_eq] at h
  have hbf := (execAll_induct (cboMove_ok env) hE.post.ok hE.perm (P := fun s => BestFit s)
    (fun o s s' _ hb h => bestFit_exec hno (cboMove_ok env) hE.post.ok hb h) ops s₀ s (init_wf hE.perm h0) (bestFit_init h0) h).2
  rcases hrule with ⟨rfl, rfl⟩ | ⟨rfl, rfl⟩
  · refine stop_tail hE hnorm hst hw hbf hsch iso_coeff hbs hfull hgd hdt hq hpp hp (Nat.cast_nonneg _) hf (measurable_pi_lambda _ fun l => ?_) hq1 htol hin P hZ k hk
    exact Real.continuous_sqrt.measurable.comp (Finset.measurable_sum _ fun l _ => (measurable_pi_apply l).pow_const 2)
  · exact stop_tail hE hnorm hst hw hbf hsch aniso_coeff hbs hfull hgd hdt hq hpp hp zero_le_one hf measurable_id hq1 htol hin P hZ k hk

/-- **C85, mean.** If `q < 1`, the number of checks that `optimize` makes has a finite mean: the probabilities that it is still running after `k` checks are summable. -/
theorem C85_mean (hq1 : q < 1) :
    ∑' k, P {ω | optimize (withSamples env rule s.M s.N fun d => Z d ω) (cboInner (withSamples env rule s.M s.N fun d => Z d ω)) k s = .outOfFuel} ≠ ⊤ := by
  have ht := C85_tail env f ν p hE hnorm a hb s₀ s ops h0 h hst tol htol hin hfull hdt hf hp hpp ga gl gs gd hsch hgd rule κ hrule q hq P Z hZ hq1.le
  have hq0 : 0 ≤ q := by
    refine le_trans ?_ (hq 0)
    have hN1 : (0 : ℝ) ≤ (s.N : ℝ) - 1 := by
      have : (1 : ℝ) ≤ (s.N : ℝ) := by exact_mod_cast (std_reach hE hb h0 h).1.pos
      linarith
    have : 0 ≤ gd^[0] s.dt := hdt
    have : 0 ≤ κ := by rcases hrule with ⟨-, rfl⟩ | ⟨-, rfl⟩ <;> positivity
    positivity
  set A : ℝ := 2 ^ s.M * (5 / 2 * (∑ m ∈ Finset.range s.M, spread s.x s.N m) / (s.N * tol) ^ 2) with hA
  have hA0 : 0 ≤ A := by
    have : 0 ≤ ∑ m ∈ Finset.range s.M, spread s.x s.N m := Finset.sum_nonneg fun m _ => spread_nonneg _ _ _
    rw [hA]; positivity
  set u : ℕ → ℝ≥0∞ := fun k => P {ω | optimize (withSamples env rule s.M s.N fun d => Z d ω) (cboInner (withSamples env rule s.M s.N fun d => Z d ω)) k s = .outOfFuel} with hu
  have hub : ∀ k, u (k + 3) ≤ ENNReal.ofReal (A * (((k + 2 : ℕ) : ℝ) ^ s.M * q ^ k)) := by
    intro k
    refine (ht (k + 1) (by omega)).trans (ENNReal.ofReal_le_ofReal (le_of_eq ?_))
    rw [Nat.add_sub_cancel, hA, mul_pow]
    push_cast
    ring
  have hsum : Summable fun k : ℕ => A * (((k + 2 : ℕ) : ℝ) ^ s.M * q ^ k) := by
    refine Summable.mul_left _ ?_
    rcases hq0.eq_or_lt with h0 | h0
    · refine summable_of_ne_finset_zero (s := {0}) fun k hk => ?_
      rw [← h0, zero_pow (by simpa using hk), mul_zero]
    · have h1 : Summable fun n : ℕ => (n : ℝ) ^ s.M * q ^ n := summable_pow_mul_geometric_of_norm_lt_one s.M (by rw [Real.norm_of_nonneg hq0]; exact hq1)
      have h2 := ((summable_nat_add_iff 2).2 h1).mul_left (q ^ 2)⁻¹
      refine h2.congr fun k => ?_
      rw [pow_add]
      field_simp
  have hfin : ∑' k, u (k + 3) ≠ ⊤ := by
    refine ne_top_of_le_ne_top ?_ (ENNReal.tsum_le_tsum hub)
    rw [← ENNReal.ofReal_tsum_of_nonneg (fun k => by positivity) hsum]
    exact ENNReal.ofReal_ne_top
  have hsplit : ∑' k, u k = u 0 + (u 1 + (u 2 + ∑' k, u (k + 3))) := by
    rw [tsum_eq_zero_add' ENNReal.summable, tsum_eq_zero_add' ENNReal.summable, tsum_eq_zero_add' ENNReal.summable]
  rw [hsplit]
  have hu1 : ∀ k, u k ≠ ⊤ := fun k => measure_ne_top _ _
  exact ENNReal.add_ne_top.2 ⟨hu1 0, ENNReal.add_ne_top.2 ⟨hu1 1, ENNReal.add_ne_top.2 ⟨hu1 2, hfin⟩⟩⟩

/-- **C85.** If `q < 1` (and `save_int ≠ 0`), almost surely `optimize` returns: it neither raises nor runs for ever, without `max_it`, `max_eval` or `max_time` being set. -/
theorem C85_stops (hq1 : q < 1) (hsi : s.saveInt ≠ 0) :
    ∀ᵐ ω ∂P, ∃ fuel s', optimize (withSamples env rule s.M s.N fun d => Z d ω) (cboInner (withSamples env rule s.M s.N fun d => Z d ω)) fuel s = .done s' := by
  have hsum := C85_mean env f ν p hE hnorm a hb s₀ s ops h0 h hst tol htol hin hfull hdt hf hp hpp ga gl gs gd hsch hgd rule κ hrule q hq P Z hZ hq1
  have hlim := ENNReal.tendsto_atTop_zero_of_tsum_ne_top hsum
  obtain ⟨hw, hbs⟩ := std_reach hE hb h0 h
  refine measure_mono_null (t := ⋂ k, {ω | optimize (withSamples env rule s.M s.N fun d => Z d ω) (cboInner (withSamples env rule s.M s.N fun d => Z d ω)) k s = .outOfFuel}) ?_ ?_
  · intro ω hω
    refine Set.mem_iInter.2 fun k => ?_
    have hω : ¬ ∃ fuel s', optimize (withSamples env rule s.M s.N fun d => Z d ω) (cboInner (withSamples env rule s.M s.N fun d => Z d ω)) fuel s = .done s' := hω
    show optimize _ _ k s = .outOfFuel
    have hE' := withSamples_std hE rule s.M s.N fun d => Z d ω
    have hnr := optimize_total (env := withSamples env rule s.M s.N fun d => Z d ω)
      ⟨hE'.corr, ⟨_, hE'.cons⟩, hE'.noise.ok, fun s => ⟨_, hE'.post s, rfl, rfl⟩, fun s => ⟨_, hsch s⟩⟩ hE'.perm k s hw hsi (fun tm htm => (hst tm htm).stateless) (fun _ => by omega)
    cases ho : optimize (withSamples env rule s.M s.N fun d => Z d ω) (cboInner (withSamples env rule s.M s.N fun d => Z d ω)) k s with
    | done s' => exact absurd ⟨k, s', ho⟩ hω
    | raised e => exact absurd ho (hnr e)
    | outOfFuel => rfl
  · refine le_antisymm (ge_of_tendsto' hlim fun k => measure_mono (Set.iInter_subset _ k)) bot_le

end

/-- C85: two runs of four particles on the plane with clipping at 100, batches of two particles, `lamda = 1`, `dt = 1/10`, `sigma = 1/2`, `diff_tol = 1/1000` as the only criterion and a scheduler that
doubles `alpha`: `optimize` stops almost surely; here `q = 0.96`. -/
example : let env : Env ℝ (Fin 2 → ℝ) := { Example.realEnv (rowNoise isoRule Example.smp) with normDiff := frobenius }
    let a : Args ℝ (Fin 2 → ℝ) := { Example.realArgs (fun m n => ![n, m]) (1 / 2) (some 2) with terms := [.diffTol (.fin (1 / 1000))], batchPartial := false }
    ∃ s₀, init env a = .ok s₀ ∧ s₀.batched = true ∧
      ∃ P : Measure (ℕ → Fin s₀.M × Fin s₀.N × Fin 2 → ℝ), IsProbabilityMeasure P ∧
        ∀ᵐ ω ∂P, ∃ fuel s', optimize (withSamples env isoRule s₀.M s₀.N ω) (cboInner (withSamples env isoRule s₀.M s₀.N ω)) fuel s₀ = .done s' := by
  intro env a
  obtain ⟨s₀, h0, -⟩ := init_total env (a := a) (by show 1 ≤ 4; norm_num)
  have e0 : s₀.batched = true ∧ s₀.batchPartial = false ∧ s₀.saveInt = 2 ∧ s₀.lamda = 1 ∧ s₀.dt = 1 / 10 ∧ s₀.sigma = 1 / 2 ∧ s₀.N = 4 ∧ s₀.terms = [.diffTol (.fin (1 / 1000))] := by
    have h0' := h0
    unfold init at h0'
    rw [if_neg (by simp [a, Example.realArgs])] at h0'
    injection h0' with h0'
    rw [← h0']
    exact ⟨rfl, rfl, rfl, rfl, rfl, rfl, rfl, rfl⟩
  obtain ⟨b1, b2, b3, b4, b5, b6, b7, b8⟩ := e0
  obtain ⟨P, hP, hZ⟩ := iidNormal_exists (Fin s₀.M × Fin s₀.N × Fin 2)
  refine ⟨s₀, h0, b1, P, hP, ?_⟩
  have hE : Standard env (fun v => v 0 ^ 2 + v 1 ^ 2) (fun c dt i j d => Real.sqrt dt • isoRule d (Example.smp c i j)) (clipVec 100) := by
    have h := Example.realEnv_standard isoRule
    exact ⟨h.corr, h.cons, h.noise, h.post, h.perm, h.f⟩
  have hm : Measurable fun v : Fin 2 → ℝ => v 0 ^ 2 + v 1 ^ 2 := ((measurable_pi_apply 0).pow_const 2).add ((measurable_pi_apply 1).pow_const 2)
  refine C85_stops env _ _ _ hE rfl a (by simp [a, Example.realArgs]) s₀ s₀ [] h0 rfl (by rw [b8]; simp [BuiltIn]) (1 / 1000) (by norm_num)
    (by rw [b8]; simp) (Or.inr b2) (by rw [b5]; norm_num) hm (clip_shrinks 100) (fun v => ?_) (fun x => min (2 * x) 1000) id id id (fun s => rfl) (fun x hx => hx) isoRule 2
    (Or.inl ⟨rfl, by simp⟩) (96 / 100) (fun j => ?_) P _ hZ (by norm_num) (by rw [b3]; norm_num)
  · funext l
    simp only [clipVec]
    have h1 : -(100 : ℝ) ≤ min (max (v l) (-100)) 100 := le_min (le_max_right _ _) (by norm_num)
    rw [max_eq_left h1, min_eq_left (min_le_right _ _)]
  · simp only [Function.iterate_id, id]
    rw [b4, b5, b6, b7]
    norm_num

end Verif
