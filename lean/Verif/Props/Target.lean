import Verif.Proofs.Target
import Verif.Proofs.NeverRaises
import Verif.Props.AlmostSure

/-! Property C120: with constant noise `optimize` with the criterion `energy_tol` stops almost surely, whatever the objective looks like, as soon as it takes a value below the tolerance. -/

set_option linter.unusedSectionVars false

namespace Verif

open MeasureTheory ProbabilityTheory Filter
open scoped ENNReal Topology

section
variable {ι : Type} [Fintype ι] [DecidableEq ι]
  (env : Env ℝ (ι → ℝ)) (f : (ι → ℝ) → ℝ) (ν : ℕ → ℝ → ℕ → ℕ → (ι → ℝ) → ι → ℝ) (p : (ι → ℝ) → ι → ℝ) (hE : Standard env f ν p) (hnorm : env.normDiff = frobenius)
  (a : Args ℝ (ι → ℝ)) (hb : a.batchSize ≠ some 0) (s₀ s : St ℝ (ι → ℝ)) (ops : List Op) (h0 : init env a = .ok s₀)
  (h : execAll env (cboInner env) ops s₀ = .ok s) (hst : ∀ tm ∈ s.terms, BuiltIn tm) (tol : ℝ) (hin : .energyTol (.fin tol) ∈ s.terms)
  (hfull : s.batched = false ∨ s.batchPartial = false) (hdt : 0 < s.dt) (hsig : s.sigma ≠ 0) (hf : Measurable f) (hp : Shrinks p) (hpp : ∀ v, p (p v) = p v)
  (R : ℝ) (hR : ∀ v l, |p v l| ≤ R) (y : ι → ℝ) (hy : p y = y) (hfy : ContinuousAt f y) (htol : f y < tol)
  (ga gl gs gd : ℝ → ℝ) (hsch : SchedLocal env ga gl gs gd) (hgl : gl s.lamda = s.lamda) (hgs : gs s.sigma = s.sigma) (hgd : gd s.dt = s.dt) (hgd0 : ∀ x, 0 ≤ x → 0 ≤ gd x)
  {Ω : Type} [MeasurableSpace Ω] (P : Measure Ω) [IsProbabilityMeasure P] (Z : ℕ → Ω → Fin s.M × Fin s.N × ι → ℝ) (hZ : IidNormal P Z)

include hE hnorm hb h0 h hst hin hfull hdt hsig hf hp hpp hR hy hfy htol hsch hgl hgs hgd hgd0 hZ

/-- **C120, tail.** CBO with any number `M` of runs and constant noise (`sigma ≠ 0`, `dt > 0`), independent standard normal numbers, post processing into a bounded box, batches of any size in which all particles
move, stateless built-in criteria with `energy_tol = tol` among them, and a scheduler that leaves `lamda`, `sigma` and `dt` as they are (it may change `alpha`). Let the objective be below `tol` at a point of the
box at which it is continuous. From every reachable state there is a `q < 1` such that the probability that `optimize` is still running after `k + 3` checks is at most `M · 2^M · (k + 2)^M · q^k`. -/
theorem C120_tail : ∃ q : ℝ≥0∞, q < 1 ∧ ∀ k : ℕ,
    P {ω | optimize (withSamples env constRule s.M s.N fun d => Z d ω) (cboInner (withSamples env constRule s.M s.N fun d => Z d ω)) (k + 3) s = .outOfFuel} ≤
      ((s.M * (2 ^ s.M * (k + 2) ^ s.M) : ℕ) : ℝ≥0∞) * q ^ k := by
  obtain ⟨hw, hbs⟩ := std_reach hE hb h0 h
  have hno : NormOK env := ⟨fun l hl => by rw [hnorm]; exact frobenius_ok.1 l hl, fun l => by rw [hnorm]; exact frobenius_ok.2 l⟩
  rw [cboInner_eq] at h
  have hbf := (execAll_induct (cboMove_ok env) hE.post.ok hE.perm (P := fun s => BestFit s)
    (fun o s s' _ hb h => bestFit_exec hno (cboMove_ok env) hE.post.ok hb h) ops s₀ s (init_wf hE.perm h0) (bestFit_init h0) h).2
  have hbi : BestInv env s := bestInv_execAll (cboMove_ok env) hE.post.ok hE.perm (init_wf hE.perm h0) (bestInv_init h0) h fun m v _ => by rw [hE.f]; simp
  have hnum : EnergyNum s := by
    intro m hm n hn hnan
    rcases hbi.src m hm n hn with e | ⟨v, -, e⟩
    · rw [hnan] at e; cases e
    · rw [hnan, hE.f] at e; cases e
  have hg : s.sigma * (Real.sqrt s.dt * 1) ≠ 0 := mul_ne_zero hsig (by rw [mul_one]; exact (Real.sqrt_pos.2 hdt).ne')
  obtain ⟨q, hq1, hq⟩ := target_q hp hy hfy htol (R := max R 0) (lamda := s.lamda) (le_max_right _ _) hg s.M s.N
  refine ⟨q, hq1, fun k => ?_⟩
  have hsub : {ω | optimize (withSamples env constRule s.M s.N fun d => Z d ω) (cboInner (withSamples env constRule s.M s.N fun d => Z d ω)) (k + 3) s = .outOfFuel} ⊆
      ⋃ w : Fin s.M × Finset (Fin s.M) × (Fin s.M → Fin (k + 1 + 1)), {ω | History env constRule s (k + 1) (fun d => Z d ω) w.1 w.2.1 w.2.2} := by
    intro ω h
    obtain ⟨m, F, T, h⟩ := history_of hE hnorm hst hw hbf hsch hgd0 hdt.le hpp (k + 1) (fun d => Z d ω) h
    exact Set.mem_iUnion.2 ⟨(m, F, T), h⟩
  refine (measure_mono hsub).trans ((measure_iUnion_fintype_le _ _).trans ?_)
  refine (Finset.sum_le_sum fun w _ => target_history hE hnorm hst hw hbf hsch hbs hfull hgl hgs hgd hnum hp hf (fun v l => (hR v l).trans (le_max_left R 0)) hin hq P hZ k w.1 w.2.1 w.2.2).trans (le_of_eq ?_)
  simp only [Finset.sum_const, Finset.card_univ, Fintype.card_prod, Fintype.card_finset, Fintype.card_fun, Fintype.card_fin, nsmul_eq_mul]

/-- **C120, mean.** The number of checks that `optimize` makes has a finite mean: the probabilities that it is still running after `k` checks are summable. -/
theorem C120_mean :
    ∑' k, P {ω | optimize (withSamples env constRule s.M s.N fun d => Z d ω) (cboInner (withSamples env constRule s.M s.N fun d => Z d ω)) k s = .outOfFuel} ≠ ⊤ := by
  obtain ⟨q, hq1, ht⟩ := C120_tail env f ν p hE hnorm a hb s₀ s ops h0 h hst tol hin hfull hdt hsig hf hp hpp R hR y hy hfy htol ga gl gs gd hsch hgl hgs hgd hgd0 P Z hZ
  set u : ℕ → ℝ≥0∞ := fun k => P {ω | optimize (withSamples env constRule s.M s.N fun d => Z d ω) (cboInner (withSamples env constRule s.M s.N fun d => Z d ω)) k s = .outOfFuel} with hu
  -- a larger ratio that is positive
  obtain ⟨r, hqr, hr1⟩ := ENNReal.lt_iff_exists_real_btwn.1 hq1
  obtain ⟨hr, hr1⟩ := hr1
  have hr0 : 0 < r := by
    by_contra hn
    rw [ENNReal.ofReal_of_nonpos (not_lt.1 hn)] at hr
    exact absurd hr (not_lt.2 bot_le)
  have hr1 : r < 1 := by
    by_contra hn
    exact absurd hr1 (not_lt.2 (by rw [← ENNReal.ofReal_one]; exact ENNReal.ofReal_le_ofReal (not_lt.1 hn)))
  set A : ℝ := s.M * 2 ^ s.M with hA
  have hub : ∀ k, u (k + 3) ≤ ENNReal.ofReal (A * (((k + 2 : ℕ) : ℝ) ^ s.M * r ^ k)) := by
    intro k
    refine (ht k).trans ((mul_le_mul_right (pow_le_pow_left' hr.le k) _).trans (le_of_eq ?_))
    rw [← ENNReal.ofReal_pow hr0.le, ← ENNReal.ofReal_natCast, ← ENNReal.ofReal_mul (by positivity), hA]
    congr 1
    push_cast
    ring
  have hsum : Summable fun k : ℕ => A * (((k + 2 : ℕ) : ℝ) ^ s.M * r ^ k) := by
    refine Summable.mul_left _ ?_
    have h1 : Summable fun n : ℕ => (n : ℝ) ^ s.M * r ^ n := summable_pow_mul_geometric_of_norm_lt_one s.M (by rw [Real.norm_of_nonneg hr0.le]; exact hr1)
    have h2 := ((summable_nat_add_iff 2).2 h1).mul_left (r ^ 2)⁻¹
    refine h2.congr fun k => ?_
    rw [pow_add]
    field_simp
  have hfin : ∑' k, u (k + 3) ≠ ⊤ := by
    refine ne_top_of_le_ne_top ?_ (ENNReal.tsum_le_tsum hub)
    rw [← ENNReal.ofReal_tsum_of_nonneg (fun k => by positivity) hsum]
    exact ENNReal.ofReal_ne_top
  have hsplit : ∑' k, u k = u 0 + (u 1 + (u 2 + ∑' k, u (k + 3))) := by
    rw [tsum_eq_zero_add' ENNReal.summable, tsum_eq_zero_add' ENNReal.summable, tsum_eq_zero_add' ENNReal.summable]
  rw [hsplit]
  have hu1 : ∀ k, u k ≠ ⊤ := fun k => measure_ne_top _ _
  exact ENNReal.add_ne_top.2 ⟨hu1 0, ENNReal.add_ne_top.2 ⟨hu1 1, ENNReal.add_ne_top.2 ⟨hu1 2, hfin⟩⟩⟩

/-- **C120.** Almost surely `optimize` returns (with `save_int ≠ 0`): it neither raises nor runs for ever, without `max_it`, `max_eval` or `max_time` being set. -/
theorem C120_stops (hsi : s.saveInt ≠ 0) :
    ∀ᵐ ω ∂P, ∃ fuel s', optimize (withSamples env constRule s.M s.N fun d => Z d ω) (cboInner (withSamples env constRule s.M s.N fun d => Z d ω)) fuel s = .done s' := by
  have hsum := C120_mean env f ν p hE hnorm a hb s₀ s ops h0 h hst tol hin hfull hdt hsig hf hp hpp R hR y hy hfy htol ga gl gs gd hsch hgl hgs hgd hgd0 P Z hZ
  have hlim := ENNReal.tendsto_atTop_zero_of_tsum_ne_top hsum
  obtain ⟨hw, hbs⟩ := std_reach hE hb h0 h
  refine measure_mono_null (t := ⋂ k, {ω | optimize (withSamples env constRule s.M s.N fun d => Z d ω) (cboInner (withSamples env constRule s.M s.N fun d => Z d ω)) k s = .outOfFuel}) ?_ ?_
  · intro ω hω
    refine Set.mem_iInter.2 fun k => ?_
    have hω : ¬ ∃ fuel s', optimize (withSamples env constRule s.M s.N fun d => Z d ω) (cboInner (withSamples env constRule s.M s.N fun d => Z d ω)) fuel s = .done s' := hω
    show optimize _ _ k s = .outOfFuel
    have hE' := withSamples_std hE constRule s.M s.N fun d => Z d ω
    have hnr := optimize_total (env := withSamples env constRule s.M s.N fun d => Z d ω)
      ⟨hE'.corr, ⟨_, hE'.cons⟩, hE'.noise.ok, fun s => ⟨_, hE'.post s, rfl, rfl⟩, fun s => ⟨_, hsch s⟩⟩ hE'.perm k s hw hsi (fun tm htm => (hst tm htm).stateless) (fun _ => by omega)
    cases ho : optimize (withSamples env constRule s.M s.N fun d => Z d ω) (cboInner (withSamples env constRule s.M s.N fun d => Z d ω)) k s with
    | done s' => exact absurd ⟨k, s', ho⟩ hω
    | raised e => exact absurd ho (hnr e)
    | outOfFuel => rfl
  · refine le_antisymm (ge_of_tendsto' hlim fun k => measure_mono (Set.iInter_subset _ k)) bot_le

/-- **C120, result.** If `energy_tol` is the only criterion, then almost surely `optimize` returns with `best_energy` of every run a number below the tolerance, and it is the value of the objective at `best_particle`. -/
theorem C120_result (hsi : s.saveInt ≠ 0) (honly : s.terms = [.energyTol (.fin tol)]) :
    ∀ᵐ ω ∂P, ∃ fuel s', optimize (withSamples env constRule s.M s.N fun d => Z d ω) (cboInner (withSamples env constRule s.M s.N fun d => Z d ω)) fuel s = .done s' ∧
      ∀ m < s.M, s'.bestE m = .fin (f (s'.bestP m)) ∧ f (s'.bestP m) < tol := by
  filter_upwards [C120_stops env f ν p hE hnorm a hb s₀ s ops h0 h hst tol hin hfull hdt hsig hf hp hpp R hR y hy hfy htol ga gl gs gd hsch hgl hgs hgd hgd0 P Z hZ hsi] with ω hω
  obtain ⟨fuel, s', ho⟩ := hω
  refine ⟨fuel, s', ho, ?_⟩
  obtain ⟨hw, -⟩ := std_reach hE hb h0 h
  have hno : NormOK env := ⟨fun l hl => by rw [hnorm]; exact frobenius_ok.1 l hl, fun l => by rw [hnorm]; exact frobenius_ok.2 l⟩
  rw [cboInner_eq] at h
  have hbf := (execAll_induct (cboMove_ok env) hE.post.ok hE.perm (P := fun s => BestFit s)
    (fun o s s' _ hb h => bestFit_exec hno (cboMove_ok env) hE.post.ok hb h) ops s₀ s (init_wf hE.perm h0) (bestFit_init h0) h).2
  have hbi : BestInv env s := bestInv_execAll (cboMove_ok env) hE.post.ok hE.perm (init_wf hE.perm h0) (bestInv_init h0) h fun m v _ => by rw [hE.f]; simp
  have hE' := withSamples_std hE constRule s.M s.N fun d => Z d ω
  have hno' := normOK_samples (rule := constRule) hE hnorm hst hw hbf hsch fun d => Z d ω
  have hbi' : BestInv (withSamples env constRule s.M s.N fun d => Z d ω) s := ⟨hbi.src, hbi.best, hbi.least⟩
  obtain ⟨hna, q, hsel, k, hq⟩ := optimize_done ho
  rw [cboInner_eq] at hq
  have hkeep : ∀ o (u u' : St ℝ (ι → ℝ)), u.M = s.M ∧ u.terms = s.terms → exec (withSamples env constRule s.M s.N fun d => Z d ω) (consThen (withSamples env constRule s.M s.N fun d => Z d ω) (cboMove (withSamples env constRule s.M s.N fun d => Z d ω))) o u = .ok u' →
      u'.M = s.M ∧ u'.terms = s.terms := by
    rintro o u u' ⟨k1, k2⟩ hx
    cases o with
    | step =>
      have fr := step_frame (consThen_frame (cboMove_ok _)) hx
      exact ⟨fr.M.trans k1, fr.terms.trans k2⟩
    | select =>
      obtain ⟨r, e1, e2, -⟩ := select_stateless (env := withSamples env constRule s.M s.N fun d => Z d ω) (s := u) (fun tm htm => (hst tm (k2 ▸ htm)).stateless)
      rw [show exec _ _ .select u = selectActive _ u from rfl, e1] at hx
      injection hx with hx
      subst hx
      exact ⟨by rw [e2]; exact k1, by rw [e2]; exact k2⟩
    | sched =>
      have fr := sched_frame hx
      exact ⟨by rw [fr]; exact k1, by rw [fr]; exact k2⟩
    | reset =>
      have hx : Except.ok (reset u) = Except.ok u' := hx
      injection hx with hx
      subst hx
      exact ⟨k1, k2⟩
  obtain ⟨-, bf, eM, eT⟩ := execAll_induct (cboMove_ok _) hE'.post.ok hE'.perm (P := fun q => BestFit q ∧ q.M = s.M ∧ q.terms = s.terms)
    (fun o u u' hw hb h => ⟨bestFit_exec hno' (cboMove_ok _) hE'.post.ok hb.1 h, hkeep o u u' hb.2 h⟩) _ s q hw ⟨hbf, rfl, rfl⟩ hq
  have bi := bestInv_execAll (cboMove_ok _) hE'.post.ok hE'.perm hw hbi' hq fun m v _ => by rw [hE'.f]; simp
  obtain ⟨r, e1, e2, e3, -⟩ := select_stateless (env := withSamples env constRule s.M s.N fun d => Z d ω) (s := q) (fun tm htm => (hst tm (eT ▸ htm)).stateless)
  rw [hsel] at e1
  injection e1 with e1
  subst e1
  intro m hm
  have hfire : Flt.lt (q.fMin m) (.fin tol) = true := by
    by_contra hn
    have : m ∈ s'.active := (e3 m).2 ⟨by rw [eM]; exact hm, fun tm htm => by
      rw [eT, honly, List.mem_singleton] at htm
      subst htm
      exact hn⟩
    rw [List.length_eq_zero_iff.1 hna] at this
    exact absurd this (List.not_mem_nil)
  have eE : s'.bestE = q.bestE := by rw [e2]
  have eP : s'.bestP = q.bestP := by rw [e2]
  rw [eE, eP]
  have h1 := bf.best m (by rw [eM]; exact hm)
  rw [bf.fMin m (by rw [eM]; exact hm), Flt.rowMin_eq] at hfire
  rcases bi.best m (by rw [eM]; exact hm) with hb1 | ⟨-, hb1⟩
  · rw [hb1] at h1
    revert h1 hfire
    cases q.energy.get m (Flt.rowArgmin q.energy.cols (q.energy.get m)) <;> simp [Flt.lt, Flt.gt]
  · rw [hE'.f] at hb1
    refine ⟨hb1.symm, ?_⟩
    rw [← hb1] at h1
    revert h1 hfire
    cases q.energy.get m (Flt.rowArgmin q.energy.cols (q.energy.get m)) with
    | fin e =>
      simp only [Flt.lt, Flt.gt, decide_eq_true_eq, decide_eq_false_iff_not, not_lt]
      intro h1 h2
      exact h2.trans_lt h1
    | _ => simp [Flt.lt, Flt.gt]

end

/-- C120: two runs of four particles on the plane with clipping at 100, batches of two particles, `lamda = 1`, `dt = 1/10`, `sigma = 1/2`, the objective `|v|²`, `energy_tol = 1/1000` as the only criterion and a
scheduler that doubles `alpha`: almost surely `optimize` returns and both runs have found a value below `1/1000`. -/
example : let env : Env ℝ (Fin 2 → ℝ) := { Example.realEnv (rowNoise constRule Example.smp) with normDiff := frobenius }
    let a : Args ℝ (Fin 2 → ℝ) := { Example.realArgs (fun m n => ![n + 1, m]) (1 / 2) (some 2) with terms := [.energyTol (.fin (1 / 1000))], batchPartial := false }
    ∃ s₀, init env a = .ok s₀ ∧ s₀.batched = true ∧ s₀.M = 2 ∧
      ∃ P : Measure (ℕ → Fin s₀.M × Fin s₀.N × Fin 2 → ℝ), IsProbabilityMeasure P ∧
        ∀ᵐ ω ∂P, ∃ fuel s', optimize (withSamples env constRule s₀.M s₀.N ω) (cboInner (withSamples env constRule s₀.M s₀.N ω)) fuel s₀ = .done s' ∧
          ∀ m < s₀.M, s'.bestE m = .fin (s'.bestP m 0 ^ 2 + s'.bestP m 1 ^ 2) ∧ s'.bestP m 0 ^ 2 + s'.bestP m 1 ^ 2 < 1 / 1000 := by
  intro env a
  obtain ⟨s₀, h0, -⟩ := init_total env (a := a) (by show 1 ≤ 4; norm_num)
  have e0 : s₀.batched = true ∧ s₀.batchPartial = false ∧ s₀.saveInt = 2 ∧ s₀.M = 2 ∧ s₀.dt = 1 / 10 ∧ s₀.sigma = 1 / 2 ∧ s₀.terms = [.energyTol (.fin (1 / 1000))] := by
    have h0' := h0
    unfold init at h0'
    rw [if_neg (by simp [a, Example.realArgs])] at h0'
    injection h0' with h0'
    rw [← h0']
    exact ⟨rfl, rfl, rfl, rfl, rfl, rfl, rfl⟩
  obtain ⟨b1, b2, b3, b4, b5, b6, b8⟩ := e0
  obtain ⟨P, hP, hZ⟩ := iidNormal_exists (Fin s₀.M × Fin s₀.N × Fin 2)
  refine ⟨s₀, h0, b1, b4, P, hP, ?_⟩
  have hE : Standard env (fun v => v 0 ^ 2 + v 1 ^ 2) (fun c dt i j d => Real.sqrt dt • constRule d (Example.smp c i j)) (clipVec 100) := by
    have h := Example.realEnv_standard constRule
    exact ⟨h.corr, h.cons, h.noise, h.post, h.perm, h.f⟩
  have hc : Continuous fun v : Fin 2 → ℝ => v 0 ^ 2 + v 1 ^ 2 := by fun_prop
  refine C120_result env _ _ _ hE rfl a (by simp [a, Example.realArgs]) s₀ s₀ [] h0 rfl (by rw [b8]; simp [BuiltIn]) (1 / 1000)
    (by rw [b8]; simp) (Or.inr b2) (by rw [b5]; norm_num) (by rw [b6]; norm_num) hc.measurable (clip_shrinks 100) (fun v => ?_) 100 (fun v l => ?_) 0 ?_ hc.continuousAt (by norm_num)
    (fun x => min (2 * x) 1000) id id id (fun s => rfl) rfl rfl rfl (fun x hx => hx) P _ hZ (by rw [b3]; norm_num) b8
  · funext l
    simp only [clipVec]
    have h1 : -(100 : ℝ) ≤ min (max (v l) (-100)) 100 := le_min (le_max_right _ _) (by norm_num)
    rw [max_eq_left h1, min_eq_left (min_le_right _ _)]
  · rw [abs_le]
    simp only [clipVec]
    constructor
    · simp
    · simp
  · funext l
    simp [clipVec]

end Verif
