import Verif.Proofs.Descent
import Mathlib.Analysis.SpecialFunctions.Exp

/-! Helper lemmas for C108: errors in the objective values. -/

set_option linter.unusedSectionVars false

namespace Verif

section
variable {V : Type} [NormedAddCommGroup V] [NormedSpace ℝ V]

theorem gibbs_fin (a : ℝ) {A : Type} (l : List A) (e : A → ℝ) (x : A → V) :
    gibbs a (l.map fun q => (e q, x q)) = ∑ i : Fin l.length, (Real.exp (-(a * e l[i])) / ∑ j : Fin l.length, Real.exp (-(a * e l[j]))) • x l[i] := by
  unfold gibbs
  rw [List.map_map, List.map_map, ← Fin.sum_univ_fun_getElem, ← Fin.sum_univ_fun_getElem, Finset.smul_sum]
  refine Finset.sum_congr rfl fun i _ => ?_
  simp only [Function.comp_apply, smul_smul]
  congr 1
  rw [inv_mul_eq_div]
  rfl

/-- Two probability vectors `p`, `r` with `r ≥ q p`: the weighted means of `x` differ by at most `(1-q)` times the diameter. -/
theorem mean_shift {n : ℕ} (p r : Fin n → ℝ) (x : Fin n → V) {q D : ℝ} (hp : ∀ i, 0 ≤ p i) (hp1 : ∑ i, p i = 1) (hr1 : ∑ i, r i = 1)
    (hq : ∀ i, q * p i ≤ r i) (hD : ∀ i j, ‖x i - x j‖ ≤ D) : ‖∑ i, p i • x i - ∑ i, r i • x i‖ ≤ (1 - q) * D := by
  have hs : ∑ i, (r i - q * p i) = 1 - q := by rw [Finset.sum_sub_distrib, ← Finset.mul_sum, hp1, hr1, mul_one]
  have e : ∑ i, p i • x i - ∑ i, r i • x i = ∑ i, ∑ j, ((r i - q * p i) * p j) • (x j - x i) := by
    have h1 : ∀ i, ∑ j, ((r i - q * p i) * p j) • (x j - x i) = (r i - q * p i) • ∑ j, p j • x j - (r i - q * p i) • x i := fun i => by
      simp only [mul_smul, smul_sub]
      rw [Finset.sum_sub_distrib, ← Finset.smul_sum, ← Finset.smul_sum, ← Finset.sum_smul, hp1, one_smul]
    rw [Finset.sum_congr rfl fun i _ => h1 i, Finset.sum_sub_distrib, ← Finset.sum_smul, hs]
    simp only [sub_smul, one_smul, mul_smul, Finset.sum_sub_distrib, ← Finset.smul_sum]
    abel
  rw [e]
  calc ‖∑ i, ∑ j, ((r i - q * p i) * p j) • (x j - x i)‖ ≤ ∑ i, ∑ j, ((r i - q * p i) * p j) * D := by
        refine (norm_sum_le _ _).trans (Finset.sum_le_sum fun i _ => (norm_sum_le _ _).trans (Finset.sum_le_sum fun j _ => ?_))
        have h0 : 0 ≤ (r i - q * p i) * p j := mul_nonneg (by linarith [hq i]) (hp j)
        rw [norm_smul, Real.norm_of_nonneg h0]
        exact mul_le_mul_of_nonneg_left (hD j i) h0
    _ = (1 - q) * D := by
        rw [← hs, Finset.sum_mul]
        refine Finset.sum_congr rfl fun i _ => ?_
        rw [← Finset.sum_mul, ← Finset.mul_sum, hp1, mul_one]

theorem gibbs_shift {A : Type} (l : List A) (hl : l ≠ []) (e e' : A → ℝ) (x y : A → V) {a η ε D : ℝ} (ha : 0 ≤ a)
    (he : ∀ q ∈ l, |e q - e' q| ≤ η) (hx : ∀ q ∈ l, ‖x q - y q‖ ≤ ε) (hD : ∀ q ∈ l, ∀ q' ∈ l, ‖x q - x q'‖ ≤ D) :
    ‖gibbs a (l.map fun q => (e q, x q)) - gibbs a (l.map fun q => (e' q, y q))‖ ≤ ε + (1 - Real.exp (-(2 * a * η))) * D := by
  have hn : 0 < l.length := List.length_pos_iff.2 hl
  have : Nonempty (Fin l.length) := ⟨⟨0, hn⟩⟩
  have mem : ∀ i : Fin l.length, l[i] ∈ l := fun i => List.getElem_mem _
  rw [gibbs_fin, gibbs_fin]
  set w : Fin l.length → ℝ := fun i => Real.exp (-(a * e l[i])) with hw
  set w' : Fin l.length → ℝ := fun i => Real.exp (-(a * e' l[i])) with hw'
  have wpos : ∀ i, 0 < w i := fun i => Real.exp_pos _
  have wpos' : ∀ i, 0 < w' i := fun i => Real.exp_pos _
  have W : 0 < ∑ i, w i := Finset.sum_pos (fun i _ => wpos i) Finset.univ_nonempty
  have W' : 0 < ∑ i, w' i := Finset.sum_pos (fun i _ => wpos' i) Finset.univ_nonempty
  have b1 : ∀ i, Real.exp (-(a * η)) * w i ≤ w' i := fun i => by
    rw [← Real.exp_add]
    refine Real.exp_le_exp.2 ?_
    have := mul_le_mul_of_nonneg_left (abs_le.1 (he _ (mem i))).1 ha
    linarith
  have b2 : ∑ i, w' i ≤ Real.exp (a * η) * ∑ i, w i := by
    rw [Finset.mul_sum]
    refine Finset.sum_le_sum fun i _ => ?_
    rw [← Real.exp_add]
    refine Real.exp_le_exp.2 ?_
    have := mul_le_mul_of_nonneg_left (abs_le.1 (he _ (mem i))).2 ha
    linarith
  have hq : ∀ i, Real.exp (-(2 * a * η)) * (w i / ∑ j, w j) ≤ w' i / ∑ j, w' j := fun i => by
    rw [← mul_div_assoc, div_le_div_iff₀ W W']
    have e1 : Real.exp (-(2 * a * η)) = Real.exp (-(a * η)) * Real.exp (-(a * η)) := by rw [← Real.exp_add]; congr 1; ring
    have e2 : Real.exp (-(a * η)) * Real.exp (a * η) = 1 := by rw [← Real.exp_add]; simp
    have h0 : 0 < Real.exp (-(a * η)) := Real.exp_pos _
    calc Real.exp (-(2 * a * η)) * w i * ∑ j, w' j = (Real.exp (-(a * η)) * w i) * (Real.exp (-(a * η)) * ∑ j, w' j) := by rw [e1]; ring
      _ ≤ w' i * (Real.exp (-(a * η)) * (Real.exp (a * η) * ∑ j, w j)) :=
          mul_le_mul (b1 i) (mul_le_mul_of_nonneg_left b2 h0.le) (by positivity) (wpos' i).le
      _ = w' i * ∑ j, w j := by rw [← mul_assoc (Real.exp (-(a * η))), e2, one_mul]
  have s1 : ∑ i, w i / ∑ j, w j = 1 := by rw [← Finset.sum_div, div_self W.ne']
  have s2 : ∑ i, w' i / ∑ j, w' j = 1 := by rw [← Finset.sum_div, div_self W'.ne']
  have m1 := mean_shift (fun i => w i / ∑ j, w j) (fun i => w' i / ∑ j, w' j) (fun i => x l[i]) (fun i => (div_pos (wpos i) W).le) s1 s2 hq
    fun i j => hD _ (mem i) _ (mem j)
  have m2 : ‖∑ i, (w' i / ∑ j, w' j) • x l[i] - ∑ i, (w' i / ∑ j, w' j) • y l[i]‖ ≤ ε := by
    rw [← Finset.sum_sub_distrib]
    calc ‖∑ i, ((w' i / ∑ j, w' j) • x l[i] - (w' i / ∑ j, w' j) • y l[i])‖ ≤ ∑ i, (w' i / ∑ j, w' j) * ε := by
          refine (norm_sum_le _ _).trans (Finset.sum_le_sum fun i _ => ?_)
          have h0 := (div_pos (wpos' i) W').le
          rw [← smul_sub, norm_smul, Real.norm_of_nonneg h0]
          exact mul_le_mul_of_nonneg_left (hx _ (mem i)) h0
      _ = ε := by rw [← Finset.sum_mul, s2, one_mul]
  have := norm_add_le (∑ i, (w i / ∑ j, w j) • x l[i] - ∑ i, (w' i / ∑ j, w' j) • x l[i]) (∑ i, (w' i / ∑ j, w' j) • x l[i] - ∑ i, (w' i / ∑ j, w' j) • y l[i])
  rw [sub_add_sub_cancel] at this
  linarith

/-- One step of two dynamics without noise. -/
theorem stable_step {env env' : Env ℝ V} {f g : V → ℝ} {ν ν' : ℕ → ℝ → ℕ → ℕ → V → V} {p p' : V → V} (hE : Standard env f ν p) (hE' : Standard env' g ν' p')
    {s s' t t' : St ℝ V} (hw : WF s) (hwt : WF t) (hb : 1 ≤ s.batchSize) (hbt : 1 ≤ t.batchSize) (hn : NoiseFree s.sigma s.lamda s.dt)
    (hσ : t.sigma = s.sigma) (hl : t.lamda = s.lamda) (hdt : t.dt = s.dt) {m : ℕ} (hal : t.alpha m = s.alpha m) (ha : 0 ≤ s.alpha m) (hN : t.N = s.N)
    (hnb : s.batched = false) (hnbt : t.batched = false) (hm : m ∈ s.active) (hmt : m ∈ t.active) {S : Set V} (hS : Convex ℝ S) (hpS : ∀ v ∈ S, p v = v)
    (hpS' : ∀ v ∈ S, p' v = v) (hx : ∀ n < s.N, s.x.get m n ∈ S) (hy : ∀ n < s.N, t.x.get m n ∈ S) {L δ ε D : ℝ} (hL0 : 0 ≤ L)
    (hL : ∀ u ∈ S, ∀ v ∈ S, |f u - f v| ≤ L * ‖u - v‖) (hδ : ∀ u ∈ S, |f u - g u| ≤ δ) (hε : ∀ n < s.N, ‖s.x.get m n - t.x.get m n‖ ≤ ε)
    (hD : ∀ n < s.N, ∀ n' < s.N, ‖s.x.get m n - s.x.get m n'‖ ≤ D) (h : step env (cboInner env) s = .ok s') (h' : step env' (cboInner env') t = .ok t') :
    ∀ n < s.N, ‖s'.x.get m n - t'.x.get m n‖ ≤ ε + s.lamda * s.dt * (2 * s.alpha m * (δ + L * ε) * D) := by
  have fr := step_frame (by rw [cboInner_eq]; exact consThen_frame (cboMove_ok env)) h
  have fr' := step_frame (by rw [cboInner_eq]; exact consThen_frame (cboMove_ok env')) h'
  obtain ⟨i, c, r, -, hmv⟩ := free_step hE hw hb hn hS hpS hm hx (Or.inl hnb) h
  obtain ⟨i', c', r', -, hmv'⟩ := free_step hE' hwt hbt (by rw [hσ, hl, hdt]; exact hn) hS hpS' hmt (by rw [hN]; exact hy) (Or.inl hnbt) h'
  have hc : ‖c - c'‖ ≤ ε + (1 - Real.exp (-(2 * s.alpha m * (δ + L * ε)))) * D := by
    rw [r.pairs, r'.pairs, batchPairs_full (env := env) hw hnb fr.cIdx r.pos r.act, batchPairs_full (env := env') hwt hnbt fr'.cIdx r'.pos r'.act, hal, hN,
      List.map_map, List.map_map]
    refine gibbs_shift (List.range s.N) (fun h0 => ?_) (fun n => f (s.x.get m n)) (fun n => g (t.x.get m n)) (fun n => s.x.get m n) (fun n => t.x.get m n) ha
      (fun n hn' => ?_) (fun n hn' => hε n (List.mem_range.1 hn')) (fun n hn' k hk => hD n (List.mem_range.1 hn') k (List.mem_range.1 hk))
    · rw [List.range_eq_nil] at h0
      have := hw.pos
      omega
    · have hn' := List.mem_range.1 hn'
      have h1 := hL _ (hx n hn') _ (hy n hn')
      have h2 := hδ _ (hy n hn')
      have h3 := mul_le_mul_of_nonneg_left (hε n hn') hL0
      have := abs_add_le (f (s.x.get m n) - f (t.x.get m n)) (f (t.x.get m n) - g (t.x.get m n))
      rw [sub_add_sub_cancel] at this
      linarith
  intro n hn'
  rw [hmv n hn', hmv' n (by rw [hN]; exact hn'), hl, hdt]
  have e : (1 - s.lamda * s.dt) • s.x.get m n + (s.lamda * s.dt) • c - ((1 - s.lamda * s.dt) • t.x.get m n + (s.lamda * s.dt) • c') =
      (1 - s.lamda * s.dt) • (s.x.get m n - t.x.get m n) + (s.lamda * s.dt) • (c - c') := by module
  have h0 : 0 ≤ 1 - s.lamda * s.dt := by linarith [hn.2.2]
  have hD0 : 0 ≤ D := (norm_nonneg _).trans (hD n hn' n hn')
  have h1 := norm_add_le ((1 - s.lamda * s.dt) • (s.x.get m n - t.x.get m n)) ((s.lamda * s.dt) • (c - c'))
  rw [norm_smul, norm_smul, Real.norm_of_nonneg h0, Real.norm_of_nonneg hn.2.1] at h1
  have h2 := mul_le_mul_of_nonneg_left (hε n hn') h0
  have h3 := mul_le_mul_of_nonneg_left hc hn.2.1
  have h4 : 1 - Real.exp (-(2 * s.alpha m * (δ + L * ε))) ≤ 2 * s.alpha m * (δ + L * ε) := by
    have := Real.add_one_le_exp (-(2 * s.alpha m * (δ + L * ε)))
    linarith
  have h5 := mul_le_mul_of_nonneg_left (mul_le_mul_of_nonneg_right h4 hD0) hn.2.1
  rw [e]
  nlinarith

/-- Several steps of two dynamics without noise. -/
theorem stable_steps {env env' : Env ℝ V} {f g : V → ℝ} {ν ν' : ℕ → ℝ → ℕ → ℕ → V → V} {p p' : V → V} (hE : Standard env f ν p) (hE' : Standard env' g ν' p')
    {m : ℕ} {S : Set V} (hS : Convex ℝ S) (hpS : ∀ v ∈ S, p v = v) (hpS' : ∀ v ∈ S, p' v = v) {L δ : ℝ} (hL0 : 0 ≤ L) (hδ0 : 0 ≤ δ)
    (hL : ∀ u ∈ S, ∀ v ∈ S, |f u - f v| ≤ L * ‖u - v‖) (hδ : ∀ u ∈ S, |f u - g u| ≤ δ) (k : ℕ) :
    ∀ {s s' t t' : St ℝ V} {ε D : ℝ}, WF s → WF t → 1 ≤ s.batchSize → 1 ≤ t.batchSize → NoiseFree s.sigma s.lamda s.dt → t.sigma = s.sigma →
    t.lamda = s.lamda → t.dt = s.dt → t.alpha m = s.alpha m → 0 ≤ s.alpha m → t.N = s.N → s.batched = false → t.batched = false → m ∈ s.active → m ∈ t.active →
    (∀ n < s.N, s.x.get m n ∈ S) → (∀ n < s.N, t.x.get m n ∈ S) → (∀ n < s.N, ‖s.x.get m n - t.x.get m n‖ ≤ ε) →
    (∀ n < s.N, ∀ n' < s.N, ‖s.x.get m n - s.x.get m n'‖ ≤ D) →
    execAll env (cboInner env) (List.replicate k .step) s = .ok s' → execAll env' (cboInner env') (List.replicate k .step) t = .ok t' →
    ∀ n < s.N, ‖s'.x.get m n - t'.x.get m n‖ ≤
      Real.exp (2 * s.alpha m * L * D * (1 - (1 - s.lamda * s.dt) ^ k)) * (ε + 2 * s.alpha m * D * δ * (1 - (1 - s.lamda * s.dt) ^ k)) := by
  induction k with
  | zero =>
    intro s s' t t' ε D _ _ _ _ _ _ _ _ _ _ _ _ _ _ _ _ _ hε _ h h' n hn
    simp only [List.replicate_zero, execAll] at h h'
    injection h with h
    injection h' with h'
    subst h h'
    simpa using hε n hn
  | succ k ih =>
    intro s s' t t' ε D hw hwt hb hbt hn hσ hl hdt hal ha hN hnb hnbt hm hmt hx hy hε hD h h' n hn'
    simp only [List.replicate_succ, execAll, bind_ok] at h h'
    obtain ⟨q, hq, hl1⟩ := h
    obtain ⟨q', hq', hl1'⟩ := h'
    have fr := step_frame (by rw [cboInner_eq]; exact consThen_frame (cboMove_ok env)) hq
    have fr' := step_frame (by rw [cboInner_eq]; exact consThen_frame (cboMove_ok env')) hq'
    have hnt : NoiseFree t.sigma t.lamda t.dt := by rw [hσ, hl, hdt]; exact hn
    have hε1 := stable_step hE hE' hw hwt hb hbt hn hσ hl hdt hal ha hN hnb hnbt hm hmt hS hpS hpS' hx hy hL0 hL hδ hε hD hq hq'
    have hD1 : ∀ i < s.N, ∀ j < s.N, ‖q.x.get m i - q.x.get m j‖ ≤ (1 - s.lamda * s.dt) * D := fun i hi j hj => by
      have h0 : 0 ≤ 1 - s.lamda * s.dt := by linarith [hn.2.2]
      rw [contract_step hE hw hb hn hS hpS hm hx (Or.inl hnb) hq i hi j hj, norm_smul, Real.norm_of_nonneg h0]
      exact mul_le_mul_of_nonneg_left (hD i hi j hj) h0
    have hy' : ∀ n < t.N, t.x.get m n ∈ S := by rw [hN]; exact hy
    have := ih (step_wf (cboMove_ok env) hE.post.ok hE.perm hw (by rw [← cboInner_eq]; exact hq))
      (step_wf (cboMove_ok env') hE'.post.ok hE'.perm hwt (by rw [← cboInner_eq]; exact hq')) (by rw [fr.batchSize]; exact hb) (by rw [fr'.batchSize]; exact hbt)
      (by rw [fr.sigma, fr.lamda, fr.dt]; exact hn) (by rw [fr.sigma, fr'.sigma, hσ]) (by rw [fr.lamda, fr'.lamda, hl]) (by rw [fr.dt, fr'.dt, hdt])
      (by rw [fr.alpha, fr'.alpha, hal]) (by rw [fr.alpha]; exact ha) (by rw [fr.N, fr'.N, hN]) (by rw [fr.batched]; exact hnb) (by rw [fr'.batched]; exact hnbt)
      (by rw [fr.active]; exact hm) (by rw [fr'.active]; exact hmt)
      (by rw [fr.N]; exact hull_step hE hw hb hn hS (fun v hv => by rw [hpS v hv]; exact hv) hx hq)
      (by rw [fr.N, ← hN]; exact hull_step hE' hwt hbt hnt hS (fun v hv => by rw [hpS' v hv]; exact hv) hy' hq')
      (by rw [fr.N]; exact hε1) (by rw [fr.N]; exact hD1) hl1 hl1' n (by rw [fr.N]; exact hn')
    rw [fr.alpha, fr.lamda, fr.dt] at this
    refine this.trans ?_
    have hε0 : 0 ≤ ε := (norm_nonneg _).trans (hε n hn')
    have hD0 : 0 ≤ D := (norm_nonneg _).trans (hD n hn' n hn')
    have r0 : 0 ≤ s.lamda * s.dt := hn.2.1
    have r1 : s.lamda * s.dt ≤ 1 := hn.2.2
    generalize s.lamda * s.dt = ρ at *
    generalize s.alpha m = α at *
    clear this hε1 hD1
    have h0 : 0 ≤ 1 - ρ := by linarith
    have hA : 0 ≤ 1 - (1 - ρ) ^ k := by linarith [pow_le_one₀ h0 (by linarith : 1 - ρ ≤ 1) (n := k)]
    set A := 1 - (1 - ρ) ^ k with hAd
    have e1 : 1 - (1 - ρ) ^ (k + 1) = ρ + (1 - ρ) * A := by rw [hAd, pow_succ]; ring
    rw [e1]
    have e2 : 2 * α * L * D * (ρ + (1 - ρ) * A) = 2 * α * L * ((1 - ρ) * D) * A + 2 * α * D * ρ * L := by ring
    rw [e2, Real.exp_add, mul_assoc (Real.exp (2 * α * L * ((1 - ρ) * D) * A))]
    refine mul_le_mul_of_nonneg_left ?_ (Real.exp_pos _).le
    have hb0 : 0 ≤ 2 * α * D * ρ * L := by positivity
    have hx1 := Real.add_one_le_exp (2 * α * D * ρ * L)
    have hx2 : (1 : ℝ) ≤ Real.exp (2 * α * D * ρ * L) := by linarith
    have e3 : ε + ρ * (2 * α * (δ + L * ε) * D) + 2 * α * ((1 - ρ) * D) * δ * A = (2 * α * D * ρ * L + 1) * ε + 2 * α * D * δ * (ρ + (1 - ρ) * A) := by ring
    rw [e3, mul_add (Real.exp (2 * α * D * ρ * L))]
    have h1 : 0 ≤ 2 * α * D * δ * (ρ + (1 - ρ) * A) := by positivity
    exact add_le_add (mul_le_mul_of_nonneg_right hx1 hε0) (le_mul_of_one_le_left h1 hx2)

/-- The batch depends on the permutations only. -/
theorem preStep_perm_congr {env env' : Env ℝ V} (h : env'.perm = env.perm) (s : St ℝ V) : preStep env' s = preStep env s := by
  cases env
  cases env'
  simp only at h
  subst h
  rfl

end

end Verif
