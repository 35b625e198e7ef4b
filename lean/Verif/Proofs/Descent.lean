import Verif.Props.Hull
import Mathlib.Analysis.Convex.Jensen
import Mathlib.Analysis.Convex.Quasiconvex
import Mathlib.Analysis.Convex.SpecificFunctions.Basic
import Mathlib.Analysis.Normed.Module.Convex
import Mathlib.Analysis.SpecificLimits.Basic

/-! Helper lemmas for C93: noise-free CBO on convex objectives. -/

set_option linter.unusedSectionVars false

namespace Verif

open Filter
open scoped Topology

section
variable {V : Type} [AddCommGroup V] [Module ℝ V]

/-- Weighted mean of the energies with the consensus weights. -/
noncomputable def gibbsEnergy (a : ℝ) (l : List ℝ) : ℝ := gibbs a (l.map fun e => (e, e))

/-- The objective at the consensus point is at most the weighted mean of the energies. -/
theorem gibbs_jensen {S : Set V} {f : V → ℝ} (hf : ConvexOn ℝ S f) (a : ℝ) {l : List V} (hl : l ≠ []) (hS : ∀ x ∈ l, x ∈ S) :
    f (gibbs a (l.map fun x => (f x, x))) ≤ gibbsEnergy a (l.map f) := by
  unfold gibbsEnergy
  have hpos : 0 < l.length := List.length_pos_iff_ne_nil.2 hl
  have hZ : 0 < ∑ j : Fin l.length, Real.exp (-(a * f l[j])) := Finset.sum_pos (fun _ _ => Real.exp_pos _) ⟨⟨0, hpos⟩, Finset.mem_univ _⟩
  have e1 : gibbs a (l.map fun x => (f x, x)) = ∑ i : Fin l.length, (Real.exp (-(a * f l[i])) / ∑ j : Fin l.length, Real.exp (-(a * f l[j]))) • l[i] := by
    simp only [gibbs, List.map_map, Function.comp_def]
    rw [← Fin.sum_univ_fun_getElem l, ← Fin.sum_univ_fun_getElem l, Finset.smul_sum]
    refine Finset.sum_congr rfl fun i _ => ?_
    rw [smul_smul, div_eq_inv_mul]
    rfl
  have e2 : gibbs a ((l.map f).map fun e => (e, e)) = ∑ i : Fin l.length, (Real.exp (-(a * f l[i])) / ∑ j : Fin l.length, Real.exp (-(a * f l[j]))) • f l[i] := by
    simp only [gibbs, List.map_map, Function.comp_def]
    rw [← Fin.sum_univ_fun_getElem l, ← Fin.sum_univ_fun_getElem l, Finset.smul_sum]
    refine Finset.sum_congr rfl fun i _ => ?_
    rw [smul_smul, div_eq_inv_mul]
    rfl
  rw [e1, e2]
  refine hf.map_sum_le (fun i _ => (div_pos (Real.exp_pos _) hZ).le) ?_ fun i _ => hS _ (List.getElem_mem _)
  rw [← Finset.sum_div, div_self hZ.ne']

/-- The weighted mean of the energies exceeds none of them by more than `log n / alpha`. -/
theorem gibbsEnergy_le (a : ℝ) (ha : 0 < a) {l : List ℝ} {e : ℝ} (he : e ∈ l) : gibbsEnergy a l ≤ e + Real.log l.length / a := by
  have hpos : 0 < l.length := List.length_pos_of_mem he
  have hZ : 0 < ∑ j : Fin l.length, Real.exp (-(a * l[j])) := Finset.sum_pos (fun _ _ => Real.exp_pos _) ⟨⟨0, hpos⟩, Finset.mem_univ _⟩
  have e2 : gibbsEnergy a l = ∑ i : Fin l.length, (Real.exp (-(a * l[i])) / ∑ j : Fin l.length, Real.exp (-(a * l[j]))) • l[i] := by
    simp only [gibbsEnergy, gibbs, List.map_map, Function.comp_def]
    rw [← Fin.sum_univ_fun_getElem l, ← Fin.sum_univ_fun_getElem l, Finset.smul_sum]
    refine Finset.sum_congr rfl fun i _ => ?_
    rw [smul_smul, div_eq_inv_mul]
    rfl
  have hj := convexOn_exp.map_sum_le (t := Finset.univ) (w := fun i : Fin l.length => Real.exp (-(a * l[i])) / ∑ j : Fin l.length, Real.exp (-(a * l[j])))
    (p := fun i => a * l[i]) (fun i _ => (div_pos (Real.exp_pos _) hZ).le) (by rw [← Finset.sum_div, div_self hZ.ne']) fun _ _ => trivial
  have e3 : ∑ i : Fin l.length, (Real.exp (-(a * l[i])) / ∑ j : Fin l.length, Real.exp (-(a * l[j]))) • Real.exp (a * l[i]) =
      l.length / ∑ j : Fin l.length, Real.exp (-(a * l[j])) := by
    have : ∀ i : Fin l.length, (Real.exp (-(a * l[i])) / ∑ j : Fin l.length, Real.exp (-(a * l[j]))) • Real.exp (a * l[i]) = 1 / ∑ j : Fin l.length, Real.exp (-(a * l[j])) := fun i => by
      rw [smul_eq_mul, div_mul_eq_mul_div, ← Real.exp_add, neg_add_cancel, Real.exp_zero]
    rw [Finset.sum_congr rfl fun i _ => this i, Finset.sum_const, Finset.card_univ, Fintype.card_fin, nsmul_eq_mul]
    ring
  have e4 : ∑ i : Fin l.length, (Real.exp (-(a * l[i])) / ∑ j : Fin l.length, Real.exp (-(a * l[j]))) • (a * l[i]) = a * gibbsEnergy a l := by
    rw [e2, Finset.mul_sum]
    refine Finset.sum_congr rfl fun i _ => ?_
    simp only [smul_eq_mul]; ring
  have hle : Real.exp (-(a * e)) ≤ ∑ j : Fin l.length, Real.exp (-(a * l[j])) := by
    obtain ⟨i, hi, rfl⟩ := List.mem_iff_getElem.1 he
    exact Finset.single_le_sum (f := fun j : Fin l.length => Real.exp (-(a * l[j]))) (fun _ _ => (Real.exp_pos _).le) (Finset.mem_univ ⟨i, hi⟩)
  have hn : (0 : ℝ) < l.length := by exact_mod_cast hpos
  have h1 : Real.exp (a * gibbsEnergy a l) ≤ Real.exp (Real.log l.length + a * e) := by
    rw [Real.exp_add, Real.exp_log hn]
    refine (e4 ▸ hj.trans_eq e3).trans ?_
    rw [div_le_iff₀ hZ, mul_assoc]
    refine le_mul_of_one_le_right hn.le ?_
    calc (1 : ℝ) = Real.exp (a * e) * Real.exp (-(a * e)) := by rw [← Real.exp_add, add_neg_cancel, Real.exp_zero]
      _ ≤ _ := mul_le_mul_of_nonneg_left hle (Real.exp_pos _).le
  have h2 := Real.exp_le_exp.1 h1
  rw [← sub_le_iff_le_add', le_div_iff₀ ha]
  linarith

/-- For `alpha ≥ 0` it is at most the plain mean. -/
theorem gibbsEnergy_mean (a : ℝ) (ha : 0 ≤ a) (l : List ℝ) : gibbsEnergy a l ≤ (l.length : ℝ)⁻¹ * l.sum := by
  have := C22_energy_mean l a ha
  rwa [consDefault_fin] at this

/-- Unbatched: the pairs are those of all particles. -/
theorem batchPairs_full {env : Env ℝ V} {f : V → ℝ} {s s' : St ℝ V} (hw : WF s) (hb : s.batched = false) (hc : s'.cIdx = (preStep env s).cIdx) {m i : ℕ}
    (hi : i < s.active.length) (hm : s.active.getD i 0 = m) : batchPairs f s s' i = ((List.range s.N).map (s.x.get m)).map fun x => (f x, x) := by
  obtain ⟨e1, -, e3, e4, e5⟩ := (preStep_pIdx env s hw).2.2 hb
  unfold batchPairs
  rw [hc, ← e1, e3, e4 i hi, hm, List.map_map]
  refine List.map_congr_left fun j _ => ?_
  rw [e5]
  rfl

theorem sum_map_range (g : ℕ → ℝ) (n : ℕ) : ((List.range n).map g).sum = ∑ i ∈ Finset.range n, g i := by
  induction n with
  | zero => simp
  | succ n ih => rw [List.range_succ, List.map_append, List.sum_append, ih, Finset.sum_range_succ]; simp

/-- Without batches and for `alpha ≥ 0` the objective at the consensus point is at most the mean over the particles. -/
theorem cons_mean {env : Env ℝ V} {f : V → ℝ} {ν : ℕ → ℝ → ℕ → ℕ → V → V} {p : V → V} {s s' : St ℝ V} (hw : WF s) (hb : s.batched = false)
    (hc : s'.cIdx = (preStep env s).cIdx) {m i : ℕ} {c : V} (r : RunStep f ν p s s' m i c) (ha : 0 ≤ s.alpha m) {S : Set V} (hf : ConvexOn ℝ S f) (hx : ∀ n < s.N, s.x.get m n ∈ S) :
    f c ≤ (∑ n ∈ Finset.range s.N, f (s.x.get m n)) / s.N := by
  rw [r.pairs, batchPairs_full (env := env) hw hb hc r.pos r.act]
  refine (gibbs_jensen hf _ (fun h0 => ?_) fun x hx' => ?_).trans ((gibbsEnergy_mean _ ha _).trans_eq ?_)
  · rw [List.map_eq_nil_iff, List.range_eq_nil] at h0
    have := hw.pos
    omega
  · obtain ⟨n, hn, rfl⟩ := List.mem_map.1 hx'
    exact hx n (List.mem_range.1 hn)
  · rw [List.map_map, List.length_map, List.length_range, inv_mul_eq_div, sum_map_range]
    rfl

/-- A step without noise where post processing does nothing. -/
theorem free_step {env : Env ℝ V} {f : V → ℝ} {ν : ℕ → ℝ → ℕ → ℕ → V → V} {p : V → V} (hE : Standard env f ν p) {s s' : St ℝ V} (hw : WF s) (hb : 1 ≤ s.batchSize)
    (hn : NoiseFree s.sigma s.lamda s.dt) {S : Set V} (hS : Convex ℝ S) (hpS : ∀ v ∈ S, p v = v) {m : ℕ} (hm : m ∈ s.active) (hx : ∀ n < s.N, s.x.get m n ∈ S)
    (hfull : s.batched = false ∨ s.batchPartial = false) (h : step env (cboInner env) s = .ok s') :
    ∃ i c, RunStep f ν p s s' m i c ∧ c ∈ S ∧ ∀ n < s.N, s'.x.get m n = (1 - s.lamda * s.dt) • s.x.get m n + (s.lamda * s.dt) • c := by
  have fr := step_frame (by rw [cboInner_eq]; exact consThen_frame (cboMove_ok env)) h
  obtain ⟨i, c, r⟩ := runStep hE hw hb h m hm
  have hc : c ∈ S := by
    rw [r.pairs, ← consDefault_fin]
    refine C20_convex _ _ r.ne S hS fun q hq => ?_
    obtain ⟨l, hl, rfl⟩ := r.mem q hq
    exact hx l hl
  refine ⟨i, c, r, hc, fun k hk => ?_⟩
  have hsel : s'.pIdx.Sel m k := by
    rw [fr.pIdx, preStep_pSel hE.perm hw]
    refine ⟨hm, hk, fun h1 h2 => ?_⟩
    rcases hfull with h3 | h3
    · rw [h1] at h3; cases h3
    · rw [h2] at h3; cases h3
  obtain ⟨j, -, hj⟩ := r.moved k hk hsel
  have e : s.x.get m k + cboUpdate s.lamda s.dt s.sigma (s.x.get m k - c) (ν s.draws s.dt i j (s.x.get m k - c)) =
      (1 - s.lamda * s.dt) • s.x.get m k + (s.lamda * s.dt) • c := by
    simp only [cboUpdate, hn.1, zero_smul, add_zero]
    module
  rw [hj, e]
  exact hpS _ (hS (hx k hk) hc (by linarith [hn.2.2]) hn.2.1 (by ring))

/-- One step does not increase the sum of the objective values of a run. -/
theorem descent_step {env : Env ℝ V} {f : V → ℝ} {ν : ℕ → ℝ → ℕ → ℕ → V → V} {p : V → V} (hE : Standard env f ν p) {s s' : St ℝ V} (hw : WF s) (hb : 1 ≤ s.batchSize)
    (hn : NoiseFree s.sigma s.lamda s.dt) {S : Set V} (hf : ConvexOn ℝ S f) (hpS : ∀ v ∈ S, p v = v) {m : ℕ} (hx : ∀ n < s.N, s.x.get m n ∈ S)
    (hnb : s.batched = false) (ha : 0 ≤ s.alpha m) (h : step env (cboInner env) s = .ok s') :
    ∑ n ∈ Finset.range s.N, f (s'.x.get m n) ≤ ∑ n ∈ Finset.range s.N, f (s.x.get m n) := by
  have fr := step_frame (by rw [cboInner_eq]; exact consThen_frame (cboMove_ok env)) h
  by_cases hm : m ∈ s.active
  · obtain ⟨i, c, r, hc, hmv⟩ := free_step hE hw hb hn hf.1 hpS hm hx (Or.inl hnb) h
    have hcm := cons_mean (env := env) hw hnb fr.cIdx r ha hf hx
    have hN : (0 : ℝ) < s.N := by exact_mod_cast hw.pos
    rw [le_div_iff₀ hN] at hcm
    have h1 : ∑ n ∈ Finset.range s.N, f (s'.x.get m n) ≤ ∑ n ∈ Finset.range s.N, ((1 - s.lamda * s.dt) * f (s.x.get m n) + s.lamda * s.dt * f c) := by
      refine Finset.sum_le_sum fun n hn' => ?_
      have hn' := Finset.mem_range.1 hn'
      rw [hmv n hn']
      exact hf.2 (hx n hn') hc (by linarith [hn.2.2]) hn.2.1 (by ring)
    rw [Finset.sum_add_distrib, ← Finset.mul_sum, Finset.sum_const, Finset.card_range, nsmul_eq_mul] at h1
    have h2 := mul_le_mul_of_nonneg_left hcm hn.2.1
    linarith
  · refine le_of_eq (Finset.sum_congr rfl fun n hn' => ?_)
    have hns : ¬ s'.pIdx.Sel m n := by
      rw [fr.pIdx]
      exact fun hs => hm (pSel_active hE.perm hw hs).1
    rw [step_unsel (cboMove_ok env) (cboMove_local env) hE.post (by rw [← cboInner_eq]; exact h) m n hns, hpS _ (hx n (Finset.mem_range.1 hn'))]

/-- Steps for ever without noise, without batches: what holds after `k` of them. -/
theorem free_run {env : Env ℝ V} {f : V → ℝ} {ν : ℕ → ℝ → ℕ → ℕ → V → V} {p : V → V} (hE : Standard env f ν p) {s : ℕ → St ℝ V} (hw : WF (s 0)) (hbs : 1 ≤ (s 0).batchSize)
    (hs : ∀ k, step env (cboInner env) (s k) = .ok (s (k + 1))) (hn : NoiseFree (s 0).sigma (s 0).lamda (s 0).dt) (hnb : (s 0).batched = false) (m : ℕ) (hm : m ∈ (s 0).active)
    (ha : 0 ≤ (s 0).alpha m) {S : Set V} (hf : ConvexOn ℝ S f) (hpS : ∀ v ∈ S, p v = v) (hx : ∀ n < (s 0).N, (s 0).x.get m n ∈ S) :
    ∀ k, WF (s k) ∧ 1 ≤ (s k).batchSize ∧ (s k).sigma = (s 0).sigma ∧ (s k).lamda = (s 0).lamda ∧ (s k).dt = (s 0).dt ∧ (s k).alpha = (s 0).alpha ∧ (s k).batched = false ∧
      (s k).active = (s 0).active ∧ (s k).N = (s 0).N ∧ (∀ n < (s 0).N, (s k).x.get m n ∈ S) ∧
      (∑ n ∈ Finset.range (s 0).N, f ((s k).x.get m n) ≤ ∑ n ∈ Finset.range (s 0).N, f ((s 0).x.get m n)) ∧
      ∀ n < (s 0).N, ∀ n' < (s 0).N, (s k).x.get m n - (s k).x.get m n' = (1 - (s 0).lamda * (s 0).dt) ^ k • ((s 0).x.get m n - (s 0).x.get m n') := by
  set ρ := 1 - (s 0).lamda * (s 0).dt with hρ
  intro k
  induction k with
  | zero => exact ⟨hw, hbs, rfl, rfl, rfl, rfl, hnb, rfl, rfl, hx, le_rfl, fun n _ n' _ => by simp⟩
  | succ k ih =>
    obtain ⟨i1, i2, i3, i4, i5, i6, i7, i8, i9, i10, i11, i12⟩ := ih
    have fr := step_frame (by rw [cboInner_eq]; exact consThen_frame (cboMove_ok env)) (hs k)
    have hnk : NoiseFree (s k).sigma (s k).lamda (s k).dt := by rw [i3, i4, i5]; exact hn
    have hmk : m ∈ (s k).active := by rw [i8]; exact hm
    have hxk : ∀ n < (s k).N, (s k).x.get m n ∈ S := by rw [i9]; exact i10
    refine ⟨step_wf (cboMove_ok env) hE.post.ok hE.perm i1 (by rw [← cboInner_eq]; exact hs k), by rw [fr.batchSize]; exact i2, fr.sigma.trans i3, fr.lamda.trans i4, fr.dt.trans i5,
      fr.alpha.trans i6, fr.batched.trans i7, fr.active.trans i8, fr.N.trans i9, ?_, ?_, ?_⟩
    · have := hull_step hE i1 i2 hnk hf.1 (fun v hv => by rw [hpS v hv]; exact hv) hxk (hs k)
      rwa [i9] at this
    · have := descent_step hE i1 i2 hnk hf hpS hxk i7 (by rw [i6]; exact ha) (hs k)
      rw [i9] at this
      exact this.trans i11
    · intro n h1 n' h2
      have := contract_step hE i1 i2 hnk hf.1 hpS hmk hxk (Or.inl i7) (hs k) n (by rw [i9]; exact h1) n' (by rw [i9]; exact h2)
      rw [this, i4, i5, i12 n h1 n' h2, smul_smul, pow_succ, mul_comm ρ]

/-- Without noise and batches and for `alpha > 0` no particle gets worse by more than `lamda*dt*log(N)/alpha` in a step. -/
theorem free_step_best {env : Env ℝ V} {f : V → ℝ} {ν : ℕ → ℝ → ℕ → ℕ → V → V} {p : V → V} (hE : Standard env f ν p) {s s' : St ℝ V} (hw : WF s) (hb : 1 ≤ s.batchSize)
    (hn : NoiseFree s.sigma s.lamda s.dt) {S : Set V} (hf : ConvexOn ℝ S f) (hpS : ∀ v ∈ S, p v = v) {m : ℕ} (hm : m ∈ s.active) (hx : ∀ n < s.N, s.x.get m n ∈ S)
    (hnb : s.batched = false) (ha : 0 < s.alpha m) (h : step env (cboInner env) s = .ok s') (n : ℕ) (hn' : n < s.N) :
    f (s'.x.get m n) ≤ f (s.x.get m n) + s.lamda * s.dt * (Real.log s.N / s.alpha m) := by
  have fr := step_frame (by rw [cboInner_eq]; exact consThen_frame (cboMove_ok env)) h
  obtain ⟨i, c, r, hc, hmv⟩ := free_step hE hw hb hn hf.1 hpS hm hx (Or.inl hnb) h
  have hfc : f c ≤ f (s.x.get m n) + Real.log s.N / s.alpha m := by
    rw [r.pairs, batchPairs_full (env := env) hw hnb fr.cIdx r.pos r.act]
    refine (gibbs_jensen hf _ (fun h0 => ?_) fun x hx' => ?_).trans ?_
    · rw [List.map_eq_nil_iff, List.range_eq_nil] at h0
      omega
    · obtain ⟨j, hj, rfl⟩ := List.mem_map.1 hx'
      exact hx j (List.mem_range.1 hj)
    · have := gibbsEnergy_le (s.alpha m) ha (l := ((List.range s.N).map (s.x.get m)).map f) (e := f (s.x.get m n))
        (by rw [List.map_map]; exact List.mem_map_of_mem (f := f ∘ s.x.get m) (List.mem_range.2 hn'))
      simpa using this
  rw [hmv n hn']
  have h1 := hf.2 (hx n hn') hc (by linarith [hn.2.2] : 0 ≤ 1 - s.lamda * s.dt) hn.2.1 (by ring)
  simp only [smul_eq_mul] at h1
  have := mul_le_mul_of_nonneg_left hfc hn.2.1
  linarith

end

end Verif
