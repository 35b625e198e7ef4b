import Verif.Proofs.Indep
import Verif.Spec.AlmostSure

/-! The loop of the independent noise ends as soon as one array of random numbers is large enough. -/

set_option linter.unusedSectionVars false

namespace Verif

open MeasureTheory ProbabilityTheory

section mono
variable {K V : Type} [Zero K] [One K] [Neg K] [Add K] [Sub K] [Mul K] [Inv K] [Div K] [NatCast K] [Pow K ℕ] [LinearOrder K] [Add V] [Sub V] [SMul K V]

/-- A loop that has ended stays ended. -/
theorem indepLoop_mono {p : IndepArgs K V} {root : K} {z : ℕ → ℕ → ℕ → V} {c : Mat V} :
    ∀ (fuel k : ℕ) (x x' : Mat V), indepLoop p root z c fuel k x = .ok (some x') → ∀ fuel' ≥ fuel, indepLoop p root z c fuel' k x = .ok (some x') := by
  intro fuel
  induction fuel with
  | zero => intro k x x' h; simp [indepLoop] at h
  | succ fuel ih =>
    intro k x x' h fuel' hf
    obtain ⟨g, rfl⟩ : ∃ g, fuel' = g + 1 := ⟨fuel' - 1, by omega⟩
    simp only [indepLoop, bind_ok] at h ⊢
    obtain ⟨v, hv, h⟩ := h
    refine ⟨v, hv, ?_⟩
    by_cases hB : indepIdx p v = []
    · rw [if_pos hB] at h ⊢; exact h
    · rw [if_neg hB] at h ⊢
      simp only [bind_ok] at h ⊢
      obtain ⟨y, hy, h⟩ := h
      exact ⟨y, hy, ih _ _ _ h _ (by omega)⟩

/-- The loop does not raise. -/
theorem indepLoop_total {p : IndepArgs K V} {root : K} {z : ℕ → ℕ → ℕ → V} {c : Mat V} (hc : c.cols = 1) :
    ∀ (fuel k : ℕ) (x : Mat V), (c.rows = x.rows ∨ c.rows = 1) → ∃ r, indepLoop p root z c fuel k x = .ok r := by
  intro fuel
  induction fuel with
  | zero => intro k x _; exact ⟨none, rfl⟩
  | succ fuel ih =>
    intro k x hr
    obtain ⟨v, hv⟩ := indepVar_total (p := p) hr hc
    by_cases hB : indepIdx p v = []
    · exact ⟨some x, by simp only [indepLoop, hv, bind, Except.bind, if_pos hB, pure, Except.pure]⟩
    · have mem := indepIdx_mem hr hc hv
      obtain ⟨x', hx'⟩ := indepPerturb_total (p := p) (root := root) (B := indepIdx p v) (z := z k) (x := x) (fun q hq => ((mem q).1 hq).1)
      obtain ⟨q1, -⟩ := indepPerturb_ok indepIdx_nodup hx'
      obtain ⟨r, h⟩ := ih (k + 1) x' (by rw [q1]; exact hr)
      exact ⟨r, by simp only [indepLoop, hv, bind, Except.bind, if_neg hB, hx']; exact h⟩

end mono

variable {ι : Type} [Fintype ι]

/-- All coordinates of the first particle of all rows are at least `C`. -/
def Large (C : ℝ) (M : ℕ) (z : ℕ → ℕ → ι → ℝ) : Prop := ∀ i < M, ∀ l, C ≤ z i 0 l

/-- The threshold above which one array of random numbers ends the loop. -/
noncomputable def exitLevel (p : IndepArgs ℝ (ι → ℝ)) (root : ℝ) (N : ℕ) : ℝ := 2 * Real.sqrt (p.eps * p.d0 * N) / (p.sigma * root)

theorem collapsed_exit [Nonempty ι] {p : IndepArgs ℝ (ι → ℝ)} (hq : p.normSq = fun v => ∑ l, v l ^ 2) (hd : 0 < p.d0) {root : ℝ} (ha : 0 < p.sigma * root) {N : ℕ} (hN : 0 < N)
    {row row' : ℕ → ι → ℝ} {c w : ι → ℝ} (hw : ∀ l, exitLevel p root N ≤ w l) (h0 : row' 0 = row 0 + (p.sigma * root) • w) (hcol : Collapsed p N row c) : ¬ Collapsed p N row' c := by
  have hNr : (0 : ℝ) < N := by exact_mod_cast hN
  have key : ∀ r : ℕ → ι → ℝ, Collapsed p N r c ↔ ((List.range N).map fun j => p.normSq (r j - c)).sum < p.eps * p.d0 * N := by
    intro r
    unfold Collapsed variance
    rw [div_lt_iff₀ hd, div_lt_iff₀ hNr]
  have hge : ∀ (r : ℕ → ι → ℝ) (l : ι), (r 0 l - c l) ^ 2 ≤ ((List.range N).map fun j => p.normSq (r j - c)).sum := by
    intro r l
    have h1 : p.normSq (r 0 - c) ≤ ((List.range N).map fun j => p.normSq (r j - c)).sum := by
      apply List.single_le_sum
      · intro y hy
        simp only [List.mem_map] at hy
        obtain ⟨j, -, rfl⟩ := hy
        rw [hq]
        exact Finset.sum_nonneg fun _ _ => sq_nonneg _
      · exact List.mem_map.2 ⟨0, List.mem_range.2 hN, rfl⟩
    refine le_trans ?_ h1
    rw [hq]
    exact Finset.single_le_sum (f := fun l => (r 0 - c) l ^ 2) (fun _ _ => sq_nonneg _) (Finset.mem_univ l)
  rw [key] at hcol ⊢
  obtain ⟨l⟩ := ‹Nonempty ι›
  set B := p.eps * p.d0 * N with hB
  have h1 := lt_of_le_of_lt (hge row l) hcol
  have hB0 : 0 ≤ B := le_trans (sq_nonneg _) h1.le
  have h2 : |row 0 l - c l| < Real.sqrt B := by
    rw [← Real.sqrt_sq_eq_abs]
    exact Real.sqrt_lt_sqrt (sq_nonneg _) h1
  have h3 : 2 * Real.sqrt B ≤ (p.sigma * root) * w l := by
    have := mul_le_mul_of_nonneg_left (hw l) ha.le
    rw [exitLevel, mul_div_cancel₀ _ ha.ne'] at this
    exact this
  have h4 : Real.sqrt B ≤ row' 0 l - c l := by
    rw [h0, Pi.add_apply, Pi.smul_apply, smul_eq_mul]
    have := (abs_lt.1 h2).1
    linarith
  have h5 : B ≤ (row' 0 l - c l) ^ 2 := by
    have := mul_self_le_mul_self (Real.sqrt_nonneg B) h4
    rw [Real.mul_self_sqrt hB0] at this
    rw [pow_two]; exact this
  exact not_lt.2 (h5.trans (hge row' l))

/-- While the loop runs, no array was large. -/
theorem indepLoop_large [Nonempty ι] {p : IndepArgs ℝ (ι → ℝ)} (hq : p.normSq = fun v => ∑ l, v l ^ 2) (hd : 0 < p.d0) {root : ℝ} (ha : 0 < p.sigma * root)
    {z : ℕ → ℕ → ℕ → ι → ℝ} {c : Mat (ι → ℝ)} (hc : c.cols = 1) :
    ∀ (fuel k : ℕ) (x : Mat (ι → ℝ)), (c.rows = x.rows ∨ c.rows = 1) → 0 < x.cols → indepLoop p root z c fuel k x = .ok none → ∀ t, t + 2 ≤ fuel →
      ¬ Large (exitLevel p root x.cols) x.rows (z (k + t)) := by
  intro fuel
  induction fuel with
  | zero => intro k x _ _ _ t ht; omega
  | succ fuel ih =>
    intro k x hr hN h t ht hbig
    obtain ⟨v, hv⟩ := indepVar_total (p := p) hr hc
    have mem := indepIdx_mem hr hc hv
    simp only [indepLoop, hv, bind, Except.bind] at h
    by_cases hB : indepIdx p v = []
    · rw [if_pos hB] at h
      cases h
    rw [if_neg hB] at h
    obtain ⟨x', hx'⟩ := indepPerturb_total (p := p) (root := root) (B := indepIdx p v) (z := z k) (x := x) (fun q hq => ((mem q).1 hq).1)
    obtain ⟨q1, q2, q3, q4⟩ := indepPerturb_ok indepIdx_nodup hx'
    rw [hx'] at h
    simp only at h
    match t with
    | t + 1 =>
      refine ih (k + 1) x' (by rw [q1]; exact hr) (by rw [q2]; exact hN) h t (by omega) ?_
      rw [q1, q2, show k + 1 + t = k + (t + 1) by omega]
      exact hbig
    | 0 =>
      obtain ⟨g, rfl⟩ : ∃ g, fuel = g + 1 := ⟨fuel - 1, by omega⟩
      obtain ⟨v', hv'⟩ := indepVar_total (p := p) (x := x') (c := c) (by rw [q1]; exact hr) hc
      have mem' := indepIdx_mem (by rw [q1]; exact hr) hc hv'
      have hB' : indepIdx p v' = [] := by
        rw [List.eq_nil_iff_forall_not_mem]
        intro m hm
        obtain ⟨m1, m2⟩ := (mem' m).1 hm
        rw [q2] at m2
        by_cases hmB : m ∈ indepIdx p v
        · refine collapsed_exit hq hd ha hN (row := x.get m) (w := z k ((indepIdx p v).idxOf m) 0) ?_ (q4 m hmB 0 hN) ((mem m).1 hmB).2 m2
          intro l
          refine hbig _ ?_ l
          have h1 := List.idxOf_lt_length_iff.2 hmB
          have h2 : (indepIdx p v).length ≤ x.rows := by
            have := ((indepIdx_nodup (p := p) (v := v)).subperm (l₂ := List.range x.rows) fun q hq => List.mem_range.2 ((mem q).1 hq).1).length_le
            rwa [List.length_range] at this
          omega
        · refine hmB ((mem m).2 ⟨by rw [q1] at m1; exact m1, ?_⟩)
          rw [collapsed_congr (row' := x'.get m) fun j _ => (q3 m hmB j).symm]
          exact m2
      simp only [indepLoop, hv', bind, Except.bind, if_pos hB'] at h
      cases h

section prob
variable {κ Ω : Type} [Fintype κ] [MeasurableSpace Ω] {P : Measure Ω} [IsProbabilityMeasure P]

/-- Arrays of numbers that are all at least `C`. -/
def upperBox (κ : Type) (C : ℝ) : Set (κ → ℝ) := Set.univ.pi fun _ => Set.Ici C

theorem upperBox_meas (C : ℝ) : MeasurableSet (upperBox κ C) := MeasurableSet.univ_pi fun _ => measurableSet_Ici

theorem upperBox_pos (C : ℝ) : 0 < stdNormal κ (upperBox κ C) := by
  unfold stdNormal upperBox
  rw [Measure.pi_pi]
  refine pos_iff_ne_zero.2 (Finset.prod_ne_zero_iff.2 fun _ _ h => ?_)
  have := gaussianReal_absolutelyContinuous' 0 (v := 1) one_ne_zero h
  simp at this

theorem upperBox_compl_lt (C : ℝ) : stdNormal κ (upperBox κ C)ᶜ < 1 := by
  haveI : IsProbabilityMeasure (stdNormal κ) := by unfold stdNormal; infer_instance
  rw [prob_compl_eq_one_sub (upperBox_meas C)]
  exact ENNReal.sub_lt_self ENNReal.one_ne_top one_ne_zero (upperBox_pos C).ne'

theorem upperBox_tail {Z : ℕ → Ω → κ → ℝ} (hZ : IidNormal P Z) (C : ℝ) (k : ℕ) :
    P {ω | ∀ t < k, Z t ω ∉ upperBox κ C} = stdNormal κ (upperBox κ C)ᶜ ^ k := by
  have h := hZ.indep.measure_inter_preimage_eq_mul (S := Finset.range k) (sets := fun _ => (upperBox κ C)ᶜ) fun _ _ => (upperBox_meas C).compl
  have e : {ω | ∀ t < k, Z t ω ∉ upperBox κ C} = ⋂ i ∈ Finset.range k, Z i ⁻¹' (upperBox κ C)ᶜ := by
    ext ω
    simp
  rw [e, h]
  have : ∀ i, P (Z i ⁻¹' (upperBox κ C)ᶜ) = stdNormal κ (upperBox κ C)ᶜ := fun i => by
    rw [← Measure.map_apply (hZ.meas i) (upperBox_meas C).compl, hZ.law]
  simp only [this, Finset.prod_const, Finset.card_range]

theorem upperBox_ae {Z : ℕ → Ω → κ → ℝ} (hZ : IidNormal P Z) (C : ℝ) : ∀ᵐ ω ∂P, ∃ t, Z t ω ∈ upperBox κ C := by
  have h : P {ω | ¬ ∃ t, Z t ω ∈ upperBox κ C} = 0 := by
    have hle : ∀ k, P {ω | ¬ ∃ t, Z t ω ∈ upperBox κ C} ≤ stdNormal κ (upperBox κ C)ᶜ ^ k := by
      intro k
      rw [← upperBox_tail hZ C k]
      refine measure_mono fun ω hω t _ ht => hω ⟨t, ht⟩
    refine le_antisymm ?_ bot_le
    exact ge_of_tendsto' (ENNReal.tendsto_pow_atTop_nhds_zero_of_lt_one (upperBox_compl_lt C)) hle
  exact h

theorem upperBox_large {M N : ℕ} (hN : 0 < N) {C : ℝ} {w : Fin M × Fin N × ι → ℝ} (h : w ∈ upperBox _ C) : Large C M (drawn M N w) := by
  intro i hi l
  simp only [drawn, dif_pos (⟨hi, hN⟩ : i < M ∧ 0 < N)]
  exact h _ trivial

end prob

section run

variable {K V : Type} [Zero K] [One K] [Neg K] [Add K] [Sub K] [Mul K] [Inv K] [Div K] [NatCast K] [Pow K ℕ] [LinearOrder K] [Add V] [Sub V] [SMul K V]

/-- The loop keeps the shape of the ensemble. -/
theorem indepLoop_shape {p : IndepArgs K V} {root : K} {z : ℕ → ℕ → ℕ → V} {c : Mat V} :
    ∀ (fuel k : ℕ) (x x' : Mat V), indepLoop p root z c fuel k x = .ok (some x') → x'.rows = x.rows ∧ x'.cols = x.cols := by
  intro fuel
  induction fuel with
  | zero => intro k x x' h; simp [indepLoop] at h
  | succ fuel ih =>
    intro k x x' h
    simp only [indepLoop, bind_ok] at h
    obtain ⟨v, hv, h⟩ := h
    split_ifs at h with hB
    · simp only [pure_ok, Option.some.injEq] at h
      subst h
      exact ⟨rfl, rfl⟩
    · simp only [bind_ok] at h
      obtain ⟨y, hy, h⟩ := h
      obtain ⟨e1, e2⟩ := ih _ _ _ h
      have : y.rows = x.rows ∧ y.cols = x.cols := by
        unfold indepPerturb at hy
        have q := Mat.scatterAdd_ok hy
        exact ⟨q.2.1, q.2.2.1⟩
      exact ⟨e1.trans this.1, e2.trans this.2⟩

theorem indepStep_shape {env : Env K V} {p : IndepArgs K V} {z : ℕ → ℕ → ℕ → ℕ → V} {fuel : ℕ} {s : St K V} {x' : Mat V}
    (h : indepStep env p z fuel s = .ok (some x')) : x'.rows = s.x.rows ∧ x'.cols = s.x.cols := by
  unfold indepStep at h
  split_ifs at h
  · cases hc : s.cons with
    | none =>
      rw [hc] at h
      simp only [Except.ok.injEq, Option.some.injEq] at h
      subst h
      exact ⟨rfl, rfl⟩
    | some c =>
      rw [hc] at h
      exact indepLoop_shape _ _ _ _ h
  · simp only [Except.ok.injEq, Option.some.injEq] at h
    subst h
    exact ⟨rfl, rfl⟩

theorem indepStep_mono {env : Env K V} {p : IndepArgs K V} {z : ℕ → ℕ → ℕ → ℕ → V} {fuel : ℕ} {s : St K V} {x' : Mat V}
    (h : indepStep env p z fuel s = .ok (some x')) {fuel' : ℕ} (hf : fuel ≤ fuel') : indepStep env p z fuel' s = .ok (some x') := by
  unfold indepStep at h ⊢
  split_ifs at h ⊢
  · cases hc : s.cons with
    | none => rw [hc] at h; exact h
    | some c => rw [hc] at h; exact indepLoop_mono _ _ _ _ h fuel' hf
  · exact h

/-- An execution in which every loop ended does not depend on the number of iterations allowed. -/
theorem indepExec_mono {env : Env K V} {G : ConOps K V} {eps : K} {p : IndepArgs K V} {z : ℕ → ℕ → ℕ → ℕ → V} {fuel fuel' : ℕ} (hf : fuel ≤ fuel') :
    ∀ (ops : List Op) (s s' : St K V), execAll env (indepInner env G eps p z fuel) ops s = .ok s' → execAll env (indepInner env G eps p z fuel') ops s = .ok s'
  | [], _, _, h => h
  | o :: l, s, s', h => by
    simp only [execAll, bind_ok] at h ⊢
    obtain ⟨w, h1, h2⟩ := h
    refine ⟨w, ?_, indepExec_mono hf l w s' h2⟩
    cases o with
    | step =>
      simp only [exec] at h1 ⊢
      obtain ⟨v, hv, hs⟩ := step_split.1 h1
      obtain ⟨x', hx', hv⟩ := indepInner_ok.1 hv
      exact step_split.2 ⟨v, indepInner_ok.2 ⟨x', indepStep_mono hx' hf, hv⟩, hs⟩
    | select => exact h1
    | sched => exact h1
    | reset => exact h1

/-- What is preserved by the steps with independent noise as long as no run is stopped. -/
structure IndepInv (M N : ℕ) (s : St K V) : Prop where
  wf : WF s
  eM : s.M = M
  eN : s.N = N
  act : s.active.length = M
  cons : ∀ c, s.cons = some c → c.rows = M ∧ c.cols = 1

theorem IndepInv.step {env : Env K V} (hmean : ∃ r, env.cons = .mean r) (hpost : PostOK env) (hp : PermOK env) {G : ConOps K V} {eps : K} {p : IndepArgs K V}
    {z : ℕ → ℕ → ℕ → ℕ → V} {fuel : ℕ} {M N : ℕ} {s s' : St K V} (hi : IndepInv M N s) (h : step env (indepInner env G eps p z fuel) s = .ok s') : IndepInv M N s' := by
  obtain ⟨r, hr⟩ := hmean
  obtain ⟨v, hv, hs⟩ := step_split.1 h
  obtain ⟨x', hx', hv⟩ := indepInner_ok.1 hv
  obtain ⟨u, hu, hv⟩ := consThen_split.1 hv
  have hw := hi.wf
  obtain ⟨x1, x2⟩ := indepStep_shape hx'
  have p1 := preStep_frame env s
  have f1 := (dcMove_full env G eps).frame u v hv
  obtain ⟨g1, g2⟩ := (dcMove_full env G eps).shape u v hv
  have f2 := computeConsensus_frame hu
  have pf := postStep_facts hs
  have f3 := pf.frame
  have cc := computeConsensus_facts hu
  obtain ⟨b1, b2⟩ := hpost _ _ pf.post
  have i1 := (preStep_idx env hp hw).cRows
  have i2 : (preStep env s).active = s.active := by rw [p1]
  obtain ⟨c, c1, c2, c3, -⟩ := computeConsensus_mean (s := { preStep env s with x := x' }) hr (by simp only; rw [i1, i2]) hu
  have px : (preStep env s).x = s.x := by rw [p1]
  have ux : u.x = x' := by rw [f2]
  have eM : s'.M = s.M := by rw [f3]; simp only; rw [f1]; simp only; rw [f2]; simp only; rw [p1]
  have eN : s'.N = s.N := by rw [f3]; simp only; rw [f1]; simp only; rw [f2]; simp only; rw [p1]
  have eA : s'.active = s.active := by rw [f3]; simp only; rw [f1]; simp only; rw [f2]; simp only; rw [p1]
  have eB : s'.batched = s.batched := by rw [f3]; simp only; rw [f1]; simp only; rw [f2]; simp only; rw [p1]
  have eS : s'.batchSize = s.batchSize := by rw [f3]; simp only; rw [f1]; simp only; rw [f2]; simp only; rw [p1]
  have eI : s'.indices = (preStep env s).indices := by rw [f3]; simp only; rw [f1]; simp only; rw [f2]
  have eE : s'.energy = u.energy := by rw [f3]; simp only; rw [f1]
  have eC : s'.cons = u.cons := by rw [f3]; simp only; rw [f1]
  have pe : (preStep env s).energy = s.energy := by rw [p1]
  refine ⟨⟨?_, ?_, ?_, ?_, ?_, ?_, ?_, ?_⟩, eM.trans hi.eM, eN.trans hi.eN, by rw [eA, hi.act], ?_⟩
  · rw [b1, g1, ux, x1, px, eM, hw.xr]
  · rw [b2, g2, ux, x2, px, eN, hw.xc]
  · rw [eE, cc.er, pe, eM, hw.er]
  · rw [eE, cc.ec, pe, eN, hw.ec]
  · rw [eN]; exact hw.pos
  · rw [eA, eM]; exact hw.act
  · rw [eB, eS, eN]; exact hw.unb
  · rw [eB, eS, eN, eM, eI]
    intro hb
    obtain ⟨h1, h2⟩ := preStep_pool env hp hw hb
    exact ⟨(hw.bat hb).1, h1, h2⟩
  · intro c' hc'
    rw [eC, c1] at hc'
    injection hc' with hc'
    subst hc'
    simp only at c2
    exact ⟨by rw [c2, i2, hi.act], c3⟩

theorem IndepInv.exec {env : Env K V} (hmean : ∃ r, env.cons = .mean r) (hpost : PostOK env) (hp : PermOK env) {G : ConOps K V} {eps : K} {p : IndepArgs K V}
    {z : ℕ → ℕ → ℕ → ℕ → V} {fuel : ℕ} {M N : ℕ} :
    ∀ (ops : List Op) (s s' : St K V), (∀ o ∈ ops, o = .step ∨ o = .sched) → IndepInv M N s → execAll env (indepInner env G eps p z fuel) ops s = .ok s' → IndepInv M N s'
  | [], _, _, _, hi, h => by
    simp only [execAll, Except.ok.injEq] at h
    rw [← h]; exact hi
  | o :: l, s, s', ho, hi, h => by
    simp only [execAll, bind_ok] at h
    obtain ⟨w, h1, h2⟩ := h
    refine IndepInv.exec hmean hpost hp l w s' (fun q hq => ho q (List.mem_cons_of_mem _ hq)) ?_ h2
    rcases ho o List.mem_cons_self with rfl | rfl
    · exact hi.step hmean hpost hp h1
    · simp only [Verif.exec, schedUpdate, bind_ok, pure_ok] at h1
      obtain ⟨q, -, rfl⟩ := h1
      have hw := hi.wf
      exact ⟨⟨hw.xr, hw.xc, hw.er, hw.ec, hw.pos, hw.act, hw.unb, hw.bat⟩, hi.eM, hi.eN, hi.act, hi.cons⟩

end run

end Verif
