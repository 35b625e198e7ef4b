import Verif.Spec.Polar
import Verif.Proofs.Consensus
import Verif.Proofs.Total
import Verif.Proofs.Local
import Mathlib.Analysis.SpecialFunctions.Pow.Real
import Mathlib.Tactic.FieldSimp

/-! Helper lemmas on kernels and the polarised consensus. -/

set_option linter.unusedSectionVars false

namespace Verif

variable {ι : Type} [Fintype ι]

theorem sqdist_nonneg (x y : ι → ℝ) : 0 ≤ sqdist x y := Finset.sum_nonneg fun _ _ => sq_nonneg _

theorem pdist_nonneg (x y : ι → ℝ) : 0 ≤ pdist x y := Real.sqrt_nonneg _

theorem pdist_sq (x y : ι → ℝ) : pdist x y ^ 2 = sqdist x y := Real.sq_sqrt (sqdist_nonneg x y)

theorem sqdist_comm (x y : ι → ℝ) : sqdist x y = sqdist y x :=
  Finset.sum_congr rfl fun i _ => by ring

theorem pdist_comm (x y : ι → ℝ) : pdist x y = pdist y x := by
  have := sqdist_comm x y
  unfold sqdist at this
  unfold pdist euclid
  rw [this]

theorem pdist_self (x : ι → ℝ) : pdist x x = 0 := by simp [pdist, euclid]

theorem sqdist_self (x : ι → ℝ) : sqdist x x = 0 := by simp [sqdist]

theorem pdist_eq_zero {x y : ι → ℝ} : pdist x y = 0 ↔ x = y := by
  constructor
  · intro h
    have h2 : sqdist x y = 0 := by rw [← pdist_sq, h]; ring
    funext i
    have := (Finset.sum_eq_zero_iff_of_nonneg (fun i _ => sq_nonneg (x i - y i))).1 h2 i (Finset.mem_univ i)
    have := pow_eq_zero_iff (two_ne_zero) |>.1 this
    linarith
  · rintro rfl; exact pdist_self x

/-- `neg_log` never is NaN or `-inf`, apart from the Taz kernel on collapsed runs. -/
def GoodLog (v : Flt ℝ) : Prop := (∃ a, 0 ≤ a ∧ v = .fin a) ∨ v = .pinf

theorem negLog_good (k : Kernel) {kappa mx : ℝ} (hk : 0 < kappa) (hm : k = .taz → mx ≠ 0) (x y : ι → ℝ) :
    GoodLog (k.negLog kappa mx x y) := by
  cases k
  · exact Or.inl ⟨_, mul_nonneg (by positivity) (sqdist_nonneg x y), rfl⟩
  · exact Or.inl ⟨_, mul_nonneg (by positivity) (pdist_nonneg x y), rfl⟩
  · simp only [Kernel.negLog, powInf]
    split_ifs
    · exact Or.inl ⟨0, le_rfl, rfl⟩
    · exact Or.inl ⟨1, zero_le_one, rfl⟩
    · exact Or.inr rfl
  · refine Or.inl ⟨_, ?_, rfl⟩
    rw [one_div, Real.log_inv, neg_neg]
    exact Real.log_nonneg (by nlinarith [sq_nonneg (1 / kappa * pdist x y)])
  · simp only [Kernel.negLog, if_neg (hm rfl)]
    exact Or.inl ⟨_, sq_nonneg _, rfl⟩

theorem call_exp (k : Kernel) (kappa mx : ℝ) (x y : ι → ℝ) : k.call kappa mx x y = expNeg (k.negLog kappa mx x y) := by
  cases k
  · simp only [Kernel.call, Kernel.negLog, expNeg, neg_mul]
  · simp only [Kernel.call, Kernel.negLog, expNeg, neg_mul]
  · rfl
  · simp only [Kernel.call, Kernel.negLog, expNeg, neg_neg]
    rw [Real.exp_log (by positivity)]
  · rfl

theorem negLog_comm (k : Kernel) (kappa mx : ℝ) (x y : ι → ℝ) : k.negLog kappa mx x y = k.negLog kappa mx y x := by
  cases k <;> simp only [Kernel.negLog, pdist_comm x y, sqdist_comm x y]

theorem negLog_self (k : Kernel) {kappa mx : ℝ} (hm : k = .taz → mx ≠ 0) (x : ι → ℝ) :
    k.negLog kappa mx x x = .fin 0 := by
  cases k
  · simp [Kernel.negLog, sqdist_self]
  · simp [Kernel.negLog, pdist_self]
  · simp [Kernel.negLog, pdist_self, powInf]
  · simp [Kernel.negLog, pdist_self]
  · simp [Kernel.negLog, pdist_self, hm]

/-- The exponential of a weight is kernel value to the kernel factor times `exp(-a f)`. -/
theorem expFin_weight {kf nl kv a e} (hkf : 0 < kf) (hg : GoodLog nl) (hv : expNeg nl = .fin kv) :
    expFin (polarWeight kf nl a (.fin e)) = kv ^ kf * Real.exp (-(a * e)) := by
  rcases hg with ⟨t, -, rfl⟩ | rfl
  · simp only [expNeg, Flt.fin.injEq] at hv
    subst hv
    simp only [polarWeight, Flt.mul, Flt.sub, Flt.neg, Flt.add, expFin]
    rw [← Real.exp_mul, ← Real.exp_add]
    congr 1
    ring
  · simp only [expNeg, Flt.fin.injEq] at hv
    subst hv
    rw [Real.zero_rpow hkf.ne', zero_mul]
    simp only [polarWeight, Flt.mul, Flt.infTimes]
    rw [if_neg (by linarith), if_pos (by linarith)]
    rfl

theorem softmax_eq {ws : List (Flt ℝ)} (h : 0 < (ws.map expFin).sum) (w : Flt ℝ) :
    softmax ws w = (ws.map expFin).sum⁻¹ * expFin w := by
  cases w <;> simp only [softmax, expFin, mul_zero]
  rw [Real.exp_sub, Real.exp_log h, div_eq_inv_mul]

theorem kernel_nonneg {nl kv} (hg : GoodLog nl) (hv : expNeg nl = .fin kv) : 0 ≤ kv := by
  rcases hg with ⟨t, -, rfl⟩ | rfl
  · simp only [expNeg, Flt.fin.injEq] at hv
    rw [← hv]; exact (Real.exp_pos _).le
  · simp only [expNeg, Flt.fin.injEq] at hv
    exact hv.le

theorem sum_pos_of_mem {α : Type} (l : List α) (g : α → ℝ) (hg : ∀ p ∈ l, 0 ≤ g p) {q : α} (hq : q ∈ l) (h : 0 < g q) :
    0 < (l.map g).sum := by
  induction l with
  | nil => cases hq
  | cons p l ih =>
    rw [List.map_cons, List.sum_cons]
    have hp : 0 ≤ g p := hg p (List.mem_cons_self)
    have hl : 0 ≤ (l.map g).sum := by
      apply List.sum_nonneg
      intro y hy
      obtain ⟨z, hz, rfl⟩ := List.mem_map.1 hy
      exact hg z (List.mem_cons_of_mem _ hz)
    rcases List.mem_cons.1 hq with rfl | hq
    · linarith
    · have := ih (fun p hp => hg p (List.mem_cons_of_mem _ hp)) hq
      linarith

/-- The polarised consensus is the quotient of sums. `nl` is any `neg_log` with kernel `kv`. -/
theorem polarAt_fin {nl : (ι → ℝ) → (ι → ℝ) → Flt ℝ} {kv : (ι → ℝ) → (ι → ℝ) → ℝ} {kf : ℝ → ℝ} {a : ℝ} (hkf : 0 < kf a)
    (hg : ∀ x y, GoodLog (nl x y)) (hv : ∀ x y, expNeg (nl x y) = .fin (kv x y)) (l : List (ℝ × (ι → ℝ))) (x : ι → ℝ)
    (hx : ∃ p ∈ l, 0 < kv p.2 x) :
    polarAt nl kf (finSample a l) x = polarGibbs (fun u v => kv v u ^ kf a) a l x := by
  have hrow : (polarRow nl kf (finSample a l) x).map expFin = l.map fun p => kv p.2 x ^ kf a * Real.exp (-(a * p.1)) := by
    simp only [polarRow, finSample, List.map_map]
    apply List.map_congr_left
    intro p _
    exact expFin_weight hkf (hg _ _) (hv _ _)
  obtain ⟨q, hq, hpos⟩ := hx
  have hs : 0 < ((polarRow nl kf (finSample a l) x).map expFin).sum := by
    rw [hrow]
    refine sum_pos_of_mem l _ (fun p _ => ?_) hq (mul_pos (Real.rpow_pos_of_pos hpos _) (Real.exp_pos _))
    exact mul_nonneg (Real.rpow_nonneg (kernel_nonneg (hg _ _) (hv _ _)) _) (Real.exp_pos _).le
  unfold polarAt polarGibbs
  rw [List.smul_sum]
  conv_lhs => rw [finSample, List.map_map]
  rw [List.map_map]
  congr 1
  apply List.map_congr_left
  intro p _
  simp only [Function.comp_apply]
  rw [show (List.map (fun p : ℝ × (ι → ℝ) => ((a, Flt.fin p.1, p.2) : ℝ × Flt ℝ × (ι → ℝ))) l) = finSample a l from rfl]
  rw [softmax_eq hs, hrow, expFin_weight hkf (hg _ _) (hv _ _), smul_smul]

theorem polarGibbs_sum {V : Type} [AddCommGroup V] [Module ℝ V] (k : V → V → ℝ) (a : ℝ) (l : List (ℝ × V)) (x : V) :
    polarGibbs k a l x = ∑ i : Fin l.length,
      (k x l[i].2 * Real.exp (-(a * l[i].1)) / ∑ j : Fin l.length, k x l[j].2 * Real.exp (-(a * l[j].1))) • l[i].2 := by
  unfold polarGibbs
  rw [← Fin.sum_univ_fun_getElem l (fun p => k x p.2 * Real.exp (-(a * p.1))),
    ← Fin.sum_univ_fun_getElem l (fun p => (k x p.2 * Real.exp (-(a * p.1))) • p.2), Finset.smul_sum]
  refine Finset.sum_congr rfl fun i _ => ?_
  rw [smul_smul, div_eq_inv_mul]
  rfl

/-- The polar counterpart of `computeConsensus_mean`. -/
theorem computeConsensus_polar {K V : Type} [Zero K] [One K] [Neg K] [Add K] [Sub K] [Mul K] [Inv K] [Div K] [NatCast K] [Pow K ℕ] [LinearOrder K] [Add V] [Sub V] [SMul K V] {env : Env K V} {s s' : St K V}
    {r : List (K × Flt K × V) → ℕ → V} (hr : env.cons = .polar r) (h3 : s.cIdx.rows = s.active.length)
    (h : computeConsensus env s = .ok s') :
    ∃ c, s'.cons = some c ∧ c.rows = s.active.length ∧ c.cols = s.cIdx.cols ∧
      ∀ i < s.active.length, ∀ j, c.get i j = r (sampleOf env s i) j := by
  simp only [computeConsensus, bind_ok, pure_ok, evalF, callF] at h
  obtain ⟨xb, hxb, _, _, w, hw, wx, hwx, en, hen, rfl⟩ := h
  obtain ⟨hin, xr, xc, hg⟩ := Mat.gather_ok hxb
  obtain ⟨w1, w2, w3⟩ := Mat.bin_ok hw
  obtain ⟨y1, y2, y3⟩ := Mat.bin_ok hwx
  simp only [alphaActive, Mat.map] at w1 w2 w3
  rw [xr, h3, Mat.bdim_self] at w1
  rw [xc, Mat.bdim_one_left] at w2
  simp only [Option.some.injEq] at w1 w2
  rw [← w1, xr, h3, Mat.bdim_self] at y1
  rw [← w2, xc, Mat.bdim_self] at y2
  simp only [Option.some.injEq] at y1 y2
  simp only
  rw [hr]
  refine ⟨_, rfl, y1.symm, y2.symm, ?_⟩
  intro i hi j
  simp only [Mat.row, sampleOf, Cons.apply]
  congr 1
  rw [← y2]
  apply List.map_congr_left
  intro j hj
  have hj' := List.mem_range.1 hj
  rw [y3, w3]
  rw [Mat.bpos_lt (show i < w.rows by omega), Mat.bpos_lt (show j < w.cols by omega)]
  rw [Mat.bpos_lt (show i < s.active.length by omega), Mat.bpos_lt (show i < xb.rows by omega),
    Mat.bpos_lt (show j < xb.cols by omega), hg]

theorem foldl_max (l : List ℝ) : ∀ b : ℝ, b ≤ l.foldl max b ∧ (∀ t ∈ l, t ≤ l.foldl max b) ∧ (l.foldl max b = b ∨ l.foldl max b ∈ l) := by
  induction l with
  | nil => intro b; simp
  | cons t l ih =>
    intro b
    obtain ⟨h1, h2, h3⟩ := ih (max b t)
    rw [List.foldl_cons]
    refine ⟨le_trans (le_max_left _ _) h1, ?_, ?_⟩
    · intro u hu
      rcases List.mem_cons.1 hu with rfl | hu
      · exact le_trans (le_max_right _ _) h1
      · exact h2 u hu
    · rcases h3 with h3 | h3
      · rw [h3]
        rcases max_choice b t with h | h
        · exact Or.inl h
        · rw [h]; exact Or.inr (List.mem_cons_self)
      · exact Or.inr (List.mem_cons_of_mem _ h3)

theorem le_maxDist (x : Mat (ι → ℝ)) {m i j : ℕ} (hm : m < x.rows) (hi : i < x.cols) (hj : j < x.cols) :
    pdist (x.get m j) (x.get m i) ≤ maxDist x := by
  refine (foldl_max _ 0).2.1 _ ?_
  rw [List.mem_flatMap]
  refine ⟨m, List.mem_range.2 hm, ?_⟩
  rw [List.mem_flatMap]
  exact ⟨i, List.mem_range.2 hi, List.mem_map.2 ⟨j, List.mem_range.2 hj, rfl⟩⟩

theorem maxDist_nonneg (x : Mat (ι → ℝ)) : 0 ≤ maxDist x := (foldl_max _ 0).1

theorem maxDist_attained (x : Mat (ι → ℝ)) : maxDist x = 0 ∨
    ∃ m < x.rows, ∃ i < x.cols, ∃ j < x.cols, maxDist x = pdist (x.get m j) (x.get m i) := by
  rcases (foldl_max ((List.range x.rows).flatMap fun m => (List.range x.cols).flatMap fun i => (List.range x.cols).map fun j =>
    pdist (x.get m j) (x.get m i)) 0).2.2 with h | h
  · exact Or.inl h
  · refine Or.inr ?_
    rw [List.mem_flatMap] at h
    obtain ⟨m, hm, h⟩ := h
    rw [List.mem_flatMap] at h
    obtain ⟨i, hi, h⟩ := h
    obtain ⟨j, hj, h⟩ := List.mem_map.1 h
    exact ⟨m, List.mem_range.1 hm, i, List.mem_range.1 hi, j, List.mem_range.1 hj, h.symm⟩

section
variable {K V : Type} [Zero K] [One K] [Neg K] [Add K] [Sub K] [Mul K] [Inv K] [Div K] [NatCast K] [Pow K ℕ] [LinearOrder K] [Add V] [Sub V] [SMul K V]

theorem cboMove_total_polar {env : Env K V} (hc : env.corr = .none) {s : St K V}
    (hn : ∀ d : Mat V, d.rows = s.pIdx.rows → d.cols = s.pIdx.cols →
      ∃ n, env.noise { s with drift := some d } = .ok n ∧ n.rows = d.rows ∧ n.cols = d.cols) {c : Mat V}
    (hcons : s.cons = some c) (hrows : c.rows = s.pIdx.rows) (hcols : c.cols = s.pIdx.cols)
    (hin : s.pIdx.InBounds s.x.rows s.x.cols) : ∃ s', cboMove env s = .ok s' := by
  unfold cboMove
  rw [hcons]
  simp only [correction, hc]
  rw [Mat.gather_of_inBounds hin]
  simp only [bind, Except.bind, pure, Except.pure]
  rw [Mat.bin_of_dims (r := s.pIdx.rows) (c := s.pIdx.cols) (by simp only; rw [hrows]; exact Mat.bdim_self _)
    (by simp only; rw [hcols]; exact Mat.bdim_self _)]
  simp only
  obtain ⟨n, hn', n1, n2⟩ := hn ⟨s.pIdx.rows, s.pIdx.cols, fun i j =>
      s.x.get (s.pIdx.run (Mat.bpos s.pIdx.rows i)) (s.pIdx.par (Mat.bpos s.pIdx.rows i) (Mat.bpos s.pIdx.cols j)) -
        c.get (Mat.bpos c.rows i) (Mat.bpos c.cols j)⟩ rfl rfl
  rw [hn']
  simp only
  rw [Mat.bin_of_dims (r := s.pIdx.rows) (c := s.pIdx.cols) (by simp only at n1 ⊢; rw [n1]; exact Mat.bdim_self _)
    (by simp only at n2 ⊢; rw [n2]; exact Mat.bdim_self _)]
  simp only
  obtain ⟨x, hx⟩ := Mat.scatterAdd_of_shape (v := ⟨s.pIdx.rows, s.pIdx.cols, fun i j =>
      cboUpdate s.lamda s.dt s.sigma
        (s.x.get (s.pIdx.run (Mat.bpos s.pIdx.rows (Mat.bpos s.pIdx.rows i)))
            (s.pIdx.par (Mat.bpos s.pIdx.rows (Mat.bpos s.pIdx.rows i)) (Mat.bpos s.pIdx.cols (Mat.bpos s.pIdx.cols j))) -
          c.get (Mat.bpos c.rows (Mat.bpos s.pIdx.rows i)) (Mat.bpos c.cols (Mat.bpos s.pIdx.cols j)))
        (n.get (Mat.bpos n.rows i) (Mat.bpos n.cols j))⟩) hin rfl rfl
  rw [hx]
  exact ⟨_, rfl⟩

/-- A step with one consensus point per particle does not raise if the consensus batch is what is moved. -/
theorem cboStep_total_polar {env : Env K V} (hcorr : env.corr = .none) (hmean : ∃ r, env.cons = .polar r)
    (hpost : ∀ s, ∃ x', env.post s = .ok x' ∧ x'.rows = s.x.rows ∧ x'.cols = s.x.cols) (hp : PermOK env) {s : St K V}
    (hw : WF s) (hsi : s.saveInt ≠ 0) (hne : NonEmpty env s) (hbp : s.batched = false ∨ s.batchPartial = true)
    (hn : ∀ (q : St K V) (d : Mat V), q.drift = some d → d.rows = s.active.length → d.cols = (preStep env s).pIdx.cols →
      q.M = s.M → q.energy.rows = s.M → q.energy.cols = s.N →
      (∀ m n, (preStep env s).cIdx.Sel m n → q.energy.get m n = env.f (s.x.get m n)) →
      ∃ n, env.noise q = .ok n ∧ n.rows = d.rows ∧ n.cols = d.cols) :
    ∃ s', step env (cboInner env) s = .ok s' := by
  have hix := preStep_idx env hp hw
  have p1 := preStep_frame env s
  have hpc : (preStep env s).pIdx = (preStep env s).cIdx := by
    obtain ⟨q1, -, q3⟩ := preStep_pIdx env s hw
    cases hb : s.batched with
    | false => exact (q3 hb).1
    | true =>
      rcases hbp with h | h
      · rw [hb] at h; cases h
      · exact q1 hb h
  have pact : (preStep env s).active = s.active := by rw [p1]
  have px : (preStep env s).x = s.x := by rw [p1]
  have pe : (preStep env s).energy = s.energy := by rw [p1]
  obtain ⟨c, hc⟩ := computeConsensus_total (env := env) (s := preStep env s) hne.pre
    (by rw [px, hw.xr, hw.xc]; exact hix.cIn) (by rw [pe, hw.er, hw.ec]; exact hix.cIn)
    (by rw [pact]; exact hix.cRows) (by rw [preStep_batchSize]; exact hix.cCols)
  have cf := computeConsensus_frame hc
  have cfacts := computeConsensus_facts hc
  obtain ⟨r, hr⟩ := hmean
  obtain ⟨cm, hcm, cm1, cm2, -⟩ := computeConsensus_polar hr (by rw [pact]; exact hix.cRows) hc
  have cx : c.x = s.x := by rw [cf]; exact px
  have cp : c.pIdx = (preStep env s).pIdx := by rw [cf]
  obtain ⟨v, hv⟩ := cboMove_total_polar hcorr (fun d h1 h2 => hn _ d rfl (by rw [h1, cp]; exact hix.pRows) (by rw [h2, cp])
      (by simp only; rw [cf]; simp only; rw [p1]) (by simp only; rw [cfacts.er, pe, hw.er])
      (by simp only; rw [cfacts.ec, pe, hw.ec]) (fun m n h => by rw [← px]; exact cfacts.fresh m n h))
    hcm (by rw [cm1, cp, pact]; exact hix.pRows.symm) (by rw [cm2, cp, hpc])
    (by rw [cx, cp, hw.xr, hw.xc]; exact hix.pIn)
  have mok := cboMove_ok env
  have mf := mok.frame _ _ hv
  unfold MoveFrame at mf
  have hin : cboInner env (preStep env s) = .ok v := by
    rw [cboInner_eq]; exact consThen_split.2 ⟨c, hc, hv⟩
  obtain ⟨s', hs'⟩ := postStep_total hpost (s := v)
    (by
      have : v.energy.cols = s.N := by
        have e1 : v.energy = c.energy := by rw [mf]
        rw [e1, cfacts.ec, pe, hw.ec]
      rw [this]; exact hw.pos.ne')
    (by
      have : v.saveInt = s.saveInt := by rw [mf]; simp only; rw [cf]; simp only; rw [p1]
      rw [this]; exact hsi)
    (by
      intro o ho
      have e2 : v.xOld = some s.x := by rw [mf]; simp only; rw [cf]; simp only; rw [p1]
      rw [e2] at ho
      injection ho with ho
      subst ho
      rw [mok.rows _ _ hv, mok.cols _ _ hv, cx]
      exact ⟨rfl, rfl⟩)
  exact ⟨s', step_split.2 ⟨v, hin, hs'⟩⟩

end

end Verif
