import Verif.Props.Polar
import Verif.Props.Hull
import Verif.Spec.PolarFree

/-! One step of `PolarCBO` run by run, without noise. Helper lemmas for C95. -/

set_option linter.unusedSectionVars false

namespace Verif

section
variable {V : Type} [AddCommGroup V] [Module ℝ V]

/-- The quotient of sums lies in every convex set containing the points with a positive kernel value. -/
theorem polarGibbs_mem (k : V → V → ℝ) (a : ℝ) (l : List (ℝ × V)) (x : V) (h0 : ∀ y, 0 ≤ k x y) (hx : ∃ p ∈ l, 0 < k x p.2) {S : Set V} (hS : Convex ℝ S)
    (hm : ∀ p ∈ l, k x p.2 ≠ 0 → p.2 ∈ S) : polarGibbs k a l x ∈ S := by
  have hsum : 0 < ∑ j : Fin l.length, k x l[j].2 * Real.exp (-(a * l[j].1)) := by
    obtain ⟨p, hp, hpos⟩ := hx
    obtain ⟨i, hi, rfl⟩ := List.mem_iff_getElem.1 hp
    refine Finset.sum_pos' (fun j _ => mul_nonneg (h0 _) (Real.exp_pos _).le) ⟨⟨i, hi⟩, Finset.mem_univ _, ?_⟩
    exact mul_pos hpos (Real.exp_pos _)
  rw [polarGibbs_sum]
  set W := ∑ j : Fin l.length, k x l[j].2 * Real.exp (-(a * l[j].1)) with hW
  have hf : ∀ g : Fin l.length → ℝ, (∀ i, k x l[i].2 = 0 → g i = 0) → ∑ i, g i = ∑ i ∈ Finset.univ.filter (fun i : Fin l.length => k x l[i].2 ≠ 0), g i := by
    intro g hg
    rw [Finset.sum_filter_of_ne]
    intro i _ hne h
    exact hne (hg i h)
  have hv : ∑ i : Fin l.length, (k x l[i].2 * Real.exp (-(a * l[i].1)) / W) • l[i].2 =
      ∑ i ∈ Finset.univ.filter (fun i : Fin l.length => k x l[i].2 ≠ 0), (k x l[i].2 * Real.exp (-(a * l[i].1)) / W) • l[i].2 := by
    rw [Finset.sum_filter_of_ne]
    intro i _ hne h
    rw [h] at hne
    simp at hne
  rw [hv]
  refine hS.sum_mem (fun i _ => div_nonneg (mul_nonneg (h0 _) (Real.exp_pos _).le) hsum.le) ?_ ?_
  · rw [← hf _ (fun i h => by rw [h]; simp), ← Finset.sum_div, div_self hsum.ne']
  · intro i hi
    exact hm _ (List.getElem_mem _) (Finset.mem_filter.1 hi).2

/-- Points with the same kernel values have the same consensus point. -/
theorem polarGibbs_congr {k k' : V → V → ℝ} (a : ℝ) {l : List (ℝ × V)} {x y : V} (h : ∀ p ∈ l, k x p.2 = k' y p.2) : polarGibbs k a l x = polarGibbs k' a l y := by
  unfold polarGibbs
  congr 2
  · congr 1
    exact List.map_congr_left fun p hp => by rw [h p hp]
  · exact List.map_congr_left fun p hp => by rw [h p hp]

/-- Kernel values 0 and 1: the Gibbs mean of the points with value 1. -/
theorem polarGibbs_filter (k : V → V → ℝ) (a : ℝ) (l : List (ℝ × V)) (x : V) (P : V → Bool) (h1 : ∀ p ∈ l, P p.2 = true → k x p.2 = 1)
    (h2 : ∀ p ∈ l, P p.2 = false → k x p.2 = 0) : polarGibbs k a l x = gibbs a (l.filter fun p => P p.2) := by
  have key : ∀ {W : Type} [AddCommMonoid W] (g : ℝ × V → W) (g' : ℝ × V → W), (∀ p ∈ l, P p.2 = true → g p = g' p) → (∀ p ∈ l, P p.2 = false → g p = 0) →
      (l.map g).sum = ((l.filter fun p => P p.2).map g').sum := by
    intro W _ g g' e1 e2
    clear h1 h2
    induction l with
    | nil => rfl
    | cons q l ih =>
      have ih := ih (fun p hp => e1 p (List.mem_cons_of_mem _ hp)) (fun p hp => e2 p (List.mem_cons_of_mem _ hp))
      by_cases hq : P q.2 = true
      · rw [List.filter_cons_of_pos (by simpa using hq), List.map_cons, List.sum_cons, List.map_cons, List.sum_cons, ih, e1 q List.mem_cons_self hq]
      · have hq' : P q.2 = false := by simpa using hq
        rw [List.filter_cons_of_neg (by simpa using hq), List.map_cons, List.sum_cons, ih, e2 q List.mem_cons_self hq', zero_add]
  unfold polarGibbs gibbs
  rw [key (fun p => k x p.2 * Real.exp (-(a * p.1))) (fun p => Real.exp (-(a * p.1))) (fun p hp h => by rw [h1 p hp h, one_mul])
      (fun p hp h => by rw [h2 p hp h, zero_mul]),
    key (fun p => (k x p.2 * Real.exp (-(a * p.1))) • p.2) (fun p => (Real.exp (-(a * p.1))) • p.2) (fun p hp h => by rw [h1 p hp h, one_mul])
      (fun p hp h => by rw [h2 p hp h, zero_mul, zero_smul])]

end

variable {ι : Type} [Fintype ι]

/-- The batch of run `m` in slot order: pairs (energy, particle). -/
noncomputable def slotPairs (f : (ι → ℝ) → ℝ) (s s' : St ℝ (ι → ℝ)) (m i : ℕ) : List (ℝ × (ι → ℝ)) :=
  (List.range s'.cIdx.cols).map fun j => (f (s.x.get m (s'.cIdx.par i j)), s.x.get m (s'.cIdx.par i j))

/-- What one step of `PolarCBO` does to run `m`: `c j` is the consensus point of slot `j`, `kq` the kernel to the power of the kernel factor. -/
structure PolarRun (kq : (ι → ℝ) → (ι → ℝ) → ℝ) (f : (ι → ℝ) → ℝ) (ν : ℕ → ℝ → ℕ → ℕ → (ι → ℝ) → ι → ℝ) (p : (ι → ℝ) → ι → ℝ) (s s' : St ℝ (ι → ℝ)) (m i : ℕ)
    (c : ℕ → ι → ℝ) : Prop where
  act : s.active.getD i 0 = m
  cget : ∀ j < s'.cIdx.cols, c j = polarGibbs kq (s.alpha m) (slotPairs f s s' m i) (s.x.get m (s'.cIdx.par i j))
  conv : ∀ j < s'.cIdx.cols, ∀ S : Set (ι → ℝ), Convex ℝ S → (∀ n < s.N, s.x.get m n ∈ S) → c j ∈ S
  par : ∀ j < s'.cIdx.cols, s'.cIdx.par i j < s.N
  moved : ∀ n < s.N, s'.pIdx.Sel m n → ∃ j < s'.pIdx.cols, Mat.bpos s'.cIdx.cols j < s'.cIdx.cols ∧ s'.pIdx.par i j = n ∧
    s'.x.get m n = p (s.x.get m n + cboUpdate s.lamda s.dt s.sigma (s.x.get m n - c (Mat.bpos s'.cIdx.cols j))
      (ν s.draws s.dt i j (s.x.get m n - c (Mat.bpos s'.cIdx.cols j))))
  still : ∀ n < s.N, ¬ s'.pIdx.Sel m n → s'.x.get m n = p (s.x.get m n)

theorem polar_run {env : Env ℝ (ι → ℝ)} {k : Kernel} (hk : k ≠ .taz) {kappa : ℝ} (hkap : 0 < kappa) {mode : KernelMode} {f : (ι → ℝ) → ℝ}
    {ν : ℕ → ℝ → ℕ → ℕ → (ι → ℝ) → ι → ℝ} {p : (ι → ℝ) → ι → ℝ} (hE : PolarStd env k kappa mode f ν p) {s s' : St ℝ (ι → ℝ)} (hw : WF s)
    (hs : step env (cboInner env) s = .ok s') (kv : (ι → ℝ) → (ι → ℝ) → ℝ) (hkv : ∀ x y, k.call kappa 1 x y = .fin (kv x y)) {m : ℕ} (hm : m ∈ s.active)
    {q : ℝ} (hq : mode.factor (s.alpha m) = .ok q) (hq0 : 0 < q) : ∃ i c, PolarRun (fun x y => kv x y ^ q) f ν p s s' m i c := by
  obtain ⟨cm, c1, c2, c3, c4⟩ := polar_step env k hk kappa hkap mode hE.cons f hE.f hE.perm hw hs kv hkv
  obtain ⟨i, hi, hmi⟩ := mem_getD hm
  have hs0 := hs
  rw [cboInner_eq] at hs
  have fr := step_frame (consThen_frame (cboMove_ok env)) hs
  obtain ⟨v, hv, hps⟩ := step_split.1 hs
  obtain ⟨st, hcc, hmv⟩ := consThen_split.1 hv
  have hix := preStep_idx env hE.perm hw
  have p1 := preStep_frame env s
  have cf := computeConsensus_frame hcc
  have cx : st.x = s.x := by rw [cf]; show (preStep env s).x = _; rw [p1]
  have cdt : st.dt = s.dt := by rw [cf]; show (preStep env s).dt = _; rw [p1]
  have clam : st.lamda = s.lamda := by rw [cf]; show (preStep env s).lamda = _; rw [p1]
  have csig : st.sigma = s.sigma := by rw [cf]; show (preStep env s).sigma = _; rw [p1]
  have cdraws : st.draws = s.draws := by rw [cf]; show (preStep env s).draws = _; rw [p1]
  have cp : st.pIdx = s'.pIdx := by rw [fr.pIdx, cf]
  have pr : s'.pIdx.rows = s.active.length := by rw [fr.pIdx]; exact hix.pRows
  have hst : st.cons = some cm := by
    have m1 := (cboMove_ok env).frame _ _ hmv
    unfold MoveFrame at m1
    rw [(postStep_facts hps).frame] at c1
    simp only at c1
    rw [m1] at c1
    exact c1
  have hpost : ∀ n, s'.x.get m n = p (v.x.get m n) := by
    intro n
    have := (postStep_facts hps).post
    rw [hE.post v] at this
    injection this with this
    rw [← this]
    rfl
  -- the move
  unfold cboMove at hmv
  rw [hst] at hmv
  simp only [bind_ok, pure_ok, correction, hE.corr] at hmv
  obtain ⟨xp, hxp, d, hd, _, rfl, n, hnn, u, hu, x, hx, rfl⟩ := hmv
  obtain ⟨_, g1, g2, g3⟩ := Mat.gather_ok hxp
  obtain ⟨d1, d2, d3⟩ := Mat.bin_ok hd
  obtain ⟨u1, u2, u3⟩ := Mat.bin_ok hu
  obtain ⟨n', hn', n1, n2, n3⟩ := hE.noise { st with drift := some d } d rfl
  simp only at hnn hx
  rw [hn'] at hnn
  injection hnn with hnn
  subst hnn
  obtain ⟨-, -, -, x3, x4, hb1, hb2⟩ := Mat.scatterAdd_ok hx
  rw [n1, Mat.bdim_self] at u1
  rw [n2, Mat.bdim_self] at u2
  simp only [Option.some.injEq] at u1 u2
  have hcr : cm.rows = s'.pIdx.rows := by rw [c2, pr]
  rw [g1, cp, hcr, Mat.bdim_self] at d1
  simp only [Option.some.injEq] at d1
  rw [g2, cp] at d2
  rw [cp] at hb1 hb2
  have hdb := Mat.bdim_eq_some d2
  have hdc : d.cols = s'.pIdx.cols := by omega
  have hcc' : cm.cols = s'.pIdx.cols ∨ cm.cols = 1 := by omega
  have hrun : ∀ i < s.active.length, s'.pIdx.run i = s.active.getD i 0 := fun i hi => by rw [fr.pIdx, hix.pRun i hi]
  refine ⟨i, cm.get i, hmi, ?_, ?_, ?_, ?_, ?_⟩
  · intro j hj
    have := (c4 i hi q (by rw [hmi]; exact hq) hq0 j (by rw [c3]; exact hj)).1
    rw [hmi] at this
    simp only at this
    rw [this, c3]
    rfl
  · intro j hj S hS hxS
    exact (c4 i hi q (by rw [hmi]; exact hq) hq0 j (by rw [c3]; exact hj)).2 S hS (by rw [hmi]; exact hxS)
  · intro j hj
    have := hix.cIn i (by rw [hix.cRows]; exact hi) j (by rw [← fr.cIdx]; exact hj)
    rw [fr.cIdx]
    exact this.2
  · intro l hl hsel
    obtain ⟨i', hi', j, hj, e1, e2, e3⟩ := x4 m l (by rw [cp]; exact hsel)
    rw [cp] at hi' hj e1 e2
    have hi'' : i' < s.active.length := by omega
    have hii : i' = i := getD_inj hw.nodup hi'' hi (by rw [← hrun i' hi'', e1, hmi])
    subst hii
    have hslot : Mat.bpos cm.cols j < cm.cols := by
      unfold Mat.bpos
      split_ifs with h1
      · omega
      · omega
    refine ⟨j, hj, by rw [← c3]; exact hslot, e2, ?_⟩
    have hdj : d.get i' j = s.x.get m l - cm.get i' (Mat.bpos cm.cols j) := by
      rw [d3, Mat.bpos_lt (by rw [g1, cp]; exact hi' : i' < xp.rows), g3, cx, cp, Mat.bpos_lt (by omega : i' < cm.rows), e1,
        Mat.bpos_lt (by rw [g2, cp]; exact hj), e2]
    rw [hpost]
    simp only
    rw [e3, Mat.bpos_lt (by omega : i' < u.rows), Mat.bpos_lt (by omega : j < u.cols), u3, Mat.bpos_lt (by omega : i' < d.rows),
      Mat.bpos_lt (by omega : j < d.cols), Mat.bpos_lt (by omega : i' < n'.rows), Mat.bpos_lt (by omega : j < n'.cols), n3, hdj, ← c3]
    simp only [cx, cdt, clam, csig, cdraws]
  · intro l hl hsel
    rw [hpost]
    simp only
    rw [x3 m l (by rw [cp]; exact hsel), cx]

theorem FactorPos.get {mode : KernelMode} {alpha : ℕ → ℝ} (h : FactorPos mode alpha) (m : ℕ) : ∃ q, mode.factor (alpha m) = .ok q ∧ 0 < q := by
  rcases h with rfl | ⟨rfl, h⟩
  · exact ⟨1, rfl, one_pos⟩
  · exact ⟨_, rfl, h m⟩

theorem exists_kv (k : Kernel) (hk : k ≠ .taz) {kappa : ℝ} (hkap : 0 < kappa) : ∃ kv : (ι → ℝ) → (ι → ℝ) → ℝ, ∀ x y, k.call kappa 1 x y = .fin (kv x y) := by
  have hex : ∀ x y : ι → ℝ, ∃ v, k.call kappa 1 x y = .fin v := fun x y => by
    obtain ⟨-, -, -, ⟨v, -, -, e⟩, -⟩ := C49_laws k kappa 1 hkap (fun h => absurd h hk) x y
    exact ⟨v, e⟩
  choose kv hkv using hex
  exact ⟨kv, hkv⟩

theorem cbo_free (lamda dt sigma : ℝ) (h : sigma = 0) (x c z : ι → ℝ) : x + cboUpdate lamda dt sigma (x - c) z = (1 - lamda * dt) • x + (lamda * dt) • c := by
  simp only [cboUpdate, h, zero_smul, add_zero]
  module

theorem polar_unsel {env : Env ℝ (ι → ℝ)} {k : Kernel} {kappa : ℝ} {mode : KernelMode} {f : (ι → ℝ) → ℝ}
    {ν : ℕ → ℝ → ℕ → ℕ → (ι → ℝ) → ι → ℝ} {p : (ι → ℝ) → ι → ℝ} (hE : PolarStd env k kappa mode f ν p) {s s' : St ℝ (ι → ℝ)} (hw : WF s)
    (hs : step env (cboInner env) s = .ok s') {m : ℕ} (hm : m ∉ s.active) (n : ℕ) : s'.x.get m n = p (s.x.get m n) := by
  have fr := step_frame (by rw [cboInner_eq]; exact consThen_frame (cboMove_ok env)) hs
  have hns : ¬ s'.pIdx.Sel m n := by
    rw [fr.pIdx]
    exact fun hs => hm (pSel_active hE.perm hw hs).1
  exact step_unsel (cboMove_ok env) (cboMove_local env) hE.post (by rw [← cboInner_eq]; exact hs) m n hns

theorem polar_hull_step {env : Env ℝ (ι → ℝ)} {k : Kernel} (hk : k ≠ .taz) {kappa : ℝ} (hkap : 0 < kappa) {mode : KernelMode} {f : (ι → ℝ) → ℝ}
    {ν : ℕ → ℝ → ℕ → ℕ → (ι → ℝ) → ι → ℝ} {p : (ι → ℝ) → ι → ℝ} (hE : PolarStd env k kappa mode f ν p) {s s' : St ℝ (ι → ℝ)} (hw : WF s)
    (hn : NoiseFree s.sigma s.lamda s.dt) (hq : FactorPos mode s.alpha) {S : Set (ι → ℝ)} (hS : Convex ℝ S)
    (hpS : ∀ v ∈ S, p v ∈ S) {m : ℕ} (hx : ∀ n < s.N, s.x.get m n ∈ S) (hs : step env (cboInner env) s = .ok s') :
    ∀ n < s.N, s'.x.get m n ∈ S := by
  intro l hl
  by_cases hm : m ∈ s.active
  · obtain ⟨kv, hkv⟩ := exists_kv (ι := ι) k hk hkap
    obtain ⟨q, hq1, hq2⟩ := hq.get m
    obtain ⟨i, c, r⟩ := polar_run hk hkap hE hw hs kv hkv hm hq1 hq2
    by_cases hsel : s'.pIdx.Sel m l
    · obtain ⟨j, -, hj, -, e⟩ := r.moved l hl hsel
      rw [e, cbo_free _ _ _ hn.1]
      exact hpS _ (hS (hx l hl) (r.conv _ hj S hS hx) (by linarith [hn.2.2]) hn.2.1 (by ring))
    · rw [r.still l hl hsel]
      exact hpS _ (hx l hl)
  · rw [polar_unsel hE hw hs hm]
    exact hpS _ (hx l hl)

theorem const_call {kappa : ℝ} (hkap : 0 < kappa) {kv : (ι → ℝ) → (ι → ℝ) → ℝ} (hkv : ∀ x y, Kernel.constant.call kappa 1 x y = .fin (kv x y)) (x y : ι → ℝ) :
    (√(∑ i, (x i - y i) ^ 2) < kappa → kv x y = 1) ∧ (kappa < √(∑ i, (x i - y i) ^ 2) → kv x y = 0) ∧ 0 ≤ kv x y := by
  have h := hkv x y
  simp only [Kernel.call, powInf, pdist, euclid] at h
  set t := √(∑ i, (x i - y i) ^ 2) with ht
  refine ⟨fun hl => ?_, fun hl => ?_, ?_⟩
  · rw [if_pos ((div_lt_one hkap).2 hl)] at h
    simp only [expNeg, neg_zero, Real.exp_zero] at h
    injection h with h
    exact h.symm
  · have h1 : 1 < t / kappa := (one_lt_div hkap).2 hl
    rw [if_neg (by linarith), if_neg h1.ne'] at h
    simp only [expNeg] at h
    injection h with h
    exact h.symm
  · split_ifs at h
    all_goals
      simp only [expNeg] at h
      injection h with h
      rw [← h]
      try positivity

/-- The slot moved by a step in which every moved particle belongs to the batch. -/
theorem polar_slot {env : Env ℝ (ι → ℝ)} {s s' : St ℝ (ι → ℝ)} (hw : WF s) (hs : step env (cboInner env) s = .ok s')
    (hfull : s.batched = false ∨ s.batchPartial = true) : s'.pIdx = s'.cIdx := by
  have fr := step_frame (by rw [cboInner_eq]; exact consThen_frame (cboMove_ok env)) hs
  obtain ⟨h1, h2, h3⟩ := preStep_pIdx env s hw
  rw [fr.pIdx, fr.cIdx]
  by_cases hb : s.batched = true
  · rcases hfull with h | h
    · rw [h] at hb; cases hb
    · exact h1 hb h
  · exact (h3 (by simpa using hb)).1

/-- One step with the constant kernel: every particle moves towards the Gibbs mean of the batch particles in its own set. -/
theorem polar_cluster_step {κ : Type} {env : Env ℝ (ι → ℝ)} {kappa : ℝ} (hkap : 0 < kappa) {mode : KernelMode} {f : (ι → ℝ) → ℝ}
    {ν : ℕ → ℝ → ℕ → ℕ → (ι → ℝ) → ι → ℝ} {p : (ι → ℝ) → ι → ℝ} (hE : PolarStd env .constant kappa mode f ν p) {s s' : St ℝ (ι → ℝ)} (hw : WF s)
    (hn : NoiseFree s.sigma s.lamda s.dt) (hq : FactorPos mode s.alpha) (hfull : s.batched = false ∨ s.batchPartial = true)
    {C : κ → Set (ι → ℝ)} (hC : ∀ a, Convex ℝ (C a)) (hap : Apart kappa C) (hpC : ∀ a, ∀ v ∈ C a, p v ∈ C a) {m : ℕ} (g : ℕ → κ) (hx : ∀ n < s.N, s.x.get m n ∈ C (g n))
    (hs : step env (cboInner env) s = .ok s') : ∀ n < s.N, s'.x.get m n ∈ C (g n) := by
  intro l hl
  by_cases hm : m ∈ s.active
  · obtain ⟨kv, hkv⟩ := exists_kv (ι := ι) .constant (by simp) hkap
    obtain ⟨q, hq1, hq2⟩ := hq.get m
    obtain ⟨i, c, r⟩ := polar_run (by simp) hkap hE hw hs kv hkv hm hq1 hq2
    by_cases hsel : s'.pIdx.Sel m l
    · obtain ⟨j, hjc, hj, hjl, e⟩ := r.moved l hl hsel
      rw [polar_slot hw hs hfull] at hjc hjl
      have hbj : Mat.bpos s'.cIdx.cols j = j := Mat.bpos_lt hjc
      rw [hbj] at e hj
      rw [e, cbo_free _ _ _ hn.1]
      refine hpC _ _ (hC _ (hx l hl) ?_ (by linarith [hn.2.2]) hn.2.1 (by ring))
      rw [r.cget j hj, hjl]
      refine polarGibbs_mem (fun x y => kv x y ^ q) _ _ _ (fun y => Real.rpow_nonneg (const_call hkap hkv _ _).2.2 _) ?_ (hC (g l)) ?_
      · refine ⟨_, List.mem_map.2 ⟨j, List.mem_range.2 hj, rfl⟩, ?_⟩
        simp only [hjl]
        rw [(const_call hkap hkv _ _).1 (by simpa using hkap)]
        simp
      · intro y hy hne
        obtain ⟨j', hj', rfl⟩ := List.mem_map.1 hy
        simp only at hne ⊢
        have hN := r.par j' (List.mem_range.1 hj')
        by_contra hno
        by_cases hg : g (s'.cIdx.par i j') = g l
        · exact hno (hg ▸ hx _ hN)
        · rw [(const_call hkap hkv _ _).2.1 (hap _ _ (Ne.symm hg) _ (hx l hl) _ (hx _ hN)), Real.zero_rpow hq2.ne'] at hne
          exact hne rfl
    · rw [r.still l hl hsel]
      exact hpC _ _ (hx l hl)
  · rw [polar_unsel hE hw hs hm]
    exact hpC _ _ (hx l hl)

/-- One step with the constant kernel, no batches: every particle moves towards the Gibbs mean of the particles in its own set. -/
theorem polar_cluster_mean {κ : Type} [DecidableEq κ] {env : Env ℝ (ι → ℝ)} {kappa : ℝ} (hkap : 0 < kappa) {mode : KernelMode} {f : (ι → ℝ) → ℝ}
    {ν : ℕ → ℝ → ℕ → ℕ → (ι → ℝ) → ι → ℝ} {p : (ι → ℝ) → ι → ℝ} (hE : PolarStd env .constant kappa mode f ν p) {s s' : St ℝ (ι → ℝ)} (hw : WF s)
    (hn : NoiseFree s.sigma s.lamda s.dt) (hq : FactorPos mode s.alpha) (hfull : s.batched = false)
    {C : κ → Set (ι → ℝ)} (hC : ∀ a, Convex ℝ (C a)) (hap : Apart kappa C) (hna : Narrow kappa C) (hpC : ∀ a, ∀ v ∈ C a, p v = v) {m : ℕ} (hm : m ∈ s.active)
    (g : ℕ → κ) (hx : ∀ n < s.N, s.x.get m n ∈ C (g n)) (hs : step env (cboInner env) s = .ok s') (n : ℕ) (hnN : n < s.N) :
    s'.x.get m n = (1 - s.lamda * s.dt) • s.x.get m n + (s.lamda * s.dt) •
      gibbs (s.alpha m) (((List.range s.N).filter fun l => decide (g l = g n)).map fun l => (f (s.x.get m l), s.x.get m l)) := by
  classical
  have fr := step_frame (by rw [cboInner_eq]; exact consThen_frame (cboMove_ok env)) hs
  obtain ⟨kv, hkv⟩ := exists_kv (ι := ι) .constant (by simp) hkap
  obtain ⟨q, hq1, hq2⟩ := hq.get m
  obtain ⟨i, c, r⟩ := polar_run (by simp) hkap hE hw hs kv hkv hm hq1 hq2
  obtain ⟨e1, -, e2, -, e3⟩ := (preStep_pIdx env s hw).2.2 hfull
  have hcols : s'.cIdx.cols = s.N := by rw [fr.cIdx, ← e1, e2]
  have hpar : ∀ i j, s'.cIdx.par i j = j := fun i j => by rw [fr.cIdx, ← e1, e3]
  have hsel : s'.pIdx.Sel m n := by
    rw [fr.pIdx, preStep_pSel hE.perm hw]
    exact ⟨hm, hnN, fun h => by rw [hfull] at h; cases h⟩
  obtain ⟨j, hjc, hj, hjl, e⟩ := r.moved n hnN hsel
  rw [polar_slot hw hs (Or.inl hfull)] at hjc hjl
  have hbj : Mat.bpos s'.cIdx.cols j = j := Mat.bpos_lt hjc
  rw [hbj] at e hj
  rw [hpar] at hjl
  subst hjl
  have hmem : ∀ l < s.N, (s.x.get m l ∈ C (g j) ↔ g l = g j) := by
    intro l hl
    refine ⟨fun h => ?_, fun h => h ▸ hx l hl⟩
    by_contra hne
    have := hap _ _ hne _ (hx l hl) _ h
    simp only [sub_self] at this
    norm_num at this
    linarith
  have hc : c j = gibbs (s.alpha m) (((List.range s.N).filter fun l => decide (g l = g j)).map fun l => (f (s.x.get m l), s.x.get m l)) := by
    rw [r.cget j hj, hpar, polarGibbs_filter _ _ _ _ (fun v => decide (v ∈ C (g j)))]
    · congr 1
      simp only [slotPairs, hcols, hpar]
      rw [List.filter_map]
      congr 1
      apply List.filter_congr
      intro l hl
      simp only [Function.comp_apply, hmem l (List.mem_range.1 hl)]
    · intro y hy hP
      obtain ⟨j', hj', rfl⟩ := List.mem_map.1 hy
      simp only [decide_eq_true_eq] at hP ⊢
      rw [(const_call hkap hkv _ _).1 (hna (g j) _ (hx j hnN) _ hP), Real.one_rpow]
    · intro y hy hP
      obtain ⟨j', hj', rfl⟩ := List.mem_map.1 hy
      simp only [decide_eq_false_iff_not] at hP ⊢
      have hN := r.par j' (List.mem_range.1 hj')
      rw [hmem _ hN] at hP
      rw [(const_call hkap hkv _ _).2.1 (hap _ _ (Ne.symm hP) _ (hx j hnN) _ (hx _ hN)), Real.zero_rpow hq2.ne']
  have hcC : c j ∈ C (g j) := by
    rw [r.cget j hj, hpar]
    refine polarGibbs_mem (fun x y => kv x y ^ q) _ _ _ (fun y => Real.rpow_nonneg (const_call hkap hkv _ _).2.2 _) ?_ (hC (g j)) ?_
    · refine ⟨_, List.mem_map.2 ⟨j, List.mem_range.2 hj, rfl⟩, ?_⟩
      simp only [hpar]
      rw [(const_call hkap hkv _ _).1 (by simpa using hkap)]
      simp
    · intro y hy hne
      obtain ⟨j', hj', rfl⟩ := List.mem_map.1 hy
      simp only at hne ⊢
      have hN := r.par j' (List.mem_range.1 hj')
      rw [hmem _ hN]
      by_contra hno
      rw [(const_call hkap hkv _ _).2.1 (hap _ _ (Ne.symm hno) _ (hx j hnN) _ (hx _ hN)), Real.zero_rpow hq2.ne'] at hne
      exact hne rfl
  rw [e, cbo_free _ _ _ hn.1, ← hc]
  exact hpC _ _ (hC _ (hx j hnN) hcC (by linarith [hn.2.2]) hn.2.1 (by ring))

/-- `batched` and `batch_partial` never change. -/
theorem exec_batched {env : Env ℝ (ι → ℝ)} {inner : St ℝ (ι → ℝ) → Except Err (St ℝ (ι → ℝ))} (hi : InnerFrame inner) {o : Op} {s s' : St ℝ (ι → ℝ)}
    (h : exec env inner o s = .ok s') : s'.batched = s.batched ∧ s'.batchPartial = s.batchPartial := by
  cases o with
  | step => have f := step_frame hi h; exact ⟨f.batched, f.batchPartial⟩
  | select => have f := select_frame h; rw [f]; exact ⟨rfl, rfl⟩
  | sched => have f := sched_frame h; rw [f]; exact ⟨rfl, rfl⟩
  | reset =>
    simp only [exec] at h
    injection h with h
    subst h
    exact ⟨rfl, rfl⟩

/-- The parameters stay in a set `Q` that the scheduler keeps. -/
theorem exec_params {env : Env ℝ (ι → ℝ)} {inner : St ℝ (ι → ℝ) → Except Err (St ℝ (ι → ℝ))} (hi : InnerFrame inner)
    {Q : (ℕ → ℝ) → ℝ → ℝ → ℝ → Prop} (hsched : ∀ q r, Q q.alpha q.sigma q.lamda q.dt → env.sched q = .ok r → Q r.alpha r.sigma r.lamda r.dt)
    {o : Op} {s s' : St ℝ (ι → ℝ)} (hs : Q s.alpha s.sigma s.lamda s.dt) (h : exec env inner o s = .ok s') : Q s'.alpha s'.sigma s'.lamda s'.dt := by
  cases o with
  | step => have f := step_frame hi h; rw [f.alpha, f.sigma, f.lamda, f.dt]; exact hs
  | select => have f := select_frame h; rw [f]; exact hs
  | sched =>
    simp only [exec, schedUpdate, bind_ok, pure_ok] at h
    obtain ⟨r, hr, rfl⟩ := h
    exact hsched s r hs hr
  | reset =>
    simp only [exec] at h
    injection h with h
    subst h
    exact hs

end Verif
