import Verif.Proofs.Run
import Verif.Spec.Batch
import Mathlib.Algebra.BigOperators.Intervals
import Mathlib.Algebra.Order.BigOperators.Group.Finset
import Mathlib.Tactic.Ring

/-! The index pool, in closed form. Helper lemmas. -/

set_option linter.unusedSectionVars false

namespace Verif

variable {K V : Type} [Zero K] [One K] [Neg K] [Add K] [Sub K] [Mul K] [Inv K] [Div K] [NatCast K] [Pow K ℕ] [LinearOrder K] [Add V] [Sub V] [SMul K V]

theorem PermBij.ok {env : Env K V} (h : PermBij env) : PermOK env := h.lt

/-- The stream of indices of run `m` in `concat` mode: the permutations one after the other. -/
def concatStream (env : Env K V) (N m k : ℕ) : ℕ := env.perm N (k / N) m (k % N)

/-- Slot `j` of batch number `i` of run `m`. -/
def concatBatch (env : Env K V) (N b m i j : ℕ) : ℕ := concatStream env N m (i * b + j)

/-- Slot `j` of batch number `i` of run `m` in `resample` mode. -/
def resampleBatch (env : Env K V) (N b m i j : ℕ) : ℕ := env.perm N (i / (N / b)) m (i % (N / b) * b + j)

/-- The pool after `i` batches. -/
structure PoolInv (env : Env K V) (i : ℕ) (s : St K V) : Prop where
  concat : s.batched = true → s.batchConcat = true →
    s.perms * s.N = i * s.batchSize + s.indices.cols ∧
    ∀ m < s.M, ∀ j < s.indices.cols, s.indices.get m j = concatStream env s.N m (i * s.batchSize + j)
  resample : s.batched = true → s.batchConcat = false → ∃ e t, t ≤ s.N / s.batchSize ∧
    i = e * (s.N / s.batchSize) + t ∧ s.perms = e + 1 ∧ s.indices.cols = s.N - t * s.batchSize ∧
    ∀ m < s.M, ∀ j < s.indices.cols, s.indices.get m j = env.perm s.N e m (t * s.batchSize + j)

/-- The particle a run gets in slot `j` of batch number `i`. -/
def theBatch (env : Env K V) (s : St K V) (m i j : ℕ) : ℕ :=
  if s.batchConcat then concatBatch env s.N s.batchSize m i j else resampleBatch env s.N s.batchSize m i j

theorem PoolInv.congr {env : Env K V} {i : ℕ} {s s' : St K V} (h : PoolInv env i s) (e1 : s'.batched = s.batched)
    (e2 : s'.batchConcat = s.batchConcat) (e3 : s'.perms = s.perms) (e4 : s'.N = s.N)
    (e5 : s'.batchSize = s.batchSize) (e6 : s'.indices = s.indices) (e7 : s'.M = s.M) : PoolInv env i s' := by
  refine ⟨?_, ?_⟩
  · rw [e1, e2, e3, e4, e5, e6, e7]; exact h.concat
  · rw [e1, e2, e3, e4, e5, e6, e7]; exact h.resample

/-- One draw of batches. -/
theorem pool_setBatch {env : Env K V} {i : ℕ} {s : St K V} (hw : WF s) (hb1 : 1 ≤ s.batchSize)
    (hi : PoolInv env i s) :
    PoolInv env (i + 1) (setBatch env s) ∧
    (s.batched = true → ∀ r < s.active.length, ∀ j < s.batchSize,
      (setBatch env s).cIdx.par r j = theBatch env s (s.active.getD r 0) i j) := by
  by_cases hb : s.batched = true
  swap
  · have e : setBatch env s = setBatchUnbatched s := by unfold setBatch; rw [if_neg hb]
    rw [e]
    refine ⟨⟨fun h => absurd h hb, fun h => absurd h hb⟩, fun h => absurd h hb⟩
  obtain ⟨hlt, hir, -⟩ := hw.bat hb
  have e : setBatch env s = setBatchBatched env s := by unfold setBatch; rw [if_pos hb]
  rw [e]
  have hpar : ∀ r j, (setBatchBatched env s).cIdx.par r j =
      (refill env s).indices.get ((refill env s).active.getD r 0) j := fun r j => rfl
  have hact : (refill env s).active = s.active := by unfold refill; split_ifs <;> rfl
  have hbs : (refill env s).batchSize = s.batchSize := by unfold refill; split_ifs <;> rfl
  have hpm : (setBatchBatched env s).perms = (refill env s).perms := rfl
  have hind : (setBatchBatched env s).indices = (refill env s).indices.dropCols s.batchSize := by
    rw [← hbs]; rfl
  have eN : (setBatchBatched env s).N = s.N := by
    simp only [setBatchBatched]; unfold refill; split_ifs <;> rfl
  have eM : (setBatchBatched env s).M = s.M := by
    simp only [setBatchBatched]; unfold refill; split_ifs <;> rfl
  have eB : (setBatchBatched env s).batchSize = s.batchSize := by
    simp only [setBatchBatched]; exact hbs
  have eC : (setBatchBatched env s).batchConcat = s.batchConcat := by
    simp only [setBatchBatched]; unfold refill; split_ifs <;> rfl
  have hrun : ∀ r < s.active.length, s.active.getD r 0 < s.M := fun r hr => hw.act_lt (getD_mem hr)
  by_cases hc : s.batchConcat = true
  · obtain ⟨h1, h2⟩ := hi.concat hb hc
    -- the pool after the refill
    have key : (refill env s).perms * s.N = i * s.batchSize + (refill env s).indices.cols ∧
        s.batchSize ≤ (refill env s).indices.cols ∧
        ∀ m < s.M, ∀ j < (refill env s).indices.cols,
          (refill env s).indices.get m j = concatStream env s.N m (i * s.batchSize + j) := by
      unfold refill
      split_ifs with hsh
      · simp only [Mat.concatCols, freshIndices]
        refine ⟨by rw [add_mul, h1]; ring, by omega, ?_⟩
        intro m hm j hj
        split_ifs with hj'
        · exact h2 m hm j hj'
        · unfold concatStream
          have hN := hw.pos
          have : i * s.batchSize + j = (j - s.indices.cols) + s.perms * s.N := by omega
          rw [this, Nat.add_mul_div_right _ _ hN, Nat.add_mul_mod_self_right,
            Nat.div_eq_of_lt (by omega), Nat.mod_eq_of_lt (by omega), zero_add]
      · exact ⟨h1, by omega, h2⟩
    obtain ⟨k1, k2, k3⟩ := key
    refine ⟨⟨fun _ _ => ?_, fun _ h => ?_⟩, fun _ r hr j hj => ?_⟩
    · rw [hpm, hind, eN, eM, eB]
      simp only [Mat.dropCols]
      refine ⟨?_, ?_⟩
      · rw [k1, add_mul]; omega
      · intro m hm j hj
        rw [k3 m hm (j + s.batchSize) (by omega)]
        congr 1
        ring
    · rw [eC, hc] at h; cases h
    · rw [hpar, hact, k3 _ (hrun r hr) j (by omega)]
      unfold theBatch
      rw [if_pos hc]; rfl
  · have hc' : s.batchConcat = false := by simpa using hc
    obtain ⟨e', t, ht, hi', hpe, hcols, hget⟩ := hi.resample hb hc'
    have hq : 1 ≤ s.N / s.batchSize := (Nat.one_le_div_iff hb1).2 hlt.le
    have hqN : s.N / s.batchSize * s.batchSize ≤ s.N := Nat.div_mul_le_self _ _
    have hNlt : s.N < (s.N / s.batchSize + 1) * s.batchSize := by
      rw [mul_comm]; exact Nat.lt_mul_div_succ s.N hb1
    have key : ∃ e t, t < s.N / s.batchSize ∧ i = e * (s.N / s.batchSize) + t ∧
        (refill env s).perms = e + 1 ∧ (refill env s).indices.cols = s.N - t * s.batchSize ∧
        ∀ m < s.M, ∀ j < (refill env s).indices.cols,
          (refill env s).indices.get m j = env.perm s.N e m (t * s.batchSize + j) := by
      unfold refill
      split_ifs with hsh
      · -- the pool is exhausted: t = q
        have htq : t = s.N / s.batchSize := by
          rcases Nat.lt_or_ge t (s.N / s.batchSize) with hl | hl
          · exfalso
            have : (t + 1) * s.batchSize ≤ s.N / s.batchSize * s.batchSize := Nat.mul_le_mul_right _ hl
            rw [add_mul, one_mul] at this
            omega
          · omega
        refine ⟨e' + 1, 0, by omega, by rw [hi', htq]; ring, by simp only; rw [hpe], ?_, ?_⟩
        · simp [freshIndices]
        · intro m hm j hj
          simp only [freshIndices] at hj ⊢
          rw [hpe]; simp
      · have htl : t < s.N / s.batchSize := by
          rcases Nat.lt_or_ge t (s.N / s.batchSize) with hl | hl
          · exact hl
          · exfalso
            have htq : t = s.N / s.batchSize := by omega
            rw [htq] at hcols
            rw [add_mul, one_mul] at hNlt
            omega
        exact ⟨e', t, htl, hi', hpe, hcols, hget⟩
    obtain ⟨e2, t2, k1, k2, k3, k4, k5⟩ := key
    have hle : (t2 + 1) * s.batchSize ≤ s.N := le_trans (Nat.mul_le_mul_right _ k1) hqN
    rw [add_mul, one_mul] at hle
    refine ⟨⟨fun _ h => ?_, fun _ _ => ?_⟩, fun _ r hr j hj => ?_⟩
    · rw [eC, hc'] at h; cases h
    · rw [hpm, hind, eN, eM, eB]
      refine ⟨e2, t2 + 1, k1, by omega, k3, ?_, ?_⟩
      · simp only [Mat.dropCols]
        rw [k4, add_mul]; omega
      · intro m hm j hj
        simp only [Mat.dropCols] at hj ⊢
        rw [k5 m hm (j + s.batchSize) (by omega)]
        congr 1
        ring
    · rw [hpar, hact, k5 _ (hrun r hr) j (by omega)]
      unfold theBatch resampleBatch
      rw [if_neg hc]
      have hd : i / (s.N / s.batchSize) = e2 := by
        rw [k2, add_comm, Nat.add_mul_div_right _ _ (by omega), Nat.div_eq_of_lt k1, zero_add]
      have hmod : i % (s.N / s.batchSize) = t2 := by
        rw [k2, add_comm, Nat.add_mul_mod_self_right, Nat.mod_eq_of_lt k1]
      rw [hd, hmod]

theorem pool_preStep {env : Env K V} {i : ℕ} {s : St K V} (hw : WF s) (hb1 : 1 ≤ s.batchSize)
    (hi : PoolInv env i s) :
    PoolInv env (i + 1) (preStep env s) ∧
    (s.batched = true → ∀ r < s.active.length, ∀ j < s.batchSize,
      (preStep env s).cIdx.par r j = theBatch env s (s.active.getD r 0) i j) := by
  have hw' : WF { s with xOld := some s.x } := ⟨hw.xr, hw.xc, hw.er, hw.ec, hw.pos, hw.act, hw.unb, hw.bat⟩
  exact pool_setBatch hw' hb1 (hi.congr rfl rfl rfl rfl rfl rfl rfl)

theorem pool_step {env : Env K V} {inner : St K V → Except Err (St K V)} (hf : InnerFrame inner)
    {i : ℕ} {s s' : St K V} (hw : WF s) (hb1 : 1 ≤ s.batchSize) (hi : PoolInv env i s)
    (h : step env inner s = .ok s') :
    PoolInv env (i + 1) s' ∧ (s.batched = true → ∀ r < s.active.length, ∀ j < s.batchSize,
      s'.cIdx.par r j = theBatch env s (s.active.getD r 0) i j) := by
  have q := step_frame hf h
  obtain ⟨h1, h2⟩ := pool_preStep hw hb1 hi
  have p1 := preStep_frame env s
  refine ⟨h1.congr ?_ ?_ ?_ ?_ ?_ ?_ ?_, ?_⟩
  · rw [q.batched, p1]
  · rw [q.batchConcat, p1]
  · rw [q.perms]
  · rw [q.N, p1]
  · rw [q.batchSize, p1]
  · rw [q.indices]
  · rw [q.M, p1]
  · rw [q.cIdx]; exact h2

theorem pool_init {env : Env K V} {a : Args K V} {s : St K V} (h : init env a = .ok s) :
    PoolInv env 0 s := by
  unfold init at h
  split_ifs at h with h0
  all_goals
    injection h with h
    subst h
    refine ⟨fun hb _ => ?_, fun hb _ => ?_⟩
    · have hne : batchSizeOf a.batchSize a.x0.cols ≠ a.x0.cols :=
        of_decide_eq_true (p := batchSizeOf a.batchSize a.x0.cols ≠ a.x0.cols) hb
      simp only [initBatch, initHistory, checkFDims, callF, baseSt, hne, freshIndices, if_false]
      refine ⟨by simp, ?_⟩
      intro m _ j hj
      unfold concatStream
      simp [Nat.div_eq_of_lt hj, Nat.mod_eq_of_lt hj]
    · have hne : batchSizeOf a.batchSize a.x0.cols ≠ a.x0.cols :=
        of_decide_eq_true (p := batchSizeOf a.batchSize a.x0.cols ≠ a.x0.cols) hb
      simp only [initBatch, initHistory, checkFDims, callF, baseSt, hne, freshIndices, if_false]
      exact ⟨0, 0, Nat.zero_le _, by simp, by simp, by simp, fun m _ j _ => by simp⟩

theorem pool_execAll {env : Env K V} {move : St K V → Except Err (St K V)} (hm : MoveOK move)
    (hpost : PostOK env) (hp : PermOK env) : ∀ (ops : List Op) (s s' : St K V) (i : ℕ), WF s →
    1 ≤ s.batchSize → PoolInv env i s → execAll env (consThen env move) ops s = .ok s' →
    WF s' ∧ PoolInv env (i + nSteps ops) s' ∧ s'.batchSize = s.batchSize ∧ s'.batched = s.batched ∧
      s'.batchConcat = s.batchConcat ∧ s'.N = s.N ∧ s'.M = s.M
  | [], s, s', i, hw, hb, hi, h => by
    simp only [execAll] at h
    injection h with h
    subst h
    exact ⟨hw, hi, rfl, rfl, rfl, rfl, rfl⟩
  | o :: l, s, s', i, hw, hb, hi, h => by
    simp only [execAll, bind_ok] at h
    obtain ⟨q, hq, hl⟩ := h
    have hwq := exec_wf hm hpost hp hw hq
    cases o with
    | step =>
      have f := step_frame (consThen_frame hm) hq
      have pq := (pool_step (consThen_frame hm) hw hb hi hq).1
      have := pool_execAll hm hpost hp l q s' (i + 1) hwq (by rw [f.batchSize]; exact hb) pq hl
      rw [f.batchSize, f.batched, f.batchConcat, f.N, f.M] at this
      have e : i + nSteps (Op.step :: l) = i + 1 + nSteps l := by
        simp only [nSteps, List.count_cons_self]; omega
      rw [e]; exact this
    | select =>
      have f := select_frame hq
      have pq : PoolInv env i q := hi.congr (by rw [f]) (by rw [f]) (by rw [f]) (by rw [f]) (by rw [f])
        (by rw [f]) (by rw [f])
      have := pool_execAll hm hpost hp l q s' i hwq (by rw [f]; exact hb) pq hl
      have e : nSteps (Op.select :: l) = nSteps l := by simp [nSteps]
      rw [e]
      rw [f] at this
      exact this
    | sched =>
      have f := sched_frame hq
      have pq : PoolInv env i q := hi.congr (by rw [f]) (by rw [f]) (by rw [f]) (by rw [f]) (by rw [f])
        (by rw [f]) (by rw [f])
      have := pool_execAll hm hpost hp l q s' i hwq (by rw [f]; exact hb) pq hl
      have e : nSteps (Op.sched :: l) = nSteps l := by simp [nSteps]
      rw [e]
      rw [f] at this
      exact this
    | reset =>
      simp only [exec] at hq
      injection hq with hq
      subst hq
      have pq : PoolInv env i (reset s) := hi.congr rfl rfl rfl rfl rfl rfl rfl
      have := pool_execAll hm hpost hp l (reset s) s' i hwq hb pq hl
      have e : nSteps (Op.reset :: l) = nSteps l := by simp [nSteps]
      rw [e]; exact this


/-! ### Counting uses -/

theorem perm_count {env : Env K V} (hp : PermBij env) {N c m n : ℕ} (hn : n < N) :
    ∑ j ∈ Finset.range N, (if env.perm N c m j = n then 1 else 0) = 1 := by
  have hinj : Set.InjOn (env.perm N c m) (Finset.range N : Set ℕ) := by
    intro i hi j hj h
    exact hp.inj N c m i j (by simpa using hi) (by simpa using hj) h
  have hmap : ∀ j ∈ Finset.range N, env.perm N c m j ∈ Finset.range N := fun j hj =>
    Finset.mem_range.2 (hp.lt N c m j (Finset.mem_range.1 hj))
  have himg : (Finset.range N).image (env.perm N c m) = Finset.range N := by
    apply Finset.eq_of_subset_of_card_le
    · intro x hx
      obtain ⟨j, hj, rfl⟩ := Finset.mem_image.1 hx
      exact hmap j hj
    · rw [Finset.card_image_of_injOn hinj]
  have : n ∈ (Finset.range N).image (env.perm N c m) := by rw [himg]; exact Finset.mem_range.2 hn
  obtain ⟨j, hj, hjn⟩ := Finset.mem_image.1 this
  rw [Finset.sum_eq_single j]
  · rw [if_pos hjn]
  · intro i hi hij
    rw [if_neg]
    intro h
    exact hij (hinj (by simpa using hi) (by simpa using hj) (h.trans hjn.symm))
  · intro h; exact absurd hj h

theorem perm_count_le {env : Env K V} (hp : PermBij env) {N c m n r : ℕ} (hn : n < N) (hr : r ≤ N) :
    ∑ j ∈ Finset.range r, (if env.perm N c m j = n then 1 else 0) ≤ 1 := by
  refine le_trans ?_ (perm_count (c := c) (m := m) hp hn).le
  exact Finset.sum_le_sum_of_subset (Finset.range_mono hr)

theorem stream_count {env : Env K V} (hp : PermBij env) {N m n : ℕ} (hn : n < N) (q r : ℕ) (hr : r ≤ N) :
    q ≤ ∑ l ∈ Finset.range (q * N + r), (if concatStream env N m l = n then 1 else 0) ∧
    ∑ l ∈ Finset.range (q * N + r), (if concatStream env N m l = n then 1 else 0) ≤ q + 1 ∧
    (r = 0 → ∑ l ∈ Finset.range (q * N + r), (if concatStream env N m l = n then 1 else 0) = q) := by
  have hN : 0 < N := by omega
  have full : ∀ q, ∑ l ∈ Finset.range (q * N), (if concatStream env N m l = n then 1 else 0) = q := by
    intro q
    induction q with
    | zero => simp
    | succ q ih =>
      rw [add_mul, one_mul, Finset.sum_range_add, ih]
      congr 1
      refine Eq.trans ?_ (perm_count (c := q) (m := m) hp hn)
      apply Finset.sum_congr rfl
      intro j hj
      have hj' := Finset.mem_range.1 hj
      unfold concatStream
      rw [add_comm, Nat.add_mul_div_right _ _ hN, Nat.add_mul_mod_self_right, Nat.div_eq_of_lt hj',
        Nat.mod_eq_of_lt hj', zero_add]
  have rest : ∑ l ∈ Finset.range r, (if concatStream env N m (q * N + l) = n then 1 else 0) ≤ 1 := by
    refine le_trans (le_of_eq ?_) (perm_count_le (c := q) (m := m) hp hn hr)
    apply Finset.sum_congr rfl
    intro j hj
    have hj' : j < N := lt_of_lt_of_le (Finset.mem_range.1 hj) hr
    unfold concatStream
    rw [add_comm, Nat.add_mul_div_right _ _ hN, Nat.add_mul_mod_self_right, Nat.div_eq_of_lt hj',
      Nat.mod_eq_of_lt hj', zero_add]
  rw [Finset.sum_range_add, full]
  refine ⟨by omega, by omega, fun h => by subst h; simp⟩

theorem usage_concat (env : Env K V) (N b m k n : ℕ) :
    usage (concatBatch env N b m) b k n =
      ∑ l ∈ Finset.range (k * b), (if concatStream env N m l = n then 1 else 0) := by
  unfold usage
  induction k with
  | zero => simp
  | succ k ih =>
    rw [Finset.sum_range_succ, ih, add_mul, one_mul, Finset.sum_range_add, Finset.card_filter]
    rfl

end Verif
