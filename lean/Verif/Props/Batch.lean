import Verif.Proofs.Batch
import Verif.Spec.Example
import Mathlib.Data.Nat.ModEq

/-! Properties C14 and C15: mini-batches. -/

set_option linter.unusedSectionVars false

namespace Verif

variable {K V : Type} [Zero K] [One K] [Neg K] [Add K] [Sub K] [Mul K] [Inv K] [Div K] [NatCast K] [Pow K ℕ] [LinearOrder K] [Add V] [Sub V] [SMul K V]

theorem init_batchSize {env : Env K V} {a : Args K V} {s : St K V} (h : init env a = .ok s) :
    s.batchSize = batchSizeOf a.batchSize s.N ∧ s.N = a.x0.cols ∧ s.M = a.x0.rows ∧
      s.batchConcat = a.batchConcat := by
  unfold init at h
  split_ifs at h with h0
  all_goals
    injection h with h
    subst h
    exact ⟨rfl, rfl, rfl, rfl⟩

/-- **C14.** In every step of every execution (any interleaving of steps, checks, scheduler updates and resets, any
permutation outcomes), the batch used for run `m` consists of exactly `min(size, N)` particle indices, all smaller
than `N`; in the default `resample` mode they are pairwise distinct. Here `cIdx` is the index used by the step that led
to `s'`: row `r` belongs to the `r`-th active run. -/
theorem C14_batch_valid (env : Env K V) (move : St K V → Except Err (St K V)) (hm : MoveOK move)
    (hpost : PostOK env) (hp : PermBij env) (a : Args K V) (size : ℕ) (hsz : a.batchSize = some size)
    (h1 : 1 ≤ size) (s₀ s s' : St K V) (ops : List Op)
    (h0 : init env a = .ok s₀) (h : execAll env (consThen env move) ops s₀ = .ok s)
    (hs : step env (consThen env move) s = .ok s') :
    s'.cIdx.rows = s.active.length ∧ s'.cIdx.cols = min size s.N ∧
    (∀ r < s.active.length, s'.cIdx.run r = s.active.getD r 0 ∧
      (∀ j < min size s.N, s'.cIdx.par r j < s.N) ∧
      (s.batchConcat = false → ∀ j < min size s.N, ∀ j' < min size s.N,
        s'.cIdx.par r j = s'.cIdx.par r j' → j = j')) := by
  have hw0 := init_wf hp.ok h0
  obtain ⟨b1, b2, b3, b4⟩ := init_batchSize h0
  have hbs0 : s₀.batchSize = min size s₀.N := by rw [b1, hsz]; rfl
  have hN := hw0.pos
  obtain ⟨hw, hpool, e1, e2, e3, e4, e5⟩ := pool_execAll hm hpost hp.ok ops s₀ s 0 hw0 (by omega) (pool_init h0) h
  have hbs : s.batchSize = min size s.N := by rw [e1, e4]; exact hbs0
  have q := step_frame (consThen_frame hm) hs
  have hix := preStep_idx env hp.ok hw
  have hb1 : 1 ≤ s.batchSize := by have := hw.pos; omega
  have hps := (pool_step (consThen_frame hm) hw hb1 hpool hs).2
  rw [q.cIdx]
  refine ⟨hix.cRows, by rw [hix.cCols, hbs], fun r hr => ⟨hix.cRun r hr, fun j hj => ?_, fun hc j hj j' hj' he => ?_⟩⟩
  · exact (hix.cIn r (by rw [hix.cRows]; exact hr) j (by rw [hix.cCols, hbs]; exact hj)).2
  · by_cases hb : s.batched = true
    · have hlt := (hw.bat hb).1
      rw [← q.cIdx, hps hb r hr j (by omega), hps hb r hr j' (by omega)] at he
      unfold theBatch resampleBatch at he
      simp only [hc, Bool.false_eq_true, if_false] at he
      have hqN : s.N / s.batchSize * s.batchSize ≤ s.N := Nat.div_mul_le_self _ _
      have hq : 1 ≤ s.N / s.batchSize := (Nat.one_le_div_iff hb1).2 hlt.le
      have hlt2 := Nat.mod_lt (0 + nSteps ops) hq
      have hle : ((0 + nSteps ops) % (s.N / s.batchSize) + 1) * s.batchSize ≤ s.N :=
        le_trans (Nat.mul_le_mul_right _ hlt2) hqN
      rw [add_mul, one_mul] at hle
      have := hp.inj _ _ _ _ _ (by omega) (by omega) he
      omega
    · have hpar : ∀ r j, (preStep env s).cIdx.par r j = j := by
        intro r j
        unfold preStep setBatch
        rw [if_neg hb]
        unfold setBatchUnbatched
        simp only
        split_ifs <;> rfl
      rw [hpar, hpar] at he
      exact he

/-- C14: hypotheses met by the batched example; the second step uses particles 2 and 0 in run 1. -/
example : PermBij Example.env ∧ (Example.args [.maxIt (some 4)] (some 2)).batchSize = some 2 ∧
    (Example.final [.maxIt (some 2)] (some 2) 9).cIdx.par 1 0 = 2 ∧
    (Example.final [.maxIt (some 2)] (some 2) 9).cIdx.par 1 1 = 0 := by
  refine ⟨⟨?_, ?_⟩, rfl, by decide +kernel, by decide +kernel⟩
  · intro N c m j hj
    simp only [Example.env, if_pos hj]
    exact Nat.mod_lt _ (by omega)
  · intro N c m i j hi hj h
    simp only [Example.env, if_pos hi, if_pos hj] at h
    have h' : (i + (c + m)) % N = (j + (c + m)) % N := by simpa [add_assoc] using h
    have := Nat.ModEq.add_right_cancel' (c + m) h'
    rwa [Nat.ModEq, Nat.mod_eq_of_lt hi, Nat.mod_eq_of_lt hj] at this

/-- **C15, `concat` mode.** There is one sequence `B m i j` (slot `j` of batch number `i` of run `m`) such that in every
execution the batch used by the step number `i` for an active run `m` is `B m i`; and for all `k`, each particle occurs
in the first `k` batches at least `⌊k·b/N⌋` and at most `⌊k·b/N⌋ + 1` times (exactly `k·b/N` times when `N` divides `k·b`), so
usage counts of two particles never differ by more than one. Epochs: the first `N` slots are a permutation, the next `N`
another one, and so on. -/
theorem C15_concat_fair (env : Env K V) (move : St K V → Except Err (St K V)) (hm : MoveOK move)
    (hpost : PostOK env) (hp : PermBij env) (a : Args K V) (b : ℕ) (hsz : a.batchSize = some b)
    (h1 : 1 ≤ b) (hlt : b < a.x0.cols) (hc : a.batchConcat = true) :
    ∃ B : ℕ → ℕ → ℕ → ℕ,
      (∀ (s₀ s s' : St K V) (ops : List Op), init env a = .ok s₀ →
        execAll env (consThen env move) ops s₀ = .ok s → step env (consThen env move) s = .ok s' →
        ∀ r < s.active.length, ∀ j < b, s'.cIdx.par r j = B (s.active.getD r 0) (nSteps ops) j) ∧
      (∀ m k n, n < a.x0.cols →
        k * b / a.x0.cols ≤ usage (B m) b k n ∧ usage (B m) b k n ≤ k * b / a.x0.cols + 1 ∧
        (a.x0.cols ∣ k * b → usage (B m) b k n = k * b / a.x0.cols)) ∧
      (∀ m k n n', n < a.x0.cols → n' < a.x0.cols → usage (B m) b k n ≤ usage (B m) b k n' + 1) := by
  have key : ∀ m k n, n < a.x0.cols →
        k * b / a.x0.cols ≤ usage (concatBatch env a.x0.cols b m) b k n ∧
        usage (concatBatch env a.x0.cols b m) b k n ≤ k * b / a.x0.cols + 1 ∧
        (a.x0.cols ∣ k * b → usage (concatBatch env a.x0.cols b m) b k n = k * b / a.x0.cols) := by
    intro m k n hn
    rw [usage_concat]
    have hdm := Nat.div_add_mod (k * b) a.x0.cols
    have := stream_count (m := m) hp hn (k * b / a.x0.cols) (k * b % a.x0.cols) (Nat.mod_lt _ (by omega)).le
    rw [mul_comm (k * b / a.x0.cols), hdm] at this
    exact ⟨this.1, this.2.1, fun hd => this.2.2 (Nat.mod_eq_zero_of_dvd hd)⟩
  refine ⟨concatBatch env a.x0.cols b, ?_, key, ?_⟩
  · intro s₀ s s' ops h0 h hs r hr j hj
    have hw0 := init_wf hp.ok h0
    obtain ⟨b1, b2, b3, b4⟩ := init_batchSize h0
    have hbs0 : s₀.batchSize = b := by rw [b1, hsz, b2]; simp only [batchSizeOf]; omega
    obtain ⟨hw, hpool, e1, e2, e3, e4, e5⟩ := pool_execAll hm hpost hp.ok ops s₀ s 0 hw0 (by omega) (pool_init h0) h
    have hbat : s.batched = true := by
      by_contra hn
      have := hw.unb (by simpa using hn)
      rw [e1, hbs0, e4, b2] at this
      omega
    have := (pool_step (consThen_frame hm) hw (by rw [e1, hbs0]; exact h1) hpool hs).2 hbat r hr j
      (by rw [e1, hbs0]; exact hj)
    rw [this]
    unfold theBatch
    rw [if_pos (by rw [e3, b4]; exact hc), e1, hbs0, e4, b2, zero_add]
  · intro m k n n' hn hn'
    have h1 := key m k n hn
    have h2 := key m k n' hn'
    omega

/-- **C15, `resample` mode (default).** The batches of one epoch (`⌊N/b⌋` consecutive batches) of a run are pairwise
disjoint and contain no particle twice, so every particle is used at most once per epoch; `B m i` is again the batch actually
used in step number `i`. (The `N mod b` left-over particles of an epoch are dropped, so usage counts of two particles may
drift apart in this mode.) -/
theorem C15_resample_epochs (env : Env K V) (move : St K V → Except Err (St K V)) (hm : MoveOK move)
    (hpost : PostOK env) (hp : PermBij env) (a : Args K V) (b : ℕ) (hsz : a.batchSize = some b)
    (h1 : 1 ≤ b) (hlt : b < a.x0.cols) (hc : a.batchConcat = false) :
    ∃ B : ℕ → ℕ → ℕ → ℕ,
      (∀ (s₀ s s' : St K V) (ops : List Op), init env a = .ok s₀ →
        execAll env (consThen env move) ops s₀ = .ok s → step env (consThen env move) s = .ok s' →
        ∀ r < s.active.length, ∀ j < b, s'.cIdx.par r j = B (s.active.getD r 0) (nSteps ops) j) ∧
      (∀ m i i' j j', j < b → j' < b → i / (a.x0.cols / b) = i' / (a.x0.cols / b) →
        B m i j = B m i' j' → i = i' ∧ j = j') ∧
      (∀ m i j, j < b → B m i j < a.x0.cols) := by
  have hq : 1 ≤ a.x0.cols / b := (Nat.one_le_div_iff h1).2 hlt.le
  have hqN : a.x0.cols / b * b ≤ a.x0.cols := Nat.div_mul_le_self _ _
  have hslot : ∀ i j, j < b → i % (a.x0.cols / b) * b + j < a.x0.cols := by
    intro i j hj
    have := Nat.mod_lt i hq
    have : (i % (a.x0.cols / b) + 1) * b ≤ a.x0.cols := le_trans (Nat.mul_le_mul_right _ this) hqN
    rw [add_mul, one_mul] at this
    omega
  refine ⟨resampleBatch env a.x0.cols b, ?_, ?_, ?_⟩
  · intro s₀ s s' ops h0 h hs r hr j hj
    have hw0 := init_wf hp.ok h0
    obtain ⟨b1, b2, b3, b4⟩ := init_batchSize h0
    have hbs0 : s₀.batchSize = b := by rw [b1, hsz, b2]; simp only [batchSizeOf]; omega
    obtain ⟨hw, hpool, e1, e2, e3, e4, e5⟩ := pool_execAll hm hpost hp.ok ops s₀ s 0 hw0 (by omega) (pool_init h0) h
    have hbat : s.batched = true := by
      by_contra hn
      have := hw.unb (by simpa using hn)
      rw [e1, hbs0, e4, b2] at this
      omega
    have := (pool_step (consThen_frame hm) hw (by rw [e1, hbs0]; exact h1) hpool hs).2 hbat r hr j
      (by rw [e1, hbs0]; exact hj)
    rw [this]
    unfold theBatch
    rw [if_neg (by rw [e3, b4, hc]; simp), e1, hbs0, e4, b2, zero_add]
  · intro m i i' j j' hj hj' he h
    unfold resampleBatch at h
    rw [he] at h
    have hs := hp.inj _ _ _ _ _ (hslot i j hj) (hslot i' j' hj') h
    have hdiv : ∀ t j, j < b → (t * b + j) / b = t := fun t j hj => by
      rw [add_comm, Nat.add_mul_div_right _ _ (by omega), Nat.div_eq_of_lt hj, zero_add]
    have ht : i % (a.x0.cols / b) = i' % (a.x0.cols / b) := by
      rw [← hdiv (i % (a.x0.cols / b)) j hj, hs, hdiv _ j' hj']
    refine ⟨?_, ?_⟩
    · rw [← Nat.div_add_mod i (a.x0.cols / b), ← Nat.div_add_mod i' (a.x0.cols / b), he, ht]
    · rw [ht] at hs; omega
  · intro m i j hj
    exact hp.lt _ _ _ _ (hslot i j hj)

/-- C15: the hypotheses are met by the example with batches of 2 out of 3 particles in both modes. -/
example : (1 : ℕ) ≤ 2 ∧ 2 < (Example.args [] (some 2)).x0.cols ∧ (Example.args [] (some 2)).batchConcat = false ∧
    ({ Example.args [] (some 2) with batchConcat := true } : Args ℚ ℚ).batchConcat = true ∧
    MoveOK (cboMove Example.env) := ⟨by decide, by decide, rfl, rfl, cboMove_ok _⟩

/-- In `concat` mode a single batch may contain the same particle twice (distinctness as in C14 fails there): with three
particles and batches of two, the second batch takes the last index of the first permutation and the first of the next. -/
theorem C14_concat_false : ∃ s', execAll { Example.env with perm := fun _ c _ j => if c = 0 then j else (j + 2) % 3 }
      (cboInner Example.env) [.step, .step]
      (match init { Example.env with perm := fun _ c _ j => if c = 0 then j else (j + 2) % 3 }
          { Example.args [] (some 2) with batchConcat := true } with
        | .ok s => s
        | .error _ => Example.start [] none) = .ok s' ∧
      s'.cIdx.par 0 0 = s'.cIdx.par 0 1 := ⟨_, rfl, by decide +kernel⟩

end Verif
