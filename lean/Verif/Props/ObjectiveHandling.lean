import Verif.Proofs.ObjectiveHandling

/-! Properties C41 (promoted objectives are pointwise) and C56 (shape of the initial ensemble). -/

set_option linter.unusedSectionVars false

namespace Verif

variable {α β : Type}

/-- **C41, one-dimensional.** On an ensemble of shape `(M, N, d)` an objective promoted with `f_dim='1D'` returns the `(M, N)` array with
entries `f(x[m, n, :])` and `num_eval` grows by `M * N`. -/
theorem C41_1D (g : List α → β) (p : Promoted α β) (hp : promote (.point g) "1D" = .ok p) (x : Nd α) (M N d : ℕ)
    (hM : 1 ≤ M) (hN : 1 ≤ N) (hd : 1 ≤ d) (hs : x.shape = [M, N, d]) (hx : x.WF) (c : ℕ) :
    ∃ y, p.call x c = .ok (y, c + M * N) ∧ Pointwise g x M N d y := by
  have hp' : p = .f1D g := by
    have e : promote (.point g : UserFun α β) "1D" = .ok (.f1D g) := rfl
    rw [e] at hp
    injection hp with hp
    exact hp.symm
  subst hp'
  have hl : x.data.length = M * N * d := by
    unfold Nd.WF at hx
    rw [hx, hs]
    simp only [List.prod_cons, List.prod_nil]
    ring
  have ha : x.atLeast2d = x := by unfold Nd.atLeast2d; rw [hs]
  have hMN : 1 ≤ M * N := Nat.one_le_iff_ne_zero.2 (Nat.mul_ne_zero (by omega) (by omega))
  have h1 : apply1D g x = .ok ⟨[M, N], (List.range (M * N)).map fun i => g (Nd.chunk d x.data i)⟩ := by
    unfold apply1D
    simp only [ha, lastTwo, hs, List.reverse_cons, List.reverse_nil, List.nil_append, List.cons_append, List.getD_cons_zero,
      List.getD_cons_succ]
    rw [reshape2_ok x hd hl]
    simp only [bind, Except.bind, List.getD_cons_zero]
    rw [if_neg (by omega)]
    exact reshape2_ok _ hN (by simp)
  refine ⟨⟨[M, N], (List.range (M * N)).map fun i => g (Nd.chunk d x.data i)⟩, ?_, rfl, ?_, ?_⟩
  · simp only [Promoted.call, Promoted.apply, h1, bind, Except.bind, pure, Except.pure, Promoted.count, ha, hs]
    simp [List.dropLast]
  · simp [Nd.WF]
  · intro m hm n hn
    have hi := pos_lt hm hn
    refine ⟨Nd.chunk d x.data (m * N + n), particle_of_row hs hx hm hn (chunk_length hl hi) fun k hk => chunk_get hk, ?_⟩
    simp only [Nd.at?, ravel2]
    rw [List.getElem?_map, List.getElem?_range hi]
    rfl

/-- **C41, two-dimensional.** The same for a vectorised function promoted with `f_dim='2D'`. -/
theorem C41_2D (g : List α → β) (f : Nd α → Nd β) (hf : Vectorised g f) (p : Promoted α β)
    (hp : promote (.array f) "2D" = .ok p) (x : Nd α) (M N d : ℕ)
    (hN : 1 ≤ N) (hd : 1 ≤ d) (hs : x.shape = [M, N, d]) (hx : x.WF) (c : ℕ) :
    ∃ y, p.call x c = .ok (y, c + M * N) ∧ Pointwise g x M N d y := by
  have hp' : p = .f2D f := by
    have e : promote (.array f : UserFun α β) "2D" = .ok (.f2D f) := rfl
    rw [e] at hp
    injection hp with hp
    exact hp.symm
  subst hp'
  have hl : x.data.length = M * N * d := by
    unfold Nd.WF at hx
    rw [hx, hs]
    simp only [List.prod_cons, List.prod_nil]
    ring
  have ha : x.atLeast2d = x := by unfold Nd.atLeast2d; rw [hs]
  obtain ⟨f1, f2⟩ := hf ⟨[M * N, d], x.data⟩ (M * N) d rfl (by simp [Nd.WF, hl])
  have h1 : apply2D f x = .ok ⟨[M, N], (f ⟨[M * N, d], x.data⟩).data⟩ := by
    unfold apply2D
    simp only [ha, lastTwo, hs, List.reverse_cons, List.reverse_nil, List.nil_append, List.cons_append, List.getD_cons_zero,
      List.getD_cons_succ]
    rw [reshape2_ok x hd hl]
    simp only [bind, Except.bind]
    exact reshape2_ok _ hN f1
  refine ⟨⟨[M, N], (f ⟨[M * N, d], x.data⟩).data⟩, ?_, rfl, ?_, ?_⟩
  · simp only [Promoted.call, Promoted.apply, h1, bind, Except.bind, pure, Except.pure, Promoted.count, ha, hs]
    simp [List.dropLast]
  · simp [Nd.WF, f1]
  · intro m hm n hn
    have hi := pos_lt hm hn
    obtain ⟨row, r1, r2, r3⟩ := f2 _ hi
    refine ⟨row, particle_of_row hs hx hm hn r1 fun k hk => ?_, ?_⟩
    · rw [r2 k hk]
      simp only [Nd.at?, ravel2]
    · simp only [Nd.at?, ravel2]
      exact r3

/-- **C41, agreement.** Both promotions of the same objective give the same values. -/
theorem C41_agree (g : List α → β) (f : Nd α → Nd β) (hf : Vectorised g f) (x : Nd α) (M N d : ℕ)
    (hM : 1 ≤ M) (hN : 1 ≤ N) (hd : 1 ≤ d) (hs : x.shape = [M, N, d]) (hx : x.WF) (c : ℕ) :
    ∃ p q r, promote (.point g) "1D" = .ok p ∧ promote (.array f) "2D" = .ok q ∧ p.call x c = .ok r ∧ q.call x c = .ok r := by
  obtain ⟨y, hy, y1, y2, y3⟩ := C41_1D g _ rfl x M N d hM hN hd hs hx c
  obtain ⟨z, hz, z1, z2, z3⟩ := C41_2D g f hf _ rfl x M N d hN hd hs hx c
  refine ⟨_, _, (y, c + M * N), rfl, rfl, hy, ?_⟩
  rw [hz]
  have hyl : y.data.length = M * N := by unfold Nd.WF at y2; rw [y2, y1]; simp
  have hzl : z.data.length = M * N := by unfold Nd.WF at z2; rw [z2, z1]; simp
  have : z = y := by
    cases y with
    | mk ys yd =>
    cases z with
    | mk zs zd =>
    simp only at y1 z1 hyl hzl
    subst y1 z1
    congr 1
    apply List.ext_getElem?
    intro i
    by_cases hi : i < M * N
    · have hm : i / N < M := Nat.div_lt_of_lt_mul (by rwa [Nat.mul_comm] at hi)
      have hn : i % N < N := Nat.mod_lt _ (by omega)
      have e : i / N * N + i % N = i := by rw [Nat.mul_comm]; exact Nat.div_add_mod i N
      obtain ⟨r1, p1, q1⟩ := y3 _ hm _ hn
      obtain ⟨r2, p2, q2⟩ := z3 _ hm _ hn
      simp only [Nd.at?, ravel2, e] at q1 q2
      rw [q1, q2]
      congr 2
      apply List.ext_getElem?
      intro k
      by_cases hk : k < d
      · rw [(p1.2 k hk).1, (p2.2 k hk).1]
      · rw [List.getElem?_eq_none (by rw [p2.1]; omega), List.getElem?_eq_none (by rw [p1.1]; omega)]
    · rw [List.getElem?_eq_none (by omega), List.getElem?_eq_none (by omega)]
  rw [this]

/-- **C41, check.** Hence `check_f_dims` accepts every such objective on an ensemble of shape `(M, N, d)`. -/
theorem C41_check (g : List α → β) (x : Nd α) (M N d : ℕ) (hM : 1 ≤ M) (hN : 1 ≤ N) (hd : 1 ≤ d) (hs : x.shape = [M, N, d])
    (hx : x.WF) (c : ℕ) : checkShape (.f1D g) x M N c = .ok (c + M * N) := by
  obtain ⟨y, hy, y1, -⟩ := C41_1D g _ rfl x M N d hM hN hd hs hx c
  unfold checkShape
  rw [hy]
  simp only [bind, Except.bind]
  rw [if_neg (by simp [y1])]
  rfl

/-- **C41 fails for particles with several axes.** On an ensemble of shape `(M, N, d1, d2)` with `d1 ≥ 2` a promoted function of one point is
applied to the rows of each particle, counts `M N d1` evaluations and returns an array of shape `(M N, d1)`; `check_f_dims`
rejects it. -/
theorem C41_trailing_false (g : List α → β) (x : Nd α) (M N d1 d2 : ℕ) (hM : 1 ≤ M) (hN : 1 ≤ N) (h1 : 2 ≤ d1) (h2 : 1 ≤ d2)
    (hs : x.shape = [M, N, d1, d2]) (hx : x.WF) (c : ℕ) :
    (∃ y, (Promoted.f1D g).call x c = .ok (y, c + M * N * d1) ∧ y.shape = [M * N, d1]) ∧
    checkShape (.f1D g) x M N c = .error .value := by
  have hl : x.data.length = M * N * d1 * d2 := by
    unfold Nd.WF at hx
    rw [hx, hs]
    simp only [List.prod_cons, List.prod_nil]
    ring
  have ha : x.atLeast2d = x := by unfold Nd.atLeast2d; rw [hs]
  have hMN : 1 ≤ M * N * d1 := Nat.one_le_iff_ne_zero.2 (Nat.mul_ne_zero (Nat.mul_ne_zero (by omega) (by omega)) (by omega))
  have e1 : apply1D g x = .ok ⟨[M * N, d1], (List.range (M * N * d1)).map fun i => g (Nd.chunk d2 x.data i)⟩ := by
    unfold apply1D
    simp only [ha, lastTwo, hs, List.reverse_cons, List.reverse_nil, List.nil_append, List.cons_append, List.getD_cons_zero,
      List.getD_cons_succ]
    rw [reshape2_ok x h2 hl]
    simp only [bind, Except.bind, List.getD_cons_zero]
    rw [if_neg (by omega)]
    exact reshape2_ok _ (by omega) (by simp)
  have e2 : (Promoted.f1D g).call x c = .ok (⟨[M * N, d1], (List.range (M * N * d1)).map fun i => g (Nd.chunk d2 x.data i)⟩,
      c + M * N * d1) := by
    simp only [Promoted.call, Promoted.apply, e1, bind, Except.bind, pure, Except.pure, Promoted.count, ha, hs]
    simp [List.dropLast]
    ring
  refine ⟨⟨_, e2, rfl⟩, ?_⟩
  unfold checkShape
  rw [e2]
  simp only [bind, Except.bind]
  rw [if_pos]
  intro h
  simp only [List.cons.injEq, and_true] at h
  obtain ⟨h3, h4⟩ := h
  subst h4
  have : d1 = 1 := Nat.eq_of_mul_eq_mul_left (show 0 < M by omega) (by omega)
  omega

/-- C41: the sum of the coordinates on an ensemble of shape (2, 1, 2), as a function of one point and vectorised. -/
example : ∃ x : Nd ℤ, x.shape = [2, 1, 2] ∧ x.WF ∧ Vectorised (fun r => r.sum)
    (fun X : Nd ℤ => (⟨[X.shape.getD 0 0], (List.range (X.shape.getD 0 0)).map fun i => (Nd.chunk (X.shape.getD 1 0) X.data i).sum⟩ : Nd ℤ)) := by
  refine ⟨⟨[2, 1, 2], [1, 2, 3, 4]⟩, rfl, rfl, ?_⟩
  intro X r d hs hX
  have hl : X.data.length = r * d := by unfold Nd.WF at hX; rw [hX, hs]; simp
  simp only [hs, List.getD_cons_zero, List.getD_cons_succ, List.length_map, List.length_range, true_and]
  intro i hi
  refine ⟨Nd.chunk d X.data i, chunk_length hl hi, fun k hk => ?_, ?_⟩
  · rw [chunk_get hk]
    simp only [Nd.at?, hs, ravel2]
  · rw [List.getElem?_map, List.getElem?_range hi]
    rfl

/-! ### C56 -/

/-- **C56, given ensemble.** A given `x` of shape `(d,)`, `(N, d)` or `(M, N, d, ...)` becomes an ensemble of shape `(1, 1, d)`, `(1, N, d)`,
`(M, N, d, ...)` with the same entries at the corresponding positions, whatever the arguments `M`, `N`, `d` are; an array without axes is
rejected. -/
theorem C56_given (x : Nd α) (M N : ℕ) (d : Option ℕ) (smp : ℕ → α) :
    (x.shape = [] → initX (some x) M N d smp = .error .value) ∧
    (∀ k, x.shape = [k] → ∃ y, initX (some x) M N d smp = .ok y ∧ y.shape = [1, 1, k] ∧
      ∀ i, y.at? [0, 0, i] = x.at? [i]) ∧
    (∀ n k, x.shape = [n, k] → ∃ y, initX (some x) M N d smp = .ok y ∧ y.shape = [1, n, k] ∧
      ∀ j i, y.at? [0, j, i] = x.at? [j, i]) ∧
    (3 ≤ x.shape.length → initX (some x) M N d smp = .ok x) := by
  refine ⟨?_, ?_, ?_, ?_⟩
  · intro h
    simp only [initX, h]
  · intro k h
    refine ⟨⟨[1, 1, k], x.data⟩, by simp only [initX, h], rfl, fun i => ?_⟩
    simp only [Nd.at?, h]
    simp [Nd.ravel]
  · intro n k h
    refine ⟨⟨[1, n, k], x.data⟩, by simp only [initX, h], rfl, fun j i => ?_⟩
    simp only [Nd.at?, h]
    simp [Nd.ravel]
  · intro h
    unfold initX
    simp only
    split
    · rename_i e; rw [e] at h; simp at h
    · rename_i e; rw [e] at h; simp at h
    · rename_i e; rw [e] at h; simp at h
    · rfl

/-- **C56, no ensemble given.** Without `x` the dimension is required; with it the ensemble has shape `(M, N, d)` and its entries are
the drawn numbers. -/
theorem C56_drawn (M N : ℕ) (d : Option ℕ) (smp : ℕ → α) :
    (d = none ↔ initX none M N d smp = .error .runtime) ∧
    ∀ k, d = some k → ∃ y, initX none M N d smp = .ok y ∧ y.shape = [M, N, k] ∧ y.WF ∧
      ∀ m < M, ∀ n < N, ∀ i < k, y.at? [m, n, i] = some (smp ((m * N + n) * k + i)) := by
  refine ⟨?_, ?_⟩
  · cases d <;> simp [initX]
  · rintro k rfl
    refine ⟨_, rfl, rfl, ?_, ?_⟩
    · simp [Nd.WF]; ring
    · intro m hm n hn i hi
      simp only [Nd.at?, ravel3]
      rw [List.getElem?_map, List.getElem?_range (pos_lt (pos_lt hm hn) hi)]
      rfl

/-- **C56, always at least three axes.** Whenever the constructor accepts the arguments, the ensemble has at least three axes, is
well-formed if the given array is, and the number of entries is that of the given array. -/
theorem C56_axes (x : Option (Nd α)) (hx : ∀ y, x = some y → y.WF) (M N : ℕ) (d : Option ℕ) (smp : ℕ → α) (y : Nd α)
    (h : initX x M N d smp = .ok y) : 3 ≤ y.shape.length ∧ y.WF ∧ ∀ z, x = some z → y.data = z.data := by
  cases x with
  | none =>
    cases d with
    | none => cases h
    | some k =>
      simp only [initX, Except.ok.injEq] at h
      subst h
      exact ⟨by simp, by simp [Nd.WF]; ring, by simp⟩
  | some z =>
    have hz := hx z rfl
    unfold Nd.WF at hz ⊢
    simp only [initX] at h
    split at h
    · cases h
    · rename_i e
      rw [e] at hz
      injection h with h
      subst h
      exact ⟨by simp, by simpa using hz, by intro w hw; injection hw with hw; rw [hw]⟩
    · rename_i e
      rw [e] at hz
      injection h with h
      subst h
      exact ⟨by simp, by simpa using hz, by intro w hw; injection hw with hw; rw [hw]⟩
    · rename_i n1 n2 n3
      injection h with h
      subst h
      refine ⟨?_, hz, by intro w hw; injection hw with hw; rw [hw]⟩
      rcases hsh : z.shape with _ | ⟨a, _ | ⟨b, _ | ⟨c, l⟩⟩⟩
      · exact absurd hsh n1
      · exact absurd hsh (n2 a)
      · exact absurd hsh (n3 a b)
      · simp

/-- C56: four numbers given as shape (2, 2). -/
example : initX (some (⟨[2, 2], [1, 2, 3, 4]⟩ : Nd ℕ)) 7 7 none id = .ok ⟨[1, 2, 2], [1, 2, 3, 4]⟩ := rfl

end Verif
