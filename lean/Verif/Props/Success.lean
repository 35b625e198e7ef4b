import Verif.Proofs.Success

/-! Property C48: success evaluation counts exactly the runs satisfying all criteria. -/

set_option linter.unusedSectionVars false

namespace Verif

variable {K V : Type} [Field K] [LinearOrder K] [IsStrictOrderedRing K]

/-- **C48.** If all criteria return, `evaluation` reports the increasing list of exactly the runs selected by every criterion, its length and
the fraction of all runs, a number in `[0, 1]`. -/
theorem C48_evaluation (cs : List (St K V → Except Err (Success K))) (s : St K V) (res : Success K)
    (h : evaluation (some cs) s = .ok res) :
    res.idx.Pairwise (· < ·) ∧ (∀ m, m ∈ res.idx ↔ m < s.M ∧ ∀ c ∈ cs, ∃ r, c s = .ok r ∧ m ∈ r.idx) ∧
    res.num = res.idx.length ∧ res.rate * (s.M : K) = res.num ∧ 0 ≤ res.rate ∧ res.rate ≤ 1 := by
  simp only [evaluation, bind_ok, pure_ok] at h
  obtain ⟨idx, hi, r, hr, rfl⟩ := h
  have key : ∀ (cs : List (St K V → Except Err (Success K))) (a idx : List ℕ),
      cs.foldlM (fun idx crit => do
        let r ← crit s
        pure (intersect1d r.idx idx)) a = Except.ok (ε := Err) idx → a.Pairwise (· < ·) →
      idx.Pairwise (· < ·) ∧ ∀ m, m ∈ idx ↔ m ∈ a ∧ ∀ c ∈ cs, ∃ r, c s = .ok r ∧ m ∈ r.idx := by
    intro cs
    induction cs with
    | nil =>
      intro a idx h ha
      simp only [List.foldlM_nil, pure_ok] at h
      subst h
      exact ⟨ha, by simp⟩
    | cons c cs ih =>
      intro a idx h ha
      simp only [List.foldlM_cons, bind_ok, pure_ok] at h
      obtain ⟨b, ⟨r, hc, rfl⟩, h⟩ := h
      obtain ⟨i1, i2⟩ := ih _ _ h (intersect1d_spec r.idx a).1
      refine ⟨i1, fun m => ?_⟩
      rw [i2, (intersect1d_spec r.idx a).2]
      constructor
      · rintro ⟨⟨h1, h2⟩, h3⟩
        refine ⟨h2, fun c' hc' => ?_⟩
        rcases List.mem_cons.1 hc' with rfl | hc'
        · exact ⟨r, hc, h1⟩
        · exact h3 c' hc'
      · rintro ⟨h1, h2⟩
        obtain ⟨r', hr', hm⟩ := h2 c List.mem_cons_self
        rw [hc] at hr'
        injection hr' with hr'
        subst hr'
        exact ⟨⟨hm, h1⟩, fun c' hc' => h2 c' (List.mem_cons_of_mem _ hc')⟩
  obtain ⟨k1, k2⟩ := key cs _ _ hi List.pairwise_lt_range
  obtain ⟨hM, rfl⟩ := rateOf_ok hr
  have hlen : idx.length ≤ s.M := sorted_length_le k1 fun m hm => List.mem_range.1 ((k2 m).1 hm).1
  have hM' : (s.M : K) ≠ 0 := by exact_mod_cast hM.ne'
  refine ⟨k1, fun m => by rw [k2, List.mem_range], rfl, div_mul_cancel₀ _ hM', rate_bounds hM hlen⟩

/-- **C48, never an error.** With criteria that return and at least one run, `evaluation` returns. -/
theorem C48_returns (cs : List (St K V → Except Err (Success K))) (s : St K V) (hM : 0 < s.M) (h : ∀ c ∈ cs, ∃ r, c s = .ok r) :
    ∃ res, evaluation (some cs) s = .ok res := by
  have key : ∀ (cs : List (St K V → Except Err (Success K))) (a : List ℕ), (∀ c ∈ cs, ∃ r, c s = .ok r) →
      ∃ idx, cs.foldlM (fun idx crit => do
        let r ← crit s
        pure (intersect1d r.idx idx)) a = Except.ok (ε := Err) idx := by
    intro cs
    induction cs with
    | nil => intro a _; exact ⟨a, rfl⟩
    | cons c cs ih =>
      intro a h
      obtain ⟨r, hr⟩ := h c List.mem_cons_self
      obtain ⟨idx, hi⟩ := ih (intersect1d r.idx a) fun c' hc' => h c' (List.mem_cons_of_mem _ hc')
      refine ⟨idx, ?_⟩
      rw [List.foldlM_cons, hr]
      exact hi
  obtain ⟨idx, hi⟩ := key cs (List.range s.M) h
  have hr : rateOf (K := K) idx.length s.M = .ok ((idx.length : K) / (s.M : K)) := by
    unfold rateOf
    rw [if_neg (by omega)]
  refine ⟨⟨idx.length, (idx.length : K) / (s.M : K), idx⟩, ?_⟩
  unfold evaluation
  simp only
  rw [hi]
  simp only [bind, Except.bind]
  rw [hr]
  rfl

/-- **C48, built-in criteria.** `value_thresh` selects exactly the runs whose best particle has an energy strictly below the threshold, `dist_to_min` those
whose best particle is closer to `x_true` than `tol`; both report number and rate of these runs. -/
theorem C48_criteria (f nd : V → Flt K) (thresh tol : Flt K) (s : St K V) (r₁ r₂ : Success K)
    (h₁ : valueCrit f thresh s = .ok r₁) (h₂ : distCrit nd tol s = .ok r₂) :
    (r₁.idx.Pairwise (· < ·) ∧ (∀ m, m ∈ r₁.idx ↔ m < s.M ∧ Flt.lt (f (s.bestP m)) thresh = true) ∧
      r₁.num = r₁.idx.length ∧ r₁.rate * (s.M : K) = r₁.num) ∧
    (r₂.idx.Pairwise (· < ·) ∧ (∀ m, m ∈ r₂.idx ↔ m < s.M ∧ Flt.lt (nd (s.bestP m)) tol = true) ∧
      r₂.num = r₂.idx.length ∧ r₂.rate * (s.M : K) = r₂.num) := by
  simp only [valueCrit, valueSuccess, bind_ok, pure_ok] at h₁
  simp only [distCrit, distToMin, bind_ok, pure_ok] at h₂
  obtain ⟨q, hq, rfl⟩ := h₁
  obtain ⟨p, hp, rfl⟩ := h₂
  obtain ⟨hM, rfl⟩ := rateOf_ok hq
  obtain ⟨-, rfl⟩ := rateOf_ok hp
  have hM' : (s.M : K) ≠ 0 := by exact_mod_cast hM.ne'
  exact ⟨⟨(range_filter_spec _ _).1, (range_filter_spec _ _).2, rfl, div_mul_cancel₀ _ hM'⟩,
    (range_filter_spec _ _).1, (range_filter_spec _ _).2, rfl, div_mul_cancel₀ _ hM'⟩

/-- **C48, default distance.** With the default `p = inf` and `tol > 0` a run succeeds iff every coordinate of its best particle differs from that of
`x_true` by less than `tol`. -/
theorem C48_default_distance {d : ℕ} (xTrue : Fin d → K) (tol : K) (ht : 0 < tol) (s : St K (Fin d → K)) (r : Success K)
    (h : distCrit (infDist xTrue) (.fin tol) s = .ok r) (m : ℕ) (hm : m < s.M) :
    m ∈ r.idx ↔ ∀ i, |s.bestP m i - xTrue i| < tol := by
  simp only [distCrit, distToMin, bind_ok, pure_ok] at h
  obtain ⟨p, hp, rfl⟩ := h
  rw [(range_filter_spec _ _).2, and_iff_right hm]
  simp only [infDist, Flt.lt, decide_eq_true_eq, foldl_max_le, and_iff_right ht]
  constructor
  · intro h i
    rw [abs_sub_comm]
    exact h _ (List.mem_ofFn.2 ⟨i, rfl⟩)
  · intro h b hb
    obtain ⟨i, rfl⟩ := List.mem_ofFn.1 hb
    rw [abs_sub_comm]
    exact h i

/-- C48, edge: the default `criteria=None` and a dynamic without runs are rejected. -/
theorem C48_rejected (cs : List (St K V → Except Err (Success K))) (s : St K V) :
    evaluation (none : Option (List (St K V → Except Err (Success K)))) s = .error .type ∧
    (s.M = 0 → ∀ res, evaluation (some cs) s ≠ .ok res) := by
  refine ⟨rfl, fun hM res h => ?_⟩
  simp only [evaluation, bind_ok, pure_ok] at h
  obtain ⟨idx, hi, r, hr, rfl⟩ := h
  obtain ⟨h0, -⟩ := rateOf_ok hr
  omega

/-- C48: two runs with best particles 9/4 (the minimiser) and 5; the criteria "value below 100" and "value below 1" select run 0 only. -/
example : ∃ res, evaluation (some [valueCrit Example.env.f (.fin 100), valueCrit Example.env.f (.fin 1)])
    { Example.start [] none with bestP := fun m => if m = 0 then 9 / 4 else 5 } = .ok res ∧ 0 ∈ res.idx ∧ 1 ∉ res.idx := by
  set s : St ℚ ℚ := { Example.start [] none with bestP := fun m => if m = 0 then 9 / 4 else 5 } with hs
  have hM : s.M = 2 := rfl
  have crit : ∀ t, ∃ r, valueCrit Example.env.f t s = .ok r ∧ ∀ m, m ∈ r.idx ↔ m < s.M ∧ Flt.lt (Example.env.f (s.bestP m)) t = true :=
    fun t => ⟨_, rfl, (range_filter_spec _ _).2⟩
  obtain ⟨r1, h1, i1⟩ := crit (.fin 100)
  obtain ⟨r2, h2, i2⟩ := crit (.fin 1)
  obtain ⟨res, hr⟩ := C48_returns [valueCrit Example.env.f (.fin 100), valueCrit Example.env.f (.fin 1)] s (by omega) (by
    intro c hc
    simp only [List.mem_cons, List.not_mem_nil, or_false] at hc
    rcases hc with rfl | rfl
    exacts [⟨_, h1⟩, ⟨_, h2⟩])
  obtain ⟨-, e, -⟩ := C48_evaluation _ s res hr
  refine ⟨res, hr, (e 0).2 ⟨by omega, ?_⟩, fun h => ?_⟩
  · intro c hc
    simp only [List.mem_cons, List.not_mem_nil, or_false] at hc
    rcases hc with rfl | rfl
    · exact ⟨_, h1, (i1 0).2 ⟨by omega, by decide +kernel⟩⟩
    · exact ⟨_, h2, (i2 0).2 ⟨by omega, by decide +kernel⟩⟩
  · obtain ⟨-, h⟩ := (e 1).1 h
    obtain ⟨r, hr', hm⟩ := h (valueCrit Example.env.f (.fin 1)) (by simp)
    rw [h2] at hr'
    injection hr' with hr'
    subst hr'
    exact absurd ((i2 1).1 hm).2 (by decide +kernel)

end Verif
