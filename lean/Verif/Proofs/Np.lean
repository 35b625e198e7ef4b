import Verif.Np.Mat
import Mathlib.Tactic.Ring
import Mathlib.Tactic.SplitIfs

/-! Helper lemmas on `Flt`, `Mat`, `Idx`. -/

set_option linter.unusedSectionVars false

namespace Verif

theorem bind_ok {α β ε : Type} {x : Except ε α} {f : α → Except ε β} {r : β} :
    (x >>= f) = .ok r ↔ ∃ a, x = .ok a ∧ f a = .ok r := by
  cases x with
  | error e => simp [bind, Except.bind]
  | ok a => simp [bind, Except.bind]

theorem pure_ok {α ε : Type} {a r : α} : (pure a : Except ε α) = .ok r ↔ a = r := by
  simp [pure, Except.pure]

namespace Flt
variable {K : Type} [Zero K] [One K] [Neg K] [Add K] [Sub K] [Mul K] [Inv K] [Div K] [NatCast K] [Pow K ℕ] [LinearOrder K]

theorem lt_irrefl (a : Flt K) : lt a a = false := by
  cases a <;> simp [lt]

theorem lt_trans {a b c : Flt K} (h1 : lt a b = true) (h2 : lt b c = true) : lt a c = true := by
  cases a <;> cases b <;> cases c <;> simp_all [lt]
  exact _root_.lt_trans h1 h2

theorem lt_asymm {a b : Flt K} (h : lt a b = true) : lt b a = false := by
  cases a <;> cases b <;> simp_all [lt]
  exact le_of_lt h

/-- Transitivity of "not greater" for non-NaN middle element. -/
theorem not_lt_trans {a b c : Flt K} (hb : b ≠ nan) (h1 : lt b a = false) (h2 : lt c b = false) :
    lt c a = false := by
  cases a <;> cases b <;> cases c <;> simp_all [lt]
  exact _root_.le_trans h1 h2

theorem lt_of_lt_of_not_lt {a b c : Flt K} (hc : c ≠ nan) (h1 : lt a b = true)
    (h2 : lt c b = false) : lt a c = true := by
  cases a <;> cases b <;> cases c <;> simp_all [lt]
  exact lt_of_lt_of_le h1 h2

theorem lt_of_not_lt_of_lt {a b c : Flt K} (ha : a ≠ nan) (h1 : lt b a = false)
    (h2 : lt b c = true) : lt a c = true := by
  cases a <;> cases b <;> cases c <;> simp_all [lt]
  exact lt_of_le_of_lt h1 h2

theorem ne_nan_of_lt_left {a b : Flt K} (h : lt a b = true) : a ≠ nan := by
  cases a <;> simp_all [lt]

theorem ne_nan_of_lt_right {a b : Flt K} (h : lt a b = true) : b ≠ nan := by
  cases b <;> cases a <;> simp_all [lt]

/-- Antisymmetry away from NaN. -/
theorem eq_of_not_lt {a b : Flt K} (ha : a ≠ nan) (hb : b ≠ nan) (h1 : lt a b = false)
    (h2 : lt b a = false) : a = b := by
  cases a <;> cases b <;> simp_all [lt]
  exact _root_.le_antisymm h2 h1

theorem isNaN_iff {a : Flt K} : isNaN a = true ↔ a = nan := by
  cases a <;> simp [isNaN]

private def argFold (g : ℕ → Flt K) (n : ℕ) : ℕ :=
  (List.range n).foldl
    (fun best j =>
      if isNaN (g best) then best
      else if isNaN (g (j + 1)) then j + 1
      else if lt (g (j + 1)) (g best) then j + 1 else best) 0

private theorem argFold_succ (g : ℕ → Flt K) (n : ℕ) :
    argFold g (n + 1) =
      if isNaN (g (argFold g n)) then argFold g n
      else if isNaN (g (n + 1)) then n + 1
      else if lt (g (n + 1)) (g (argFold g n)) then n + 1 else argFold g n := by
  unfold argFold
  rw [List.range_succ, List.foldl_append]
  rfl

private theorem argFold_le (g : ℕ → Flt K) (n : ℕ) : argFold g n ≤ n := by
  induction n with
  | zero => simp [argFold]
  | succ n ih => rw [argFold_succ]; split_ifs <;> omega

private theorem argFold_min (g : ℕ → Flt K) (n : ℕ) :
    (∃ i ≤ n, g i = nan) ∧ g (argFold g n) = nan ∨
    (∀ i ≤ n, g i ≠ nan) ∧ ∀ i ≤ n, lt (g i) (g (argFold g n)) = false := by
  induction n with
  | zero =>
    by_cases h : g 0 = nan
    · left; exact ⟨⟨0, le_refl _, h⟩, by simpa [argFold] using h⟩
    · right
      refine ⟨fun i hi => by obtain rfl : i = 0 := by omega
                             exact h, fun i hi => ?_⟩
      obtain rfl : i = 0 := by omega
      simp [argFold, lt_irrefl]
  | succ n ih =>
    rcases ih with ⟨⟨i, hi, hn⟩, h⟩ | ⟨h1, h2⟩
    · left
      refine ⟨⟨i, by omega, hn⟩, ?_⟩
      rw [argFold_succ, if_pos (isNaN_iff.2 h)]
      exact h
    · have hb : g (argFold g n) ≠ nan := h1 _ (argFold_le g n)
      have hb' : ¬ isNaN (g (argFold g n)) = true := fun h => hb (isNaN_iff.1 h)
      by_cases hs : g (n + 1) = nan
      · left
        refine ⟨⟨n + 1, le_refl _, hs⟩, ?_⟩
        rw [argFold_succ, if_neg hb', if_pos (isNaN_iff.2 hs)]
        exact hs
      · right
        have hs' : ¬ isNaN (g (n + 1)) = true := fun h => hs (isNaN_iff.1 h)
        constructor
        · intro i hi
          rcases Nat.lt_or_ge i (n + 1) with h | h
          · exact h1 i (by omega)
          · obtain rfl : i = n + 1 := by omega
            exact hs
        · intro i hi
          rw [argFold_succ, if_neg hb', if_neg hs']
          by_cases hl : lt (g (n + 1)) (g (argFold g n)) = true
          · rw [if_pos hl]
            rcases Nat.lt_or_ge i (n + 1) with h | h
            · exact not_lt_trans hb (lt_asymm hl) (h2 i (by omega))
            · obtain rfl : i = n + 1 := by omega
              exact lt_irrefl _
          · rw [if_neg hl]
            rcases Nat.lt_or_ge i (n + 1) with h | h
            · exact h2 i (by omega)
            · obtain rfl : i = n + 1 := by omega
              simpa using hl

theorem rowArgmin_lt {n : ℕ} (hn : 0 < n) (g : ℕ → Flt K) : rowArgmin n g < n := by
  have := argFold_le g (n - 1)
  change argFold g (n - 1) < n
  omega

/-- `argmin` returns an entry no other entry is below (if the row has no NaN). -/
theorem rowArgmin_min {n : ℕ} (g : ℕ → Flt K) (h : ∀ i < n, g i ≠ nan) :
    ∀ i < n, lt (g i) (g (rowArgmin n g)) = false := by
  intro i hi
  rcases argFold_min g (n - 1) with ⟨⟨j, hj, hn⟩, _⟩ | ⟨_, h2⟩
  · exact absurd hn (h j (by omega))
  · exact h2 i (by omega)

/-- If a row contains NaN, the entry at `argmin` is NaN. -/
theorem rowArgmin_nan {n : ℕ} (g : ℕ → Flt K) {i : ℕ} (hi : i < n) (h : g i = nan) :
    g (rowArgmin n g) = nan := by
  rcases argFold_min g (n - 1) with ⟨_, h'⟩ | ⟨h1, _⟩
  · exact h'
  · exact absurd h (h1 i (by omega))

private def minFold (g : ℕ → Flt K) (n : ℕ) : Flt K :=
  (List.range n).foldl (fun acc j => minimum acc (g (j + 1))) (g 0)

private theorem minFold_eq (g : ℕ → Flt K) (n : ℕ) : minFold g n = g (argFold g n) := by
  induction n with
  | zero => simp [minFold, argFold]
  | succ n ih =>
    have : minFold g (n + 1) = minimum (minFold g n) (g (n + 1)) := by
      unfold minFold
      rw [List.range_succ, List.foldl_append]
      rfl
    rw [this, ih, argFold_succ, minimum]
    by_cases h1 : isNaN (g (argFold g n)) = true
    · rw [if_pos h1, if_pos h1, isNaN_iff.1 h1]
    · rw [if_neg h1, if_neg h1]
      by_cases h2 : isNaN (g (n + 1)) = true
      · rw [if_pos h2, if_pos h2, isNaN_iff.1 h2]
      · rw [if_neg h2, if_neg h2]
        split_ifs <;> rfl

/-- `energy.min(axis=-1)` is the entry at `energy.argmin(axis=-1)`. -/
theorem rowMin_eq (n : ℕ) (g : ℕ → Flt K) : rowMin n g = g (rowArgmin n g) := minFold_eq g (n - 1)

end Flt

namespace Idx

theorem mem_positions {ix : Idx} {p : ℕ × ℕ} :
    p ∈ ix.positions ↔ p.1 < ix.rows ∧ p.2 < ix.cols := by
  obtain ⟨i, j⟩ := p
  simp [positions]

theorem lastPos_some {ix : Idx} {m n : ℕ} {p : ℕ × ℕ} (h : ix.lastPos m n = some p) :
    p.1 < ix.rows ∧ p.2 < ix.cols ∧ ix.run p.1 = m ∧ ix.par p.1 p.2 = n := by
  unfold lastPos at h
  have h1 := List.find?_some h
  have h2 := List.mem_of_find?_eq_some h
  rw [List.mem_reverse, mem_positions] at h2
  simp only [decide_eq_true_eq] at h1
  exact ⟨h2.1, h2.2, h1.1, h1.2⟩

theorem lastPos_none {ix : Idx} {m n : ℕ} : ix.lastPos m n = none ↔ ¬ ix.Sel m n := by
  unfold lastPos Sel
  rw [List.find?_eq_none]
  simp only [List.mem_reverse, mem_positions, decide_eq_true_eq, not_and, Prod.forall]
  constructor
  · rintro h ⟨i, hi, j, hj, h1, h2⟩
    exact h i j ⟨hi, hj⟩ h1 h2
  · intro h i j hij h1 h2
    exact h ⟨i, hij.1, j, hij.2, h1, h2⟩

theorem lastPos_of_sel {ix : Idx} {m n : ℕ} (h : ix.Sel m n) : ∃ p, ix.lastPos m n = some p := by
  cases hp : ix.lastPos m n with
  | none => exact absurd h (lastPos_none.1 hp)
  | some p => exact ⟨p, rfl⟩

/-- Row-major positions are strictly increasing in the lexicographic order. -/
theorem positions_sorted (ix : Idx) :
    ix.positions.Pairwise fun p q => p.1 < q.1 ∨ (p.1 = q.1 ∧ p.2 < q.2) := by
  unfold positions
  rw [List.pairwise_flatMap]
  refine ⟨?_, ?_⟩
  · intro i _
    rw [List.pairwise_map]
    exact List.pairwise_lt_range.imp fun h => .inr ⟨rfl, h⟩
  · refine List.pairwise_lt_range.imp ?_
    intro a b hab p hp q hq
    obtain ⟨_, -, rfl⟩ := List.mem_map.1 hp
    obtain ⟨_, -, rfl⟩ := List.mem_map.1 hq
    exact .inl hab

/-- The chosen position is the last slot of its row that addresses the particle. -/
theorem lastPos_max {ix : Idx} {m n : ℕ} {p : ℕ × ℕ} (h : ix.lastPos m n = some p) :
    ∀ j', p.2 < j' → j' < ix.cols → ix.par p.1 j' ≠ n := by
  intro j' hj hj' he
  obtain ⟨h1, h2, h3, h4⟩ := lastPos_some h
  unfold lastPos at h
  rw [List.find?_eq_some_iff_append] at h
  obtain ⟨-, as, bs, hab, hno⟩ := h
  have hs := ix.positions_sorted
  have e : ix.positions = bs.reverse ++ p :: as.reverse := by
    rw [← List.reverse_reverse ix.positions, hab]; simp
  have hmem : (p.1, j') ∈ ix.positions := mem_positions.2 ⟨h1, hj'⟩
  rw [e] at hs hmem
  rw [List.pairwise_append] at hs
  rcases List.mem_append.1 hmem with hm | hm
  · have := hs.2.2 _ hm p (by simp)
    simp only at this
    omega
  · rcases List.mem_cons.1 hm with hm | hm
    · rw [Prod.ext_iff] at hm
      simp only at hm
      omega
    · have := hno _ (List.mem_reverse.1 hm)
      simp [h3, he] at this

end Idx

namespace Mat
variable {α β γ : Type}

theorem gather_ok {a : Mat α} {ix : Idx} {r : Mat α} (h : a.gather ix = .ok r) :
    ix.InBounds a.rows a.cols ∧ r.rows = ix.rows ∧ r.cols = ix.cols ∧
      ∀ i j, r.get i j = a.get (ix.run i) (ix.par i j) := by
  unfold gather at h
  split_ifs at h with hb
  injection h with h
  subst h
  exact ⟨hb, rfl, rfl, fun _ _ => rfl⟩

theorem gather_of_inBounds {a : Mat α} {ix : Idx} (h : ix.InBounds a.rows a.cols) :
    a.gather ix = .ok ⟨ix.rows, ix.cols, fun i j => a.get (ix.run i) (ix.par i j)⟩ := by
  unfold gather; rw [if_pos h]

theorem bto_ok {r c : ℕ} {b v : Mat α} (h : bto r c b = .ok v) :
    v.rows = r ∧ v.cols = c ∧ (b.rows = r ∨ b.rows = 1) ∧ (b.cols = c ∨ b.cols = 1) ∧
      ∀ i j, v.get i j = b.get (bpos b.rows i) (bpos b.cols j) := by
  unfold bto at h
  split_ifs at h with hb
  injection h with h
  subst h
  exact ⟨rfl, rfl, hb.1, hb.2, fun _ _ => rfl⟩

theorem bpos_lt {n i : ℕ} (h : i < n) : bpos n i = i := by
  unfold bpos; split_ifs <;> omega

theorem bto_same {r c : ℕ} {b : Mat α} (h1 : b.rows = r) (h2 : b.cols = c) :
    ∃ v, bto r c b = .ok v ∧ v.rows = r ∧ v.cols = c ∧ ∀ i < r, ∀ j < c, v.get i j = b.get i j := by
  refine ⟨⟨r, c, fun i j => b.get (bpos b.rows i) (bpos b.cols j)⟩, ?_, rfl, rfl, ?_⟩
  · unfold bto; rw [if_pos ⟨Or.inl h1, Or.inl h2⟩]
  · intro i hi j hj
    simp only
    rw [bpos_lt (by omega), bpos_lt (by omega)]

theorem scatter_ok {a v r : Mat α} {ix : Idx} (h : a.scatter ix v = .ok r) :
    ix.InBounds a.rows a.cols ∧ r.rows = a.rows ∧ r.cols = a.cols ∧
      (∀ m n, ¬ ix.Sel m n → r.get m n = a.get m n) ∧
      (∀ m n, ix.Sel m n → ∃ i < ix.rows, ∃ j < ix.cols, ix.run i = m ∧ ix.par i j = n ∧
        r.get m n = v.get (bpos v.rows i) (bpos v.cols j)) ∧
      (v.rows = ix.rows ∨ v.rows = 1) ∧ (v.cols = ix.cols ∨ v.cols = 1) := by
  unfold scatter at h
  split_ifs at h with hb
  cases hv : bto ix.rows ix.cols v with
  | error e => rw [hv] at h; simp at h
  | ok v' =>
    rw [hv] at h
    simp only at h
    injection h with h
    subst h
    obtain ⟨_, _, hr, hc, hg⟩ := bto_ok hv
    refine ⟨hb, rfl, rfl, ?_, ?_, hr, hc⟩
    · intro m n hs
      simp [Idx.lastPos_none.2 hs]
    · intro m n hs
      obtain ⟨p, hp⟩ := Idx.lastPos_of_sel hs
      obtain ⟨h1, h2, h3, h4⟩ := Idx.lastPos_some hp
      exact ⟨p.1, h1, p.2, h2, h3, h4, by simp [hp, hg]⟩

theorem scatter_of_shape {a v : Mat α} {ix : Idx} (hb : ix.InBounds a.rows a.cols)
    (h1 : v.rows = ix.rows) (h2 : v.cols = ix.cols) : ∃ r, a.scatter ix v = .ok r := by
  obtain ⟨v', hv, -⟩ := bto_same (b := v) h1 h2
  unfold scatter
  rw [if_pos hb, hv]
  exact ⟨_, rfl⟩

theorem scatterAdd_ok [Add α] {a v r : Mat α} {ix : Idx} (h : a.scatterAdd ix v = .ok r) :
    ix.InBounds a.rows a.cols ∧ r.rows = a.rows ∧ r.cols = a.cols ∧
      (∀ m n, ¬ ix.Sel m n → r.get m n = a.get m n) ∧
      (∀ m n, ix.Sel m n → ∃ i < ix.rows, ∃ j < ix.cols, ix.run i = m ∧ ix.par i j = n ∧
        r.get m n = a.get m n + v.get (bpos v.rows i) (bpos v.cols j)) ∧
      (v.rows = ix.rows ∨ v.rows = 1) ∧ (v.cols = ix.cols ∨ v.cols = 1) := by
  unfold scatterAdd at h
  cases hg : a.gather ix with
  | error e => rw [hg] at h; simp at h
  | ok g =>
    rw [hg] at h
    simp only at h
    obtain ⟨_, g1, g2, g3⟩ := gather_ok hg
    cases hv : bto g.rows g.cols v with
    | error e => rw [hv] at h; simp at h
    | ok v' =>
      rw [hv] at h
      simp only at h
      obtain ⟨_, _, v1, v2, v3⟩ := bto_ok hv
      obtain ⟨s1, s2, s3, s4, s5, -, -⟩ := scatter_ok h
      refine ⟨s1, s2, s3, s4, ?_, by omega, by omega⟩
      intro m n hs
      obtain ⟨i, hi, j, hj, e1, e2, e3⟩ := s5 m n hs
      refine ⟨i, hi, j, hj, e1, e2, ?_⟩
      rw [e3]
      simp only
      rw [bpos_lt (by omega : i < g.rows), bpos_lt (by omega : j < g.cols), g3, v3, e1, e2]

/-- Which slot wins when a particle is addressed several times. -/
theorem scatterAdd_slot [Add α] {a v r : Mat α} {ix : Idx} (h : a.scatterAdd ix v = .ok r) (m n : ℕ)
    (hs : ix.Sel m n) : ∃ i < ix.rows, ∃ j < ix.cols, ix.run i = m ∧ ix.par i j = n ∧
      (∀ j', j < j' → j' < ix.cols → ix.par i j' ≠ n) ∧
      r.get m n = a.get m n + v.get (bpos v.rows i) (bpos v.cols j) := by
  unfold scatterAdd at h
  cases hg : a.gather ix with
  | error e => rw [hg] at h; simp at h
  | ok g =>
    rw [hg] at h
    simp only at h
    obtain ⟨_, g1, g2, g3⟩ := gather_ok hg
    cases hv : bto g.rows g.cols v with
    | error e => rw [hv] at h; simp at h
    | ok v' =>
      rw [hv] at h
      simp only at h
      obtain ⟨_, _, v1, v2, v3⟩ := bto_ok hv
      unfold scatter at h
      split_ifs at h with hb
      obtain ⟨p, hp⟩ := Idx.lastPos_of_sel hs
      obtain ⟨h1, h2, h3, h4⟩ := Idx.lastPos_some hp
      have h5 := Idx.lastPos_max hp
      cases hw : bto ix.rows ix.cols (⟨g.rows, g.cols, fun i j => g.get i j + v'.get i j⟩ : Mat α) with
      | error e => rw [hw] at h; simp at h
      | ok w =>
        rw [hw] at h
        simp only at h
        injection h with h
        subst h
        obtain ⟨_, _, w1, w2, w3⟩ := bto_ok hw
        refine ⟨p.1, h1, p.2, h2, h3, h4, h5, ?_⟩
        simp only [hp]
        rw [w3]
        simp only
        rw [bpos_lt (by omega : p.1 < g.rows), bpos_lt (by omega : p.2 < g.cols), g3, v3, h3, h4]

theorem scatterAdd_of_shape [Add α] {a v : Mat α} {ix : Idx} (hb : ix.InBounds a.rows a.cols)
    (h1 : v.rows = ix.rows) (h2 : v.cols = ix.cols) : ∃ r, a.scatterAdd ix v = .ok r := by
  unfold scatterAdd
  rw [gather_of_inBounds hb]
  obtain ⟨v', hv, hr, hc, -⟩ := bto_same (b := v) h1 h2
  simp only
  rw [hv]
  exact scatter_of_shape hb rfl rfl

theorem bdim_self (n : ℕ) : bdim n n = some n := by simp [bdim]

theorem bdim_one_right (n : ℕ) : bdim n 1 = some n := by
  unfold bdim; split_ifs <;> simp_all

theorem bdim_one_left (n : ℕ) : bdim 1 n = some n := by
  unfold bdim; split_ifs <;> simp_all

theorem bdim_eq_some {a b r : ℕ} (h : bdim a b = some r) :
    (a = r ∨ a = 1) ∧ (b = r ∨ b = 1) := by
  unfold bdim at h
  split_ifs at h <;> simp_all

theorem bin_ok {f : α → β → γ} {a : Mat α} {b : Mat β} {r : Mat γ} (h : bin f a b = .ok r) :
    bdim a.rows b.rows = some r.rows ∧ bdim a.cols b.cols = some r.cols ∧
      ∀ i j, r.get i j =
        f (a.get (bpos a.rows i) (bpos a.cols j)) (b.get (bpos b.rows i) (bpos b.cols j)) := by
  unfold bin at h
  split at h
  · next r' c' hr hc =>
    injection h with h
    subst h
    exact ⟨hr, hc, fun _ _ => rfl⟩
  · simp at h

theorem bin_of_dims {f : α → β → γ} {a : Mat α} {b : Mat β} {r c : ℕ}
    (hr : bdim a.rows b.rows = some r) (hc : bdim a.cols b.cols = some c) :
    bin f a b = .ok ⟨r, c, fun i j =>
      f (a.get (bpos a.rows i) (bpos a.cols j)) (b.get (bpos b.rows i) (bpos b.cols j))⟩ := by
  unfold bin; rw [hr, hc]

end Mat
end Verif
