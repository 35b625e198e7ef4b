import Verif.Proofs.Run
import Verif.Spec.Batch

/-! Helper lemmas on the tracked history. -/

set_option linter.unusedSectionVars false

namespace Verif

variable {K V : Type} [Zero K] [One K] [Neg K] [Add K] [Sub K] [Mul K] [Inv K] [Div K] [NatCast K] [Pow K ℕ] [LinearOrder K] [Add V] [Sub V] [SMul K V]

theorem applyTracks_get (s : St K V) : ∀ (l : List Track) (h : Track → List (Entry K V)) (t : Track), l.Nodup →
    applyTracks s l h t = if t ∈ l then h t ++ trackEntry s t else h t
  | [], h, t, _ => by simp [applyTracks]
  | a :: l, h, t, hn => by
    rw [List.nodup_cons] at hn
    have ih := applyTracks_get s l (fun t' => if t' = a then h a ++ trackEntry s a else h t') t hn.2
    simp only [applyTracks, List.foldl_cons] at ih ⊢
    rw [ih]
    by_cases hta : t = a
    · subst hta; simp [hn.1]
    · simp [hta]

/-- What a tracker would record in state `s` depends only on the recorded attributes. -/
theorem trackEntry_congr {s s' : St K V} (h1 : s'.updDiff = s.updDiff) (h2 : s'.energy = s.energy) (h3 : s'.x = s.x)
    (h4 : s'.cons = s.cons) (h5 : s'.drift = s.drift) (h6 : s'.pIdx = s.pIdx) (t : Track) :
    trackEntry s' t = trackEntry s t := by
  cases t <;> simp [trackEntry, *]

/-- History after one step. -/
theorem step_hist {env : Env K V} {inner : St K V → Except Err (St K V)} (hi : InnerFrame inner) {s s' : St K V}
    (h : step env inner s = .ok s') (hn : s.tracks.Nodup) (t : Track) :
    s'.hist t = (if s.it % s.saveInt = 0 ∧ t ∈ s.tracks then s.hist t ++ trackEntry s' t else s.hist t) ∧
      s.saveInt ≠ 0 := by
  obtain ⟨v, hv, hs⟩ := step_split.1 h
  have h1 := preStep_frame env s
  have h2 := hi _ _ hv
  have pf := postStep_facts hs
  have vs : v.saveInt = s.saveInt := by rw [h2]; simp only; rw [h1]
  have vt : v.tracks = s.tracks := by rw [h2]; simp only; rw [h1]
  have vh : v.hist = s.hist := by rw [h2]; simp only; rw [h1]
  have vi : v.it = s.it := by rw [h2]; simp only; rw [h1]
  refine ⟨?_, by rw [← vs]; exact pf.saveInt⟩
  obtain ⟨q, hq, hh⟩ := pf.hist
  rw [hh, vi, vs, vt, vh]
  by_cases hc : s.it % s.saveInt = 0
  · rw [if_pos hc, applyTracks_get _ _ _ _ hn]
    simp only [hc, true_and]
    rw [trackEntry_congr (s := s') (s' := q)] <;> rw [hq]
  · rw [if_neg hc, if_neg (fun hx => hc hx.1)]

theorem ceil_step (k n : ℕ) (hn : n ≠ 0) :
    (k + 1 + n - 1) / n = (k + n - 1) / n + if k % n = 0 then 1 else 0 := by
  have hpos : 0 < n := Nat.pos_of_ne_zero hn
  have e := Nat.div_add_mod k n
  have hm := Nat.mod_lt k hpos
  have h1 : (k + 1 + n - 1) / n = k / n + 1 := by
    have : k + 1 + n - 1 = k + n := by omega
    rw [this, Nat.add_div_right _ hpos]
  rw [h1]
  split_ifs with hc
  · congr 1
    symm
    rw [Nat.div_eq_of_lt_le] <;> rw [hc] at e
    · rw [Nat.mul_comm]; omega
    · rw [Nat.succ_mul, Nat.mul_comm]; omega
  · symm
    rw [Nat.add_zero]
    apply Nat.div_eq_of_lt_le
    · rw [Nat.succ_mul, Nat.mul_comm]; omega
    · rw [Nat.succ_mul, Nat.succ_mul, Nat.mul_comm]; omega

/-- Number of entries of tracker `t` at construction. -/
def off (t : Track) : ℕ := if t = .x then 1 else 0

structure HistInv (a : Args K V) (k : ℕ) (s : St K V) : Prop where
  it : s.it = k
  tracks : s.tracks = a.tracks
  saveInt : s.saveInt = a.saveInt
  len : ∀ t ∈ a.tracks, (∀ i, t ≠ .other i) → (s.hist t).length = (k + a.saveInt - 1) / a.saveInt + off t

theorem trackEntry_len (s : St K V) {t : Track} (h : ∀ i, t ≠ .other i) : (trackEntry s t).length = 1 := by
  cases t <;> first | rfl | exact absurd rfl (h _)

theorem exec_noreset {env : Env K V} {inner : St K V → Except Err (St K V)} {o : Op}
    (ho : o ≠ .step ∧ o ≠ .reset) {s s' : St K V} (h : exec env inner o s = .ok s') :
    s'.it = s.it ∧ s'.tracks = s.tracks ∧ s'.saveInt = s.saveInt ∧ s'.hist = s.hist := by
  cases o with
  | step => exact absurd rfl ho.1
  | reset => exact absurd rfl ho.2
  | select => rw [select_frame h]; exact ⟨rfl, rfl, rfl, rfl⟩
  | sched => rw [sched_frame h]; exact ⟨rfl, rfl, rfl, rfl⟩

theorem histInv_exec {env : Env K V} {inner : St K V → Except Err (St K V)} (hi : InnerFrame inner) {a : Args K V}
    (hn : a.tracks.Nodup) {o : Op} (ho : o ≠ .reset) {s s' : St K V} {k : ℕ} (hI : HistInv a k s)
    (h : exec env inner o s = .ok s') :
    HistInv a (if o = .step then k + 1 else k) s' ∧ ∀ t, s.hist t <+: s'.hist t := by
  by_cases hs : o = .step
  · subst hs
    have f := step_frame hi h
    have hh := step_hist hi h (by rw [hI.tracks]; exact hn)
    rw [if_pos rfl]
    refine ⟨⟨by rw [f.it, hI.it], by rw [f.tracks, hI.tracks], by rw [f.saveInt, hI.saveInt], ?_⟩, ?_⟩
    · intro t ht hto
      rw [(hh t).1, hI.it, hI.saveInt, hI.tracks]
      have hne : a.saveInt ≠ 0 := by rw [← hI.saveInt]; exact (hh t).2
      rw [ceil_step k _ hne]
      by_cases hc : k % a.saveInt = 0
      · rw [if_pos ⟨hc, ht⟩, if_pos hc, List.length_append, hI.len t ht hto, trackEntry_len _ hto]; omega
      · rw [if_neg (fun hx => hc hx.1), if_neg hc, hI.len t ht hto]; omega
    · intro t
      rw [(hh t).1]
      split_ifs
      · exact List.prefix_append _ _
      · exact List.prefix_refl _
  · rw [if_neg hs]
    obtain ⟨e1, e2, e3, e4⟩ := exec_noreset ⟨hs, ho⟩ h
    exact ⟨⟨by rw [e1, hI.it], by rw [e2, hI.tracks], by rw [e3, hI.saveInt], by rw [e4]; exact hI.len⟩,
      fun t => by rw [e4]⟩

theorem histInv_execAll {env : Env K V} {inner : St K V → Except Err (St K V)} (hi : InnerFrame inner) {a : Args K V}
    (hn : a.tracks.Nodup) : ∀ {ops : List Op} {s s' : St K V} {k : ℕ}, Op.reset ∉ ops → HistInv a k s →
      execAll env inner ops s = .ok s' → HistInv a (k + nSteps ops) s' ∧ ∀ t, s.hist t <+: s'.hist t
  | [], s, s', k, _, hI, h => by
    simp only [execAll] at h
    injection h with h
    subst h
    exact ⟨hI, fun t => List.prefix_refl _⟩
  | o :: l, s, s', k, hr, hI, h => by
    simp only [execAll, bind_ok] at h
    obtain ⟨b, hb, h⟩ := h
    simp only [List.mem_cons, not_or] at hr
    obtain ⟨h1, h2⟩ := histInv_exec hi hn (Ne.symm hr.1) hI hb
    obtain ⟨h3, h4⟩ := histInv_execAll hi hn hr.2 h1 h
    refine ⟨?_, fun t => (h2 t).trans (h4 t)⟩
    have e : k + nSteps (o :: l) = (if o = .step then k + 1 else k) + nSteps l := by
      unfold nSteps
      rw [List.count_cons]
      by_cases ho : o = .step
      · simp [ho]; omega
      · simp [ho]
    rw [e]
    exact h3

theorem histInv_init {env : Env K V} {a : Args K V} {s : St K V} (h : init env a = .ok s) (hs : 1 ≤ a.saveInt) :
    HistInv a 0 s := by
  have e : s.it = 0 ∧ s.tracks = a.tracks ∧ s.saveInt = a.saveInt ∧ ∀ t, (s.hist t).length = off t := by
    unfold init at h
    split_ifs at h <;>
      (injection h with h
       rw [← h]
       refine ⟨rfl, rfl, rfl, fun t => ?_⟩
       cases t <;> rfl)
  refine ⟨e.1, e.2.1, e.2.2.1, ?_⟩
  intro t _ _
  rw [e.2.2.2, Nat.zero_add, Nat.div_eq_of_lt (by omega), Nat.zero_add]

end Verif
