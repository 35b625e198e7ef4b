import Verif.Model.Torch
import Verif.Proofs.Rng
import Verif.Props.Post
import Verif.Props.Sched

/-! Lemmas about PyTorch dynamics. -/

set_option linter.unusedSectionVars false

namespace Verif

section
variable {K V γ : Type} [Zero K] [One K] [Neg K] [Add K] [Sub K] [Mul K] [Inv K] [Div K] [NatCast K] [Pow K ℕ] [LinearOrder K] [Add V] [Sub V] [SMul K V]

theorem envAt_glob {R : Rng γ V} {a : SeedArgs} (ha : a.sampler = .expo) (M : ℕ) (o o' g : γ) (env : Env K V) (nf : St K V → Mat V → Except Err (Mat V)) :
    envAt R a M o g env nf = envAt R a M o' g env nf := by
  unfold envAt noiseAt callSampler
  rw [ha]

/-- Forget the dynamic's own generator. -/
def dropOwn (D : RDyn K V γ × γ) : St K V × γ := (D.1.s, D.2)

theorem rExec_glob {R : Rng γ V} {a : SeedArgs} (ha : a.sampler = .expo) {env : Env K V} {nf : St K V → Mat V → Except Err (Mat V)}
    {inner : Env K V → St K V → Except Err (St K V)} {o : Op} {D E : RDyn K V γ × γ} (h : dropOwn D = dropOwn E) :
    (rExec R a env nf inner o D).map dropOwn = (rExec R a env nf inner o E).map dropOwn := by
  obtain ⟨⟨s, o₁⟩, g⟩ := D
  obtain ⟨⟨s', o₂⟩, g'⟩ := E
  simp only [dropOwn, Prod.mk.injEq] at h
  obtain ⟨rfl, rfl⟩ := h
  unfold rExec
  simp only
  rw [envAt_glob ha s.M o₁ o₂ g env nf]
  cases exec (envAt R a s.M o₂ g env nf) (inner (envAt R a s.M o₂ g env nf)) o s with
  | error e => rfl
  | ok q =>
    simp only [bind, Except.bind, pure, Except.pure, Except.map, dropOwn]
    congr 2
    split_ifs
    · unfold afterDraw callSampler
      rw [ha]
      cases q.drift <;> rfl
    · rfl

theorem rRun_glob {R : Rng γ V} {a : SeedArgs} (ha : a.sampler = .expo) {env : Env K V} {nf : St K V → Mat V → Except Err (Mat V)}
    {inner : Env K V → St K V → Except Err (St K V)} : ∀ (l : List (Ev γ)) (D E : RDyn K V γ × γ), dropOwn D = dropOwn E →
      (rRun R a env nf inner l D).map dropOwn = (rRun R a env nf inner l E).map dropOwn
  | [], D, E, h => by simp only [rRun, Except.map, h]
  | .world f :: l, D, E, h => by
    simp only [rRun]
    refine rRun_glob ha l _ _ ?_
    simp only [dropOwn, Prod.mk.injEq] at h ⊢
    exact ⟨h.1, by rw [h.2]⟩
  | .op o :: l, D, E, h => by
    simp only [rRun]
    have h1 := rExec_glob (R := R) (env := env) (nf := nf) (inner := inner) (o := o) ha h
    cases hD : rExec R a env nf inner o D with
    | error e =>
      cases hE : rExec R a env nf inner o E with
      | error e' =>
        rw [hD, hE] at h1
        simp only [Except.map] at h1 ⊢
        simp only [bind, Except.bind]
        exact h1
      | ok E' =>
        rw [hD, hE] at h1
        cases h1
    | ok D' =>
      cases hE : rExec R a env nf inner o E with
      | error e' =>
        rw [hD, hE] at h1
        cases h1
      | ok E' =>
        rw [hD, hE] at h1
        simp only [Except.map] at h1
        injection h1 with h1
        simp only [bind, Except.bind]
        exact rRun_glob ha l D' E' h1

end

section
variable {K : Type} [Field K] [LinearOrder K] [IsStrictOrderedRing K]

theorem torchClamp_clip (t : K) (ht : 0 ≤ t) (v : Flt K) : torchClamp (-t) t v = Flt.clip (.fin (-t)) (.fin t) v := by
  cases v with
  | nan => rfl
  | fin a => rw [clip_fin t a ht, torchClamp, max_comm]
  | pinf => simp [torchClamp, Flt.clip, Flt.minimum, Flt.maximum, Flt.isNaN, Flt.lt]
  | ninf =>
    have h : -t ≤ t := by linarith
    have h2 : ¬ t < -t := by linarith
    simp [torchClamp, Flt.clip, Flt.minimum, Flt.maximum, Flt.isNaN, Flt.lt, min_eq_left h, h2]

theorem torchPostCoord_eq {big big' t : K} (ht : 0 ≤ t) (hb : t ≤ big) (hb' : t ≤ big') (v : Flt K) : torchPostCoord big t v = postCoord false big' t v := by
  have e : torchPostCoord big t v = postCoord false big t v := torchClamp_clip t ht _
  rw [e]
  obtain ⟨a1, a2, a3, -, -⟩ := C38_values big t hb ht
  obtain ⟨b1, b2, b3, -, -⟩ := C38_values big' t hb' ht
  cases v with
  | nan => rw [a1, b1]
  | pinf => rw [a2, b2]
  | ninf => rw [a3, b3]
  | fin a => rfl

/-- With exchanged bounds the solver stays strictly above the smaller one. -/
theorem bisection_above (f : (ℕ → K) → ℕ → K) (M : ℕ) (low high : ℕ → K) (maxIt : ℕ) (thresh : K) (j : ℕ) (h : high j < low j) :
    high j < (bisection f M low high maxIt thresh).x j := by
  have hs : ∀ s : Bis K, s.high j < s.low j → high j ≤ s.high j → (high j ≤ (bisBody f M thresh s).high j ∧ (bisBody f M thresh s).high j < (bisBody f M thresh s).low j) ∧
      high j < (bisBody f M thresh s).x j := by
    intro s h1 h2
    have m1 : s.high j < (s.low j + s.high j) / 2 := by linarith
    have m2 : (s.low j + s.high j) / 2 < s.low j := by linarith
    simp only [bisBody]
    refine ⟨⟨?_, ?_⟩, by linarith⟩
    · split_ifs <;> linarith
    · split_ifs with p q q
      · exact absurd (lt_trans p.2 q.2) (lt_irrefl _)
      · exact m2
      · exact m1
      · exact h1
  have key : ∀ (n : ℕ) (s : Bis K), s.high j < s.low j → high j ≤ s.high j → high j < (bisLoop f M thresh maxIt (n + 1) s).x j := by
    intro n
    induction n with
    | zero =>
      intro s h1 h2
      simp only [bisLoop]
      split_ifs <;> exact (hs s h1 h2).2
    | succ n ih =>
      intro s h1 h2
      rw [bisLoop]
      split_ifs
      · exact (hs s h1 h2).2
      · exact ih _ (hs s h1 h2).1.2 (hs s h1 h2).1.1
  exact key maxIt _ h (le_refl _)

end
end Verif
