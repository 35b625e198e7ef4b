import Verif.Model.Post
import Verif.Proofs.Local
import Verif.Spec.Example

/-! Property C38: post-processing. -/

set_option linter.unusedSectionVars false

namespace Verif

section
variable {K : Type} [Field K] [LinearOrder K] [IsStrictOrderedRing K]

theorem clip_fin (t a : K) (ht : 0 ≤ t) :
    Flt.clip (.fin (-t)) (.fin t) (.fin a) = .fin (min (max a (-t)) t) := by
  simp only [Flt.clip, Flt.minimum, Flt.maximum, Flt.isNaN, Flt.lt]
  simp only [Bool.false_eq_true, if_false, decide_eq_true_eq]
  by_cases h : a < -t
  · rw [if_pos h, max_eq_right h.le]
    simp only [Flt.lt, decide_eq_true_eq, Bool.false_eq_true, if_false]
    rw [if_neg (by linarith), min_eq_left (by linarith)]
  · rw [if_neg h, max_eq_left (not_lt.1 h)]
    simp only [Flt.lt, decide_eq_true_eq, Bool.false_eq_true, if_false]
    split_ifs with h2
    · rw [min_eq_right h2.le]
    · rw [min_eq_left (not_lt.1 h2)]

/-- **C38, single coordinate.** The default post processing turns every coordinate, finite or not, into a finite number in
`[-max_thresh, max_thresh]`. -/
theorem C38_bounded (big t : K) (ht : 0 ≤ t) (v : Flt K) :
    ∃ a : K, postCoord false big t v = .fin a ∧ -t ≤ a ∧ a ≤ t := by
  have key : ∀ b : K, ∃ a : K, Flt.clip (.fin (-t)) (.fin t) (.fin b) = .fin a ∧ -t ≤ a ∧ a ≤ t := fun b =>
    ⟨_, clip_fin t b ht, le_min (le_max_right _ _) (by linarith), min_le_right _ _⟩
  cases v <;> exact key _

/-- **C38, values in range are kept**, whatever the `copy_nan_to_num` flag. -/
theorem C38_unchanged (copy : Bool) (big t a : K) (h1 : -t ≤ a) (h2 : a ≤ t) :
    postCoord copy big t (.fin a) = .fin a := by
  have : postCoord copy big t (.fin a) = Flt.clip (.fin (-t)) (.fin t) (.fin a) := by cases copy <;> rfl
  rw [this, clip_fin t a (by linarith), max_eq_left h1, min_eq_left h2]

/-- **C38, out-of-range values** go to the nearest bound, infinities to the bound of their sign, NaN to `max_thresh`. -/
theorem C38_values (big t : K) (hb : t ≤ big) (ht : 0 ≤ t) :
    postCoord false big t .nan = .fin t ∧ postCoord false big t .pinf = .fin t ∧
    postCoord false big t .ninf = .fin (-t) ∧
    (∀ a, t < a → postCoord false big t (.fin a) = .fin t) ∧
    (∀ a, a < -t → postCoord false big t (.fin a) = .fin (-t)) := by
  refine ⟨?_, ?_, ?_, fun a ha => ?_, fun a ha => ?_⟩
  · show Flt.clip _ _ (.fin t) = _
    rw [clip_fin t t ht, max_eq_left (by linarith), min_self]
  · show Flt.clip _ _ (.fin big) = _
    rw [clip_fin t big ht, max_eq_left (by linarith), min_eq_right hb]
  · show Flt.clip _ _ (.fin (-big)) = _
    rw [clip_fin t (-big) ht, max_eq_right (by linarith), min_eq_left (by linarith)]
  · show Flt.clip _ _ (.fin a) = _
    rw [clip_fin t a ht, max_eq_left (by linarith), min_eq_right ha.le]
  · show Flt.clip _ _ (.fin a) = _
    rw [clip_fin t a ht, max_eq_right ha.le, min_eq_left (by linarith)]

variable {ι : Type}

/-- **C38 in the dynamic.** After every step of any dynamic with the default post processing, every coordinate of every
particle is a finite number in `[-max_thresh, max_thresh]`, whatever the inner step did (NaN, infinities). -/
theorem C38_step (env : Env K (ι → Flt K)) (inner : St K (ι → Flt K) → Except Err (St K (ι → Flt K))) (big t : K)
    (ht : 0 ≤ t) (hpost : env.post = postDefault false big t) (s s' : St K (ι → Flt K))
    (h : step env inner s = .ok s') (m n : ℕ) (i : ι) :
    ∃ a : K, s'.x.get m n i = .fin a ∧ -t ≤ a ∧ a ≤ t := by
  have hpm : PostMap env fun v i => postCoord false big t (v i) := fun q => by rw [hpost]; rfl
  obtain ⟨v, hv⟩ := step_image hpm h m n
  rw [hv]
  exact C38_bounded big t ht (v i)

/-- **C38, all times.** From the first step on, and through any further sequence of operations, all coordinates stay finite
and in range. -/
theorem C38_forever_partial (env : Env K (ι → Flt K)) (inner : St K (ι → Flt K) → Except Err (St K (ι → Flt K))) (big t : K)
    (ht : 0 ≤ t) (hpost : env.post = postDefault false big t) (ops : List Op) :
    ∀ (s₀ s₁ s : St K (ι → Flt K)), step env inner s₀ = .ok s₁ → execAll env inner ops s₁ = .ok s →
    ∀ m n i, ∃ a : K, s.x.get m n i = .fin a ∧ -t ≤ a ∧ a ≤ t := by
  intro s₀ s₁ s h0 h
  have h1 := C38_step env inner big t ht hpost s₀ s₁ h0
  clear h0
  induction ops generalizing s₁ with
  | nil =>
    simp only [execAll] at h
    injection h with h
    subst h
    exact h1
  | cons o l ih =>
    simp only [execAll, bind_ok] at h
    obtain ⟨q, hq, hl⟩ := h
    refine ih q hl ?_
    cases o with
    | step => exact C38_step env inner big t ht hpost s₁ q hq
    | select => have f := select_frame hq; rw [f]; exact h1
    | sched => have f := sched_frame hq; rw [f]; exact h1
    | reset =>
      simp only [exec] at hq
      injection hq with hq
      subst hq
      exact h1

/-- On finite particles the default post processing is coordinatewise clipping. -/
theorem C38_finite (copy : Bool) (big t : K) (ht : 0 ≤ t) (v : ι → K) (i : ι) :
    postCoord copy big t (.fin (v i)) = .fin (clipVec t v i) := by
  have : postCoord copy big t (.fin (v i)) = Flt.clip (.fin (-t)) (.fin t) (.fin (v i)) := by cases copy <;> rfl
  rw [this, clip_fin t _ ht]; rfl

end

/-- **C38 fails for `copy_nan_to_num=True`** (the setting of `RegCombinationCBO`, `regcombinationcbo.py:44`): the result of
`np.nan_to_num` is discarded, so NaN coordinates survive the post processing for every threshold. -/
theorem C38_regcombination_false {K : Type} [Zero K] [One K] [Neg K] [Add K] [Sub K] [Mul K] [Inv K] [Div K] [NatCast K] [Pow K ℕ] [LinearOrder K] (big t : K) : postCoord true big t .nan = .nan := rfl

/-- C38: a post-processed array with NaN, infinite, large and small entries. -/
example : (List.map (postCoord false (1000 : ℚ) 100) [.nan, .pinf, .ninf, .fin 7, .fin 500, .fin (-101)]) =
    [.fin 100, .fin 100, .fin (-100), .fin 7, .fin 100, .fin (-100)] := by decide +kernel

/-- C38: a concrete dynamic on `Flt ℚ` with NaN in the initial ensemble: the first step succeeds and repairs it. -/
example :
    let env : Env ℚ (Unit → Flt ℚ) :=
      { f := fun v => Flt.mul (v ()) (v ()), cons := .mean fun l => match l with | [] => fun _ => .fin 0 | p :: _ => p.2.2
        noise := fun s => match s.drift with | some d => .ok d | none => .error .attribute
        corr := .none, post := postDefault false 1000 100, normDiff := fun _ => .fin 0, sqrtK := id
        perm := fun _ _ _ j => j, sampler := fun _ _ _ _ => .fin 1, custom := fun _ _ _ => false
        sched := fun s => .ok ⟨s.alpha, s.lamda, s.sigma, s.dt⟩ }
    let a : Args ℚ (Unit → Flt ℚ) :=
      { x0 := ⟨1, 2, fun _ j _ => if j = 0 then .nan else .pinf⟩, alpha := 1, lamda := 1, sigma := 1, dt := 1, terms := []
        tracks := [], saveInt := 1, batchSize := none, batchPartial := true, batchConcat := false, checkF := false }
    (match init env a with
     | .error _ => false
     | .ok s => match step env (cboInner env) s with
       | .error _ => false
       | .ok s' => decide (s'.x.get 0 0 () = .fin 100)) = true := by decide +kernel

end Verif
