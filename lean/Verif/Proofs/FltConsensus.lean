import Verif.Model.FltConsensus
import Verif.Proofs.Consensus
import Verif.Proofs.Local
import Verif.Proofs.Total
import Verif.Spec.Consensus
import Verif.Spec.FltConsensus
import Verif.Spec.Post
import Mathlib.Tactic.Linarith

/-! Lemmas on the default consensus with IEEE values. -/

set_option linter.unusedSectionVars false

namespace Verif

namespace Flt

theorem add_nan_r (a : Flt ℝ) : add a nan = nan := by cases a <;> rfl

theorem mul_nan (a : Flt ℝ) : mul a nan = nan := by cases a <;> rfl

theorem foldl_nan_r (l : List (Flt ℝ)) : l.foldl add nan = nan := by
  induction l with
  | nil => rfl
  | cons a l ih => exact ih

theorem foldl_add_nan {l : List (Flt ℝ)} (h : nan ∈ l) (a : Flt ℝ) : l.foldl add a = nan := by
  induction l generalizing a with
  | nil => cases h
  | cons b l ih =>
    rcases List.mem_cons.1 h with rfl | h
    · rw [List.foldl_cons, add_nan_r, foldl_nan_r]
    · exact ih h _

/-- A NaN summand makes the sum NaN. -/
theorem sum_nan_r {l : List (Flt ℝ)} (h : nan ∈ l) : sum l = nan := foldl_add_nan h _

theorem foldl_fin (l : List ℝ) (a : ℝ) : (l.map fin).foldl add (fin a) = fin (a + l.sum) := by
  induction l generalizing a with
  | nil => simp
  | cons b l ih =>
    rw [List.map_cons, List.foldl_cons, List.sum_cons, ← add_assoc]
    exact ih (a + b)

theorem sum_fin (l : List ℝ) : sum (l.map fin) = fin l.sum := by
  rw [sum, foldl_fin, zero_add]

theorem foldl_pinf {l : List (Flt ℝ)} (h : ninf ∉ l) : l.foldl add pinf = nan ∨ l.foldl add pinf = pinf := by
  induction l with
  | nil => exact .inr rfl
  | cons b l ih =>
    have h1 : ninf ∉ l := fun q => h (List.mem_cons_of_mem _ q)
    rw [List.foldl_cons]
    cases b with
    | nan => exact .inl (foldl_nan_r l)
    | ninf => exact absurd (List.mem_cons_self ..) h
    | fin a => exact ih h1
    | pinf => exact ih h1

theorem foldl_add_pinf {l : List (Flt ℝ)} (h : ninf ∉ l) (hp : pinf ∈ l) (a : Flt ℝ) (ha : a ≠ ninf) :
    l.foldl add a = nan ∨ l.foldl add a = pinf := by
  induction l generalizing a with
  | nil => cases hp
  | cons b l ih =>
    have h1 : ninf ∉ l := fun q => h (List.mem_cons_of_mem _ q)
    rw [List.foldl_cons]
    rcases List.mem_cons.1 hp with rfl | hp
    · cases a with
      | nan => exact .inl (foldl_nan_r l)
      | ninf => exact absurd rfl ha
      | fin a => exact foldl_pinf h1
      | pinf => exact foldl_pinf h1
    · refine ih h1 hp _ ?_
      cases b with
      | ninf => exact absurd (List.mem_cons_self ..) h
      | nan => rw [add_nan_r]; exact fun q => by cases q
      | fin b => cases a <;> first | exact absurd rfl ha | exact fun q => by cases q
      | pinf => cases a <;> first | exact absurd rfl ha | exact fun q => by cases q

/-- A sum with a summand `+inf` and none `-inf` is `+inf` or NaN. -/
theorem sum_pinf_r {l : List (Flt ℝ)} (h : ninf ∉ l) (hp : pinf ∈ l) : sum l = nan ∨ sum l = pinf :=
  foldl_add_pinf h hp _ (fun q => by cases q)

theorem exp_ne_ninf (a : Flt ℝ) : exp a ≠ ninf := by cases a <;> exact fun q => by cases q

/-- The value of a weight that is `-inf` or finite, as the exponential sees it. -/
noncomputable def expVal : Flt ℝ → ℝ
  | fin a => Real.exp a
  | _ => 0

theorem exp_sub {v : Flt ℝ} (h : v = ninf ∨ ∃ a, v = fin a) (m : ℝ) : exp (sub v (fin m)) = fin (expVal v * Real.exp (-m)) := by
  rcases h with rfl | ⟨a, rfl⟩
  · show fin 0 = fin (0 * Real.exp (-m))
    rw [zero_mul]
  · show fin (Real.exp (a + -m)) = _
    rw [Real.exp_add, expVal]

theorem sum_expVal_pos {w : List (Flt ℝ)} (h : ∃ a, fin a ∈ w) : 0 < (w.map expVal).sum := by
  obtain ⟨a, ha⟩ := h
  have h0 : ∀ v : Flt ℝ, 0 ≤ expVal v := fun v => by
    cases v <;> first | exact le_refl _ | exact (Real.exp_pos _).le
  have h1 : expVal (fin a) ≤ (w.map expVal).sum :=
    List.single_le_sum (fun x hx => by obtain ⟨v, -, rfl⟩ := List.mem_map.1 hx; exact h0 v) _ (List.mem_map.2 ⟨_, ha, rfl⟩)
  exact lt_of_lt_of_le (Real.exp_pos a) h1

end Flt

open Flt

/-- The weights decide: NaN weight, `+inf` weight or only `-inf` weights. -/
def BadWeights (w : List (Flt ℝ)) : Prop := .nan ∈ w ∨ .pinf ∈ w ∨ ∀ v ∈ w, v = .ninf

theorem fltLse_good {w : List (Flt ℝ)} (h : ∀ v ∈ w, v = .ninf ∨ ∃ a, v = .fin a) (hf : ∃ a, .fin a ∈ w) :
    fltLse w = .fin (Real.log (w.map expVal).sum) := by
  have hs := sum_expVal_pos hf
  have e : (w.map fun v => Flt.exp (Flt.sub v (.fin (lseShift w)))) =
      (w.map fun v => expVal v * Real.exp (-lseShift w)).map .fin := by
    rw [List.map_map]
    exact List.map_congr_left fun v hv => exp_sub (h v hv) _
  have hp : 0 < (w.map expVal).sum * Real.exp (-lseShift w) := mul_pos hs (Real.exp_pos _)
  rw [fltLse, e, sum_fin, List.sum_map_mul_right]
  show Flt.add (if _ then _ else if _ then _ else _) _ = _
  rw [if_neg (not_lt.2 hp.le), if_neg hp.ne', Real.log_mul hs.ne' (Real.exp_pos _).ne', Real.log_exp]
  show Flt.fin _ = _
  rw [neg_add_cancel_right]

theorem fltLse_nan {w : List (Flt ℝ)} (h : .nan ∈ w) : fltLse w = .nan := by
  have : Flt.nan ∈ w.map fun v => Flt.exp (Flt.sub v (.fin (lseShift w))) := List.mem_map.2 ⟨_, h, rfl⟩
  rw [fltLse, sum_nan_r this]
  rfl

theorem fltLse_pinf {w : List (Flt ℝ)} (h : .pinf ∈ w) : fltLse w = .nan ∨ fltLse w = .pinf := by
  have h1 : Flt.pinf ∈ w.map fun v => Flt.exp (Flt.sub v (.fin (lseShift w))) := List.mem_map.2 ⟨_, h, rfl⟩
  have h2 : Flt.ninf ∉ w.map fun v => Flt.exp (Flt.sub v (.fin (lseShift w))) := fun q => by
    obtain ⟨v, -, hv⟩ := List.mem_map.1 q
    exact exp_ne_ninf _ hv
  rw [fltLse]
  rcases sum_pinf_r h2 h1 with e | e <;> rw [e]
  · exact .inl rfl
  · exact .inr rfl

theorem fltLse_ninf {w : List (Flt ℝ)} (h : ∀ v ∈ w, v = .ninf) : fltLse w = .ninf := by
  have e : (w.map fun v => Flt.exp (Flt.sub v (.fin (lseShift w)))) = (w.map fun _ => (0 : ℝ)).map .fin := by
    rw [List.map_map]
    exact List.map_congr_left fun v hv => by rw [h v hv]; rfl
  have : (w.map fun _ => (0 : ℝ)).sum = 0 := by simp
  rw [fltLse, e, sum_fin, this]
  show Flt.add (if _ then _ else if _ then _ else _) _ = _
  rw [if_neg (lt_irrefl _), if_pos rfl]
  rfl

section
variable {V : Type}

/-- Bad weights make one of the coefficients NaN. -/
theorem fltCoeff_bad {l : List (ℝ × Flt ℝ × V)} (hl : l ≠ []) (h : BadWeights (l.map fltWeight)) :
    ∃ p ∈ l, fltCoeff l p = .nan := by
  rcases h with h | h | h
  · obtain ⟨p, hp, -⟩ := List.mem_map.1 h
    refine ⟨p, hp, ?_⟩
    rw [fltCoeff, fltLse_nan h]
    show Flt.exp (Flt.add _ .nan) = _
    rw [add_nan_r]
    rfl
  · obtain ⟨p, hp, e⟩ := List.mem_map.1 h
    refine ⟨p, hp, ?_⟩
    rw [fltCoeff, e]
    rcases fltLse_pinf h with q | q <;> rw [q] <;> rfl
  · obtain ⟨p, hp⟩ := List.exists_mem_of_ne_nil l hl
    refine ⟨p, hp, ?_⟩
    rw [fltCoeff, fltLse_ninf h, h _ (List.mem_map.2 ⟨p, hp, rfl⟩)]
    rfl

/-- Good weights: the coefficients are the normalised exponentials. -/
theorem fltCoeff_good {l : List (ℝ × Flt ℝ × V)} (h : ∀ v ∈ l.map fltWeight, v = .ninf ∨ ∃ a, v = .fin a)
    (hf : ∃ a, .fin a ∈ l.map fltWeight) {p : ℝ × Flt ℝ × V} (hp : p ∈ l) :
    fltCoeff l p = .fin (expVal (fltWeight p) / ((l.map fltWeight).map expVal).sum) := by
  rw [fltCoeff, fltLse_good h hf, exp_sub (h _ (List.mem_map.2 ⟨p, hp, rfl⟩)), Real.exp_neg,
    Real.exp_log (sum_expVal_pos hf), div_eq_mul_inv]

theorem weights_cases (w : List (Flt ℝ)) :
    BadWeights w ∨ ((∀ v ∈ w, v = .ninf ∨ ∃ a, v = .fin a) ∧ ∃ a, .fin a ∈ w) := by
  by_cases h1 : Flt.nan ∈ w
  · exact .inl (.inl h1)
  by_cases h2 : Flt.pinf ∈ w
  · exact .inl (.inr (.inl h2))
  have h3 : ∀ v ∈ w, v = .ninf ∨ ∃ a, v = .fin a := fun v hv => by
    cases v with
    | nan => exact absurd hv h1
    | pinf => exact absurd hv h2
    | ninf => exact .inl rfl
    | fin a => exact .inr ⟨a, rfl⟩
  by_cases h4 : ∃ a, Flt.fin a ∈ w
  · exact .inr ⟨h3, h4⟩
  · refine .inl (.inr (.inr fun v hv => ?_))
    rcases h3 v hv with e | ⟨a, rfl⟩
    · exact e
    · exact absurd ⟨a, hv⟩ h4

theorem sum_coeff_good {l : List (ℝ × Flt ℝ × V)} (h : ∀ v ∈ l.map fltWeight, v = .ninf ∨ ∃ a, v = .fin a)
    (hf : ∃ a, .fin a ∈ l.map fltWeight) : Flt.sum (l.map (fltCoeff l)) = .fin 1 := by
  have e : l.map (fltCoeff l) =
      (l.map fun p => expVal (fltWeight p) * (((l.map fltWeight).map expVal).sum)⁻¹).map .fin := by
    rw [List.map_map]
    exact List.map_congr_left fun p hp => by rw [fltCoeff_good h hf hp, div_eq_mul_inv]; rfl
  have hs := sum_expVal_pos hf
  rw [e, sum_fin, List.sum_map_mul_right]
  rw [List.map_map] at hs ⊢
  exact congrArg _ (mul_inv_cancel₀ hs.ne')

end

section
variable {ι : Type}

theorem consFlt_bad {l : List (ℝ × Flt ℝ × (ι → Flt ℝ))} (hl : l ≠ []) (h : BadWeights (l.map fltWeight)) (k : ι) :
    consFlt l k = .nan := by
  obtain ⟨p, hp, e⟩ := fltCoeff_bad hl h
  refine sum_nan_r (List.mem_map.2 ⟨p, hp, ?_⟩)
  rw [e, mul_nan]

theorem consFlt_good {l : List (ℝ × Flt ℝ × (ι → Flt ℝ))} (h : ∀ v ∈ l.map fltWeight, v = .ninf ∨ ∃ a, v = .fin a)
    (hf : ∃ a, .fin a ∈ l.map fltWeight) (x : (ι → Flt ℝ) → ι → ℝ) (hx : ∀ p ∈ l, ∀ k, p.2.2 k = .fin (x p.2.2 k)) (k : ι) :
    consFlt l k = .fin ((l.map fun p => expVal (fltWeight p) * x p.2.2 k).sum / ((l.map fltWeight).map expVal).sum) := by
  have e : (l.map fun p => Flt.mul (p.2.2 k) (fltCoeff l p)) =
      (l.map fun p => expVal (fltWeight p) * x p.2.2 k * (((l.map fltWeight).map expVal).sum)⁻¹).map .fin := by
    rw [List.map_map]
    refine List.map_congr_left fun p hp => ?_
    rw [fltCoeff_good h hf hp, hx p hp k]
    show Flt.fin _ = Flt.fin _
    rw [div_eq_mul_inv]
    congr 1
    ring
  rw [consFlt, e, sum_fin, List.sum_map_mul_right, div_eq_mul_inv]

end

/-- The number in a finite value. -/
def finVal : Flt ℝ → ℝ
  | .fin a => a
  | _ => 0

theorem mul_neg_pinf {a : ℝ} (ha : 0 < a) : Flt.mul (.fin (-a)) .pinf = .ninf := by
  show Flt.infTimes (-a) = _
  rw [Flt.infTimes, if_neg (by linarith), if_pos (by linarith)]

theorem mul_neg_ninf {a : ℝ} (ha : 0 < a) : Flt.mul (.fin (-a)) .ninf = .pinf := by
  show Flt.neg (Flt.infTimes (-a)) = _
  rw [Flt.infTimes, if_neg (by linarith), if_pos (by linarith)]
  rfl

/-- For positive `alpha` the weights are good exactly if the energies are usable. -/
theorem good_of_usable {V : Type} {a : ℝ} (ha : 0 < a) {l : List (ℝ × Flt ℝ × V)} (hl : ∀ p ∈ l, p.1 = a)
    (hu : Usable (l.map fun p => p.2)) :
    (∀ v ∈ l.map fltWeight, v = .ninf ∨ ∃ b, v = .fin b) ∧ ∃ b, .fin b ∈ l.map fltWeight := by
  obtain ⟨h1, q, hq, e, he⟩ := hu
  constructor
  · intro v hv
    obtain ⟨p, hp, rfl⟩ := List.mem_map.1 hv
    have h2 := h1 _ (List.mem_map.2 ⟨p, hp, rfl⟩)
    obtain ⟨b, f, w⟩ := p
    have hb : b = a := hl _ hp
    subst hb
    cases f with
    | nan => exact absurd rfl h2.1
    | ninf => exact absurd rfl h2.2
    | fin c => exact .inr ⟨_, rfl⟩
    | pinf => exact .inl (mul_neg_pinf ha)
  · obtain ⟨p, hp, rfl⟩ := List.mem_map.1 hq
    refine ⟨-p.1 * e, List.mem_map.2 ⟨p, hp, ?_⟩⟩
    rw [fltWeight, he]
    rfl

theorem bad_of_not_usable {V : Type} {a : ℝ} (ha : 0 < a) {l : List (ℝ × Flt ℝ × V)} (hl : ∀ p ∈ l, p.1 = a)
    (hu : ¬ Usable (l.map fun p => p.2)) : BadWeights (l.map fltWeight) := by
  rcases weights_cases (l.map fltWeight) with h | ⟨h1, h2⟩
  · exact h
  · refine absurd ⟨fun q hq => ?_, ?_⟩ hu
    · obtain ⟨p, hp, rfl⟩ := List.mem_map.1 hq
      obtain ⟨b, f, w⟩ := p
      have hb : b = a := hl _ hp
      subst hb
      have h3 := h1 _ (List.mem_map.2 ⟨_, hp, rfl⟩)
      constructor
      · rintro rfl
        rcases h3 with h3 | ⟨_, h3⟩ <;> cases h3
      · rintro rfl
        rw [fltWeight, mul_neg_ninf ha] at h3
        rcases h3 with h3 | ⟨_, h3⟩ <;> cases h3
    · obtain ⟨b, hb⟩ := h2
      obtain ⟨p, hp, e⟩ := List.mem_map.1 hb
      refine ⟨p.2, List.mem_map.2 ⟨p, hp, rfl⟩, ?_⟩
      obtain ⟨c, f, w⟩ := p
      have hc : c = a := hl _ hp
      subst hc
      cases f with
      | nan => cases e
      | ninf => rw [fltWeight, mul_neg_ninf ha] at e; cases e
      | fin c => exact ⟨c, rfl⟩
      | pinf => rw [fltWeight, mul_neg_pinf ha] at e; cases e

theorem finitePart_sum {V : Type} {a : ℝ} (ha : 0 < a) (l : List (Flt ℝ × V)) (g : V → ℝ)
    (h : ∀ p ∈ l, p.1 ≠ .nan ∧ p.1 ≠ .ninf) :
    (l.map fun p => expVal (Flt.mul (.fin (-a)) p.1) * g p.2).sum =
      ((finitePart l).map fun p => Real.exp (-(a * p.1)) * g p.2).sum := by
  induction l with
  | nil => rfl
  | cons p l ih =>
    have ih := ih fun q hq => h q (List.mem_cons_of_mem _ hq)
    have h0 := h p (List.mem_cons_self ..)
    obtain ⟨f, v⟩ := p
    cases f with
    | nan => exact absurd rfl h0.1
    | ninf => exact absurd rfl h0.2
    | fin e =>
      rw [List.map_cons, List.sum_cons, ih, finitePart, List.map_cons, List.sum_cons]
      show Real.exp (-a * e) * _ + _ = _
      rw [neg_mul]
    | pinf =>
      have e : finitePart ((Flt.pinf, v) :: l) = finitePart l := rfl
      rw [List.map_cons, List.sum_cons, ih, e]
      show expVal (Flt.mul _ .pinf) * _ + _ = _
      rw [mul_neg_pinf ha]
      show 0 * _ + _ = _
      rw [zero_mul, zero_add]

/-- A row of equal finite particles with finite energy has this particle as consensus point. -/
theorem consFlt_const {ι : Type} {l : List (ℝ × Flt ℝ × (ι → Flt ℝ))} (hl : l ≠ []) (t e : ℝ)
    (h : ∀ p ∈ l, p.2.1 = .fin e ∧ p.2.2 = fun _ => .fin t) (k : ι) : consFlt l k = .fin t := by
  have w : ∀ p ∈ l, fltWeight p = .fin (-p.1 * e) := fun p hp => by rw [fltWeight, (h p hp).1]; rfl
  have g1 : ∀ v ∈ l.map fltWeight, v = .ninf ∨ ∃ a, v = .fin a := fun v hv => by
    obtain ⟨p, hp, rfl⟩ := List.mem_map.1 hv
    exact .inr ⟨_, w p hp⟩
  have g2 : ∃ a, .fin a ∈ l.map fltWeight := by
    obtain ⟨p, hp⟩ := List.exists_mem_of_ne_nil l hl
    exact ⟨_, List.mem_map.2 ⟨p, hp, w p hp⟩⟩
  rw [consFlt_good g1 g2 (fun _ _ => t) (fun p hp k => by rw [(h p hp).2])]
  have hs := sum_expVal_pos g2
  rw [List.sum_map_mul_right, List.map_map]
  rw [List.map_map] at hs
  exact congrArg _ (by rw [mul_comm]; exact mul_div_cancel_right₀ t hs.ne')

theorem sum_finitePart {V W : Type} [AddCommMonoid W] (a : ℝ) (l : List (Flt ℝ × V)) (g : ℝ × Flt ℝ × V → W)
    (hg : ∀ f v, (∀ e, f ≠ .fin e) → g (a, f, v) = 0) :
    ((l.map fun p => (a, p.1, p.2)).map g).sum = ((finSample a (finitePart l)).map g).sum := by
  induction l with
  | nil => rfl
  | cons p l ih =>
    obtain ⟨f, v⟩ := p
    rw [List.map_cons, List.map_cons, List.sum_cons, ih]
    cases f with
    | fin e =>
      rw [finitePart, finSample, finSample, List.map_cons, List.map_cons, List.sum_cons]
    | nan => rw [hg _ _ (fun e he => by cases he), zero_add]; rfl
    | ninf => rw [hg _ _ (fun e he => by cases he), zero_add]; rfl
    | pinf => rw [hg _ _ (fun e he => by cases he), zero_add]; rfl

theorem consDefault_finitePart {V : Type} [AddCommGroup V] [Module ℝ V] (a : ℝ) (l : List (Flt ℝ × V)) :
    consDefault (l.map fun p => (a, p.1, p.2)) = gibbs a (finitePart l) := by
  have h1 : lseWeights (l.map fun p => (a, p.1, p.2)) = lseWeights (finSample a (finitePart l)) := by
    unfold lseWeights
    rw [sum_finitePart a l _ fun f v hf => ?_]
    cases f with
    | fin e => exact absurd rfl (hf e)
    | _ => rfl
  have hc : ∀ p, coeff (l.map fun p => (a, p.1, p.2)) p = coeff (finSample a (finitePart l)) p := fun p => by
    unfold coeff; rw [h1]
  rw [← consDefault_fin]
  unfold consDefault
  simp only [hc]
  refine sum_finitePart a l _ fun f v hf => ?_
  cases f with
  | fin e => exact absurd rfl (hf e)
  | _ => exact zero_smul _ _

theorem minimum_usable (a b : Flt ℝ) (ha : a = .pinf ∨ ∃ e, a = .fin e) (hb : b = .pinf ∨ ∃ e, b = .fin e) :
    (Flt.minimum a b = .pinf ∧ a = .pinf ∧ b = .pinf) ∨ ∃ e, Flt.minimum a b = .fin e := by
  rcases ha with rfl | ⟨x, rfl⟩ <;> rcases hb with rfl | ⟨y, rfl⟩
  · exact .inl ⟨rfl, rfl, rfl⟩
  · exact .inr ⟨y, rfl⟩
  · exact .inr ⟨x, rfl⟩
  · by_cases h : y < x
    · exact .inr ⟨y, by simp [Flt.minimum, Flt.isNaN, Flt.lt, h]⟩
    · exact .inr ⟨x, by simp [Flt.minimum, Flt.isNaN, Flt.lt, h]⟩

theorem foldl_minimum_usable (l : List (Flt ℝ)) (a : Flt ℝ) (ha : a = .pinf ∨ ∃ e, a = .fin e)
    (hl : ∀ b ∈ l, b = .pinf ∨ ∃ e, b = .fin e) (hf : (∃ e, a = .fin e) ∨ ∃ e, .fin e ∈ l) :
    ∃ e, l.foldl Flt.minimum a = .fin e := by
  induction l generalizing a with
  | nil =>
    rcases hf with ⟨e, h⟩ | ⟨e, h⟩
    · exact ⟨e, h⟩
    · cases h
  | cons b l ih =>
    have hb := hl b (List.mem_cons_self ..)
    have hl' := fun c hc => hl c (List.mem_cons_of_mem _ hc)
    rw [List.foldl_cons]
    rcases minimum_usable a b ha hb with ⟨h1, h2, h3⟩ | ⟨e, he⟩
    · refine ih _ (.inl h1) hl' (.inr ?_)
      rcases hf with ⟨e, h⟩ | ⟨e, h⟩
      · rw [h2] at h; cases h
      · rcases List.mem_cons.1 h with h | h
        · rw [h3] at h; cases h
        · exact ⟨e, h⟩
    · exact ih _ (.inr ⟨e, he⟩) hl' (.inl ⟨e, he⟩)

/-- The row minimum of usable energies is finite. -/
theorem rowEMin_usable {V : Type} {l : List (ℝ × Flt ℝ × V)} (hu : Usable (l.map fun p => p.2)) : ∃ e, rowEMin l = .fin e := by
  obtain ⟨h1, q, hq, e, he⟩ := hu
  have hc : ∀ p ∈ l, p.2.1 = .pinf ∨ ∃ e, p.2.1 = .fin e := fun p hp => by
    have := h1 _ (List.mem_map.2 ⟨p, hp, rfl⟩)
    generalize p.2.1 = f at this ⊢
    cases f with
    | nan => exact absurd rfl this.1
    | ninf => exact absurd rfl this.2
    | fin e => exact .inr ⟨e, rfl⟩
    | pinf => exact .inl rfl
  obtain ⟨p, hp, rfl⟩ := List.mem_map.1 hq
  cases l with
  | nil => cases hp
  | cons r l =>
    have := foldl_minimum_usable (l.map fun p => p.2.1) r.2.1 (hc r (List.mem_cons_self ..))
      (fun b hb => by obtain ⟨z, hz, rfl⟩ := List.mem_map.1 hb; exact hc z (List.mem_cons_of_mem _ hz))
      (by
        rcases List.mem_cons.1 hp with rfl | hp
        · exact .inl ⟨e, he⟩
        · exact .inr ⟨e, he ▸ List.mem_map.2 ⟨p, hp, rfl⟩⟩)
    rw [List.foldl_map] at this
    exact this

/-- Subtracting one value from all energies never makes unusable energies usable. -/
theorem usable_of_sub {V : Type} {l : List (Flt ℝ × V)} (m : Flt ℝ)
    (h : Usable (l.map fun p => (Flt.sub p.1 m, p.2))) : Usable l := by
  obtain ⟨h1, q, hq, e, he⟩ := h
  constructor
  · intro p hp
    have := h1 _ (List.mem_map.2 ⟨p, hp, rfl⟩)
    obtain ⟨f, v⟩ := p
    constructor
    · rintro rfl
      exact this.1 rfl
    · rintro rfl
      cases m with
      | nan => exact this.1 rfl
      | ninf => exact this.1 rfl
      | fin a => exact this.2 rfl
      | pinf => exact this.2 rfl
  · obtain ⟨p, hp, rfl⟩ := List.mem_map.1 hq
    refine ⟨p, hp, ?_⟩
    obtain ⟨f, v⟩ := p
    cases f with
    | fin a => exact ⟨a, rfl⟩
    | nan => cases he
    | ninf => cases m <;> cases he
    | pinf => cases m <;> cases he

theorem finitePart_shift {V : Type} (m : ℝ) (l : List (Flt ℝ × V)) :
    finitePart (l.map fun p => (Flt.sub p.1 (.fin m), p.2)) = (finitePart l).map fun p => (p.1 + -m, p.2) := by
  induction l with
  | nil => rfl
  | cons p l ih =>
    obtain ⟨f, v⟩ := p
    cases f with
    | fin e => exact congrArg _ ih
    | nan => exact ih
    | ninf => exact ih
    | pinf => exact ih

theorem usable_shift {V : Type} (m : ℝ) {l : List (Flt ℝ × V)} (h : Usable l) :
    Usable (l.map fun p => (Flt.sub p.1 (.fin m), p.2)) := by
  obtain ⟨h1, q, hq, e, he⟩ := h
  constructor
  · intro p hp
    obtain ⟨⟨f, v⟩, hr, rfl⟩ := List.mem_map.1 hp
    have := h1 _ hr
    cases f with
    | nan => exact absurd rfl this.1
    | ninf => exact absurd rfl this.2
    | fin e => exact ⟨(nomatch ·), (nomatch ·)⟩
    | pinf => exact ⟨(nomatch ·), (nomatch ·)⟩
  · refine ⟨_, List.mem_map.2 ⟨q, hq, rfl⟩, e + -m, ?_⟩
    show Flt.sub q.1 _ = _
    rw [he]
    rfl

end Verif
