import Verif.Model.MirrorHist
import Verif.Props.MirrorDyn
import Verif.Proofs.Hist

/-! Property C101: the histories of positions and dual variables of `MirrorCBO`. -/

set_option linter.unusedSectionVars false

namespace Verif

section
variable {K V : Type} [Zero K] [One K] [Neg K] [Add K] [Sub K] [Mul K] [Inv K] [Div K] [NatCast K] [Pow K ℕ] [LinearOrder K] [Add V] [Sub V] [SMul K V]

/-- **C101.** After every sequence of operations of `MirrorCBO` with `x` and `y` tracked, for every interval: `history['y']` exists exactly if there was no reset; then `history['x']` consists of the initial
positions followed by the images `post_process(grad_conj(y))` of the entries of `history['y']`, in order, and `history['y']` has one entry per recorded step. -/
theorem C101_dual_history (env : Env K V) (gc p : V → V) (hpm : PostMap env p) (hp : PermOK env) (a : Args K V) (ha : 1 ≤ a.saveInt) (hx : Track.x ∈ a.tracks) (hn : a.tracks.Nodup) (ops : List Op)
    (s₀ s : St K V) (h0 : init env a = .ok s₀) (h : execAll env (consThen env (mirrorMove env gc)) ops s₀ = .ok s) :
    ∃ r, execAllY env (consThen env (mirrorMove env gc)) ops (s₀, some []) = .ok (s, r) ∧ (r.isSome ↔ Op.reset ∉ ops) ∧
      ∀ ys, r = some ys → s.hist .x = .x a.x0 :: ys.map (fun y => Entry.x (y.map fun v => p (gc v))) ∧ ys.length = (nSteps ops + a.saveInt - 1) / a.saveInt := by
  have hF := consThen_frame (env := env) (mirrorMove_ok env gc)
  have app : ∀ (L : List Op) (o : Op) (q : St K V × Option (List (Mat V))) (q₁ : St K V) (r₁) (q₂ : St K V), execAllY env (consThen env (mirrorMove env gc)) L q = .ok (q₁, r₁) →
      exec env (consThen env (mirrorMove env gc)) o q₁ = .ok q₂ → execAllY env (consThen env (mirrorMove env gc)) (L ++ [o]) q = .ok (q₂, recordY o q₁ q₂ r₁) := by
    intro L
    induction L with
    | nil =>
      intro o q q₁ r₁ q₂ e1 e2
      simp only [execAllY] at e1
      injection e1 with e1
      subst e1
      simp only [List.nil_append, execAllY, bind_ok]
      exact ⟨q₂, e2, rfl⟩
    | cons o' L ih =>
      intro o q q₁ r₁ q₂ e1 e2
      simp only [List.cons_append, execAllY, bind_ok] at e1 ⊢
      obtain ⟨w, e3, e4⟩ := e1
      exact ⟨w, e3, ih o _ _ _ _ e4 e2⟩
  induction ops using List.reverseRecOn generalizing s with
  | nil =>
    simp only [execAll] at h
    injection h with h
    subst h
    refine ⟨some [], rfl, by simp, fun ys e => ?_⟩
    injection e with e
    subst e
    refine ⟨?_, by simp [nSteps, Nat.div_eq_of_lt (by omega : a.saveInt - 1 < a.saveInt)]⟩
    unfold init at h0
    split_ifs at h0 <;>
    · injection h0 with h0
      rw [← h0]
      rfl
  | append_singleton L o ih =>
    have hall := h
    rw [execAll_append] at h
    obtain ⟨q, hq, ho⟩ := h
    have ho' : exec env (consThen env (mirrorMove env gc)) o q = .ok s := by
      simp only [execAll, bind_ok] at ho
      obtain ⟨w, h1, h2⟩ := ho
      injection h2 with h2
      rw [← h2]
      exact h1
    obtain ⟨r, i1, i2, i3⟩ := ih q hq
    refine ⟨_, app L o _ _ _ _ i1 ho', ?_, ?_⟩
    · cases o <;> unfold recordY <;> (try split_ifs) <;> simp [i2]
    · intro ys hys
      have hr : o ≠ .reset := by
        rintro rfl
        cases hys
      by_cases hs : o = .step
      · subst hs
        have hrs : ∃ ys', r = some ys' := by
          unfold recordY at hys
          cases r with
          | none =>
            simp only [Option.map_none, ite_self] at hys
            cases hys
          | some ys' => exact ⟨ys', rfl⟩
        obtain ⟨ys', rfl⟩ := hrs
        obtain ⟨j1, j2⟩ := i3 ys' rfl
        have hnr : Op.reset ∉ L := i2.1 rfl
        have I := (histInv_execAll hF hn hnr (histInv_init h0 ha) hq).1
        have hh := (step_hist hF ho' (by rw [I.tracks]; exact hn) .x).1
        have I' := (histInv_exec hF hn (o := .step) (by simp) I ho').1
        have hx' : s.x = s.aux1.map fun v => p (gc v) := by
          obtain ⟨hw, ⟨r1, r2⟩, -⟩ := mirror_shape hpm hp h0 hall
          have g := C33_image env gc p hpm _ s₀ s hall (by simp)
          cases hsx : s.x with
          | mk rr cc gg =>
            have e1 := hw.xr
            have e2 := hw.xc
            rw [hsx] at e1 e2 g
            simp only [Mat.map, Mat.mk.injEq]
            exact ⟨by rw [r1]; exact e1, by rw [r2]; exact e2, by funext m n; exact g m n⟩
        have len := I'.len .x hx (by simp)
        rw [if_pos rfl] at len
        have ns : nSteps (L ++ [Op.step]) = 0 + nSteps L + 1 := by simp [nSteps]
        have eo : off Track.x = 1 := rfl
        rw [I.tracks] at hh
        have fin : s.hist .x = .x a.x0 :: ys.map (fun y => Entry.x (y.map fun v => p (gc v))) := by
          rw [hh]
          simp only [recordY] at hys
          by_cases hit : q.it % q.saveInt = 0
          · rw [if_pos hit] at hys
            rw [if_pos ⟨hit, hx⟩, j1]
            simp only [Option.map_some, Option.some.injEq] at hys
            rw [← hys]
            simp only [List.map_append, List.map_cons, List.map_nil, List.cons_append, trackEntry, hx']
          · rw [if_neg hit] at hys
            rw [if_neg fun e => hit e.1, j1]
            injection hys with hys
            rw [hys]
        refine ⟨fin, ?_⟩
        rw [fin, eo] at len
        simp only [List.length_cons, List.length_map] at len
        rw [ns]
        omega
      · have e := exec_noreset ⟨hs, hr⟩ ho'
        have hrec : recordY o q s r = r := by cases o <;> first | rfl | exact absurd rfl hs | exact absurd rfl hr
        rw [hrec] at hys
        obtain ⟨j1, j2⟩ := i3 ys hys
        refine ⟨by rw [e.2.2.2]; exact j1, ?_⟩
        have ns : nSteps (L ++ [o]) = nSteps L := by
          cases o <;> first | exact absurd rfl hs | simp [nSteps]
        rw [ns]
        exact j2

open Example in
/-- C101: the hypotheses hold with batches, a stopped run and interval 2, and two entries of `y` are recorded in three steps; the entries of the same index of both histories do not belong together. -/
example : PostMap env (fun v => max (-100) (min 100 v)) ∧ PermOK env ∧
    (match init env { args [.maxIt (some 3), .energyTol (.fin 2)] (some 2) with saveInt := 2 } with
      | .error _ => false
      | .ok s₀ => match execAllY env (consThen env (mirrorMove env (· / 2))) [.step, .select, .step, .sched, .step] (s₀, some []) with
        | .ok (s, some ys) => decide (Track.x ∈ s₀.tracks ∧ s₀.tracks.Nodup ∧ ys.length = 2 ∧ (s.hist .x).length = 3) &&
            (match s.hist .x, ys with
              | [_, .x u, _], [_, y] => decide (∃ m ∈ List.range 2, ∃ n ∈ List.range 3, u.get m n ≠ max (-100) (min 100 (y.get m n / 2)))
              | _, _ => false)
        | _ => false) = true := by
  refine ⟨fun _ => rfl, ?_, by decide +kernel⟩
  intro N c m j hj
  simp only [env, if_pos hj]
  exact Nat.mod_lt _ (by omega)

end

end Verif
