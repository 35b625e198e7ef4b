import Verif.Proofs.Rotation
import Verif.Proofs.NormalLaw
import Verif.Props.Equivariance
import Mathlib.Analysis.SpecialFunctions.Trigonometric.Basic

/-! # C109: CBO commutes with similarities of the space -/

set_option linter.unusedSectionVars false

namespace Verif

open Matrix

section
variable {ι : Type} [Fintype ι] [DecidableEq ι]

/-- The similarity `v ↦ c Q v + b`. -/
def simMap (c : ℝ) (Q : Matrix ι ι ℝ) (b v : ι → ℝ) : ι → ℝ := c • Q *ᵥ v + b

/-- The dynamic seen through the similarity: objective `w ↦ f (Qᵀ (w - b) / c)`, a given post processing and noise. -/
noncomputable def similarEnv (env : Env ℝ (ι → ℝ)) (c : ℝ) (Q : Matrix ι ι ℝ) (b : ι → ℝ) (p : (ι → ℝ) → ι → ℝ) (noise : St ℝ (ι → ℝ) → Except Err (Mat (ι → ℝ))) : Env ℝ (ι → ℝ) :=
  { env with f := fun w => env.f (c⁻¹ • Qᵀ *ᵥ (w - b)), post := fun s => .ok (s.x.map p), noise := noise }

/-- The noise models of C109: isotropic noise and covariance noise in both modes, with random numbers `smp`. -/
def RotNoise (noise : (ℕ → ℕ → ℕ → ι → ℝ) → St ℝ (ι → ℝ) → Except Err (Mat (ι → ℝ))) : Prop :=
  noise = rowNoise isoRule ∨ ∃ eigh sampling, EighOK eigh ∧ noise = covNoise eigh sampling

/-- **C109 (similarities).** CBO with the default consensus rule, a finite objective, isotropic or covariance noise, batches, a drift correction selected by name: start it at an ensemble, and start it at the image of the ensemble
under `v ↦ c Q v + b` (`c > 0`, `Q` orthogonal) with the objective carried along, the tolerances of the update norm multiplied by `c`, and the random vectors rotated by `Q` (for standard normal vectors this is another sample of the
same law). After every sequence of operations both have raised the same exception, or the second state is the image of the first: positions, consensus points, best particles, recorded positions are mapped, energies, counters, running
sets, stopping reasons are the same. Post processing has to be carried along (`hpc`); the default clipping is not invariant (`C109_clip_false`). -/
theorem C109_similarity (env : Env ℝ (ι → ℝ)) (noise : (ℕ → ℕ → ℕ → ι → ℝ) → St ℝ (ι → ℝ) → Except Err (Mat (ι → ℝ))) (hn : RotNoise noise) (smp : ℕ → ℕ → ℕ → ι → ℝ) (f : (ι → ℝ) → ℝ)
    (p p' : (ι → ℝ) → ι → ℝ) (c : ℝ) (hc : 0 < c) (Q : Matrix ι ι ℝ) (hQ : Qᵀ * Q = 1) (b : ι → ℝ)
    (hcons : env.cons = .mean consDefault) (hcorr : ∃ name eps, getCorrection name eps = .ok env.corr) (hnoise : env.noise = noise smp) (hf : ∀ v, env.f v = .fin (f v)) (hperm : PermOK env)
    (hpost : PostMap env p) (hpc : ∀ v, p' (simMap c Q b v) = simMap c Q b (p v))
    (hnorm : ∀ l, env.normDiff (l.map fun q => (simMap c Q b q.1, simMap c Q b q.2)) = Flt.mul (.fin c) (env.normDiff l))
    (hcustom : ∀ i s t, Image (simMap c Q b) (fun v => c • Q *ᵥ v) (Flt.mul (.fin c)) s t → env.custom i t = env.custom i s)
    (hsched : ∀ s t, Image (simMap c Q b) (fun v => c • Q *ᵥ v) (Flt.mul (.fin c)) s t → env.sched t = env.sched s)
    (a : Args ℝ (ι → ℝ)) (hb : a.batchSize ≠ some 0) (ops : List Op) :
    let env' := similarEnv env c Q b p' (noise fun k i j => Q *ᵥ smp k i j)
    ExRel (Image (simMap c Q b) (fun v => c • Q *ᵥ v) (Flt.mul (.fin c))) (do let s ← init env a; execAll env (cboInner env) ops s)
      (do
        let s ← init env' { a with x0 := a.x0.map (simMap c Q b), terms := a.terms.map (Term.image (Flt.mul (.fin c))) }
        execAll env' (cboInner env') ops s) := by
  intro env'
  have hsym : EnvSym (simMap c Q b) (fun v => c • Q *ᵥ v) (Flt.mul (.fin c)) env env' :=
    { sub := fun u v => by simp only [simMap, mulVec_sub, smul_sub]; abel
      add := fun v u => by simp only [simMap, mulVec_add, smul_add]; abel
      upd := fun x y d n => by simp only [mulVec_add, mulVec_smul, smul_add, smul_comm c]
      f := fun v => by
        have : c⁻¹ • Qᵀ *ᵥ (simMap c Q b v - b) = v := by
          simp only [simMap, add_sub_cancel_right, mulVec_smul, mulVec_mulVec, hQ, one_mulVec, smul_smul, inv_mul_cancel₀ hc.ne', one_smul]
        simp only [env', similarEnv, this]
      cons := ⟨_, _, hcons, hcons, fun l hl hlf => by
        have hfin : ∀ q ∈ l, ∃ e, q.2.1 = .fin e := fun q hq => by
          obtain ⟨v, hv⟩ := hlf q hq
          exact ⟨f v, by rw [hv, hf]⟩
        have h1 : consDefault (l.map fun q => (q.1, q.2.1, c • Q *ᵥ q.2.2)) = c • Q *ᵥ consDefault l := by
          unfold consDefault
          rw [List.map_map]
          have : (fun v => c • Q *ᵥ v : (ι → ℝ) → ι → ℝ) = ⇑(c • Matrix.mulVecLin Q) := by funext v; rfl
          show _ = (fun v => c • Q *ᵥ v) _
          rw [this, map_list_sum, List.map_map]
          congr 1
          refine List.map_congr_left fun q _ => ?_
          simp only [Function.comp_apply, map_smul]
          rw [coeff_map (fun v => c • Q *ᵥ v) l q, ← this]
        have h2 := consDefault_shift b (l.map fun q => (q.1, q.2.1, c • Q *ᵥ q.2.2)) (by simpa using hl) (fun q hq => by
          obtain ⟨q', hq', rfl⟩ := List.mem_map.1 hq
          exact hfin q' hq')
        rw [List.map_map, h1] at h2
        exact h2⟩
      noise := by
        intro s t h
        have e : env'.noise = noise fun k i j => Q *ᵥ smp k i j := rfl
        rw [hnoise, e]
        rcases hn with rfl | ⟨eigh, sampling, he, rfl⟩
        · unfold rowNoise
          rw [h.drift]
          cases s.drift with
          | none => rfl
          | some d =>
            have hr : ∀ d z : ι → ℝ, isoRule (c • Q *ᵥ d) (Q *ᵥ z) = c • Q *ᵥ isoRule d z := fun d z => by
              have e : ∀ d z : ι → ℝ, isoRule d z = euclid d • z := fun d z => by funext i; simp [isoRule, mul_comm]
              rw [e, e, euclid_smul, euclid_orth hQ, abs_of_pos hc, mulVec_smul, mul_smul]
            simp only [Option.map_some, h.params.2.2.2, h.count.2.2.2.2.2, ExRel, Mat.map, hr]
            simp only [mulVec_smul, smul_comm c]
        · exact covNoise_image he sampling smp hc.le hQ h
      corr := ⟨rfl, by
        obtain ⟨name, eps, h⟩ := hcorr
        unfold getCorrection at h
        split_ifs at h <;> injection h with h <;> rw [← h]
        · trivial
        · intro z v
          show _ • (c • Q *ᵥ v) = c • Q *ᵥ (_ • v)
          rw [mulVec_smul, smul_comm]
        · intro z v
          show _ • (c • Q *ᵥ v) = c • Q *ᵥ (_ • v)
          rw [mulVec_smul, smul_comm]⟩
      post := by
        intro s t h
        have e : env'.post t = .ok (t.x.map p') := rfl
        rw [hpost, e, h.x]
        simp only [ExRel, map_map_mat, hpc]
      norm := hnorm
      inf := by simp [Flt.mul, Flt.infTimes, hc]
      lt := by
        intro u tol
        cases u <;> cases tol <;> simp [Flt.mul, Flt.infTimes, Flt.neg, Flt.lt, hc]
      sqrtK := rfl
      empty := rfl
      perm := rfl
      custom := hcustom
      sched := hsched }
  refine run_image hsym ?_ hperm a _ rfl hb ops
  intro s x' hx
  rw [hpost] at hx
  injection hx with hx
  subst hx
  exact ⟨rfl, rfl⟩

/-- **C109 (similarities, in law).** With independent standard normal random vectors nothing has to be rotated by hand: start CBO at an ensemble, and start it, with its own random numbers of the same law, at the image of the
ensemble under `v ↦ c Q v + b` with the objective carried along. Every event `S` about the first execution has the probability of the corresponding event `S'` about the second one (`hS`: `S` and `S'` agree on a state and its
image, and on equal exceptions). -/
theorem C109_law (env : Env ℝ (ι → ℝ)) (noise : (ℕ → ℕ → ℕ → ι → ℝ) → St ℝ (ι → ℝ) → Except Err (Mat (ι → ℝ))) (hn : RotNoise noise) (f : (ι → ℝ) → ℝ)
    (p p' : (ι → ℝ) → ι → ℝ) (c : ℝ) (hc : 0 < c) (Q : Matrix ι ι ℝ) (hQ : Qᵀ * Q = 1) (b : ι → ℝ)
    (hcons : env.cons = .mean consDefault) (hcorr : ∃ name eps, getCorrection name eps = .ok env.corr) (hf : ∀ v, env.f v = .fin (f v)) (hperm : PermOK env)
    (hpost : PostMap env p) (hpc : ∀ v, p' (simMap c Q b v) = simMap c Q b (p v))
    (hnorm : ∀ l, env.normDiff (l.map fun q => (simMap c Q b q.1, simMap c Q b q.2)) = Flt.mul (.fin c) (env.normDiff l))
    (hcustom : ∀ i s t, Image (simMap c Q b) (fun v => c • Q *ᵥ v) (Flt.mul (.fin c)) s t → env.custom i t = env.custom i s)
    (hsched : ∀ s t, Image (simMap c Q b) (fun v => c • Q *ᵥ v) (Flt.mul (.fin c)) s t → env.sched t = env.sched s)
    (a : Args ℝ (ι → ℝ)) (hb : a.batchSize ≠ some 0) (ops : List Op) (S S' : Except Err (St ℝ (ι → ℝ)) → Prop)
    (hS : ∀ u w, ExRel (Image (simMap c Q b) (fun v => c • Q *ᵥ v) (Flt.mul (.fin c))) u w → (S u ↔ S' w)) :
    let env₁ := fun z : ℕ × ℕ × ℕ → ι → ℝ => { env with noise := noise fun k i j => z (k, i, j) }
    let env₂ := fun z : ℕ × ℕ × ℕ → ι → ℝ => similarEnv env c Q b p' (noise fun k i j => z (k, i, j))
    normalLaw ι {z | S (do let s ← init (env₁ z) a; execAll (env₁ z) (cboInner (env₁ z)) ops s)} =
      normalLaw ι {z | S' (do
        let s ← init (env₂ z) { a with x0 := a.x0.map (simMap c Q b), terms := a.terms.map (Term.image (Flt.mul (.fin c))) }
        execAll (env₂ z) (cboInner (env₂ z)) ops s)} := by
  intro env₁ env₂
  refine Eq.trans ?_ (normalLaw_rot hQ _)
  congr 1
  ext z
  exact hS _ _ (C109_similarity (env₁ z) noise hn (fun k i j => z (k, i, j)) f p p' c hc Q hQ b hcons hcorr rfl hf hperm hpost hpc hnorm hcustom hsched a hb ops)

end

namespace Example

/-- A rotation of the plane. -/
noncomputable def rot345 : Matrix (Fin 2) (Fin 2) ℝ := !![3 / 5, -4 / 5; 4 / 5, 3 / 5]

theorem rot345_orth : rot345ᵀ * rot345 = 1 := by
  ext i j
  fin_cases i <;> fin_cases j <;> simp [rot345, Matrix.mul_apply, Fin.sum_univ_two] <;> norm_num

theorem rot345_mulVec (v : Fin 2 → ℝ) : rot345 *ᵥ v = ![3 / 5 * v 0 - 4 / 5 * v 1, 4 / 5 * v 0 + 3 / 5 * v 1] := by
  funext i
  fin_cases i <;> simp [rot345, mulVec, dotProduct, Fin.sum_univ_two] <;> ring

theorem norm_sim345 (c : ℝ) (hc : 0 < c) (b : Fin 2 → ℝ) (noise) (l : List ((Fin 2 → ℝ) × (Fin 2 → ℝ))) :
    (realEnv noise).normDiff (l.map fun q => (simMap c rot345 b q.1, simMap c rot345 b q.2)) = Flt.mul (.fin c) ((realEnv noise).normDiff l) := by
  have e : ∀ u v : Fin 2 → ℝ, euclid (simMap c rot345 b u - simMap c rot345 b v) = c * euclid (u - v) := fun u v => by
    have : simMap c rot345 b u - simMap c rot345 b v = c • rot345 *ᵥ (u - v) := by simp only [simMap, mulVec_sub, smul_sub]; abel
    rw [this, euclid_smul, euclid_orth rot345_orth, abs_of_pos hc]
  simp only [realEnv, List.map_map, List.length_map, Flt.mul, Function.comp_def, e]
  rw [List.sum_map_mul_left, mul_div_assoc]

end Example

/-- C109: the plane, isotropic noise, no post processing, batches of 3 of 4 particles, rotated, doubled and moved. Both executions succeed for every sequence of operations. -/
example (ops : List Op) (b : Fin 2 → ℝ) :
    let env := { Example.realEnv (rowNoise isoRule Example.smp) with post := fun s => .ok s.x }
    let env' := similarEnv env 2 Example.rot345 b id (rowNoise isoRule fun k i j => Example.rot345 *ᵥ Example.smp k i j)
    let a := Example.realArgs (fun m n => ![n + m, 2 - n]) 3 (some 3)
    ∃ s t, (do let s ← init env a; execAll env (cboInner env) ops s) = .ok s ∧
      (do let s ← init env' { a with x0 := a.x0.map (simMap 2 Example.rot345 b) }; execAll env' (cboInner env') ops s) = .ok t ∧ t.x = s.x.map (simMap 2 Example.rot345 b) := by
  intro env env' a
  have hperm : PermOK env := Example.perm_ok (rowNoise isoRule Example.smp)
  obtain ⟨s₀, h0, h1⟩ := C19_never_raises_partial env
    ⟨rfl, ⟨_, rfl⟩, (Example.realEnv_standard isoRule).noise.ok, fun s => ⟨_, rfl, rfl, rfl⟩, fun s => ⟨_, rfl⟩⟩ hperm
    a (by simp [a, Example.realArgs]) (by simp [a, Example.realArgs]) (by
      intro tm ht
      simp only [a, Example.realArgs, List.mem_cons, List.not_mem_nil, or_false] at ht
      rcases ht with rfl | rfl <;> trivial) (fun h => by cases h)
  obtain ⟨s, hs, -⟩ := h1 ops (fun h => by cases h)
  have key := C109_similarity env (rowNoise isoRule) (Or.inl rfl) Example.smp (fun v => v 0 ^ 2 + v 1 ^ 2) id id 2 (by norm_num) Example.rot345 Example.rot345_orth b rfl ⟨"no_correction", 0, rfl⟩ rfl (fun _ => rfl)
    hperm (fun _ => rfl) (fun _ => rfl) (Example.norm_sim345 2 (by norm_num) b (rowNoise isoRule Example.smp)) (fun _ _ _ _ => rfl)
    (fun s t h => by simp only [env, Example.realEnv, h.params.1, h.params.2.1, h.params.2.2.1, h.params.2.2.2]) a (by simp [a, Example.realArgs]) ops
  have hrun : (do let s ← init env a; execAll env (cboInner env) ops s) = .ok s := by
    simp only [bind, Except.bind, h0]
    exact hs
  have hterms : a.terms.map (Term.image (Flt.mul (.fin (2 : ℝ)))) = a.terms := rfl
  simp only [hrun, hterms] at key
  cases ht : (do let s ← init env' { a with x0 := a.x0.map (simMap 2 Example.rot345 b) }; execAll env' (cboInner env') ops s) with
  | error e =>
    have ht' := ht
    simp only [env'] at ht'
    rw [ht'] at key
    exact key.elim
  | ok t =>
    have ht' := ht
    simp only [env'] at ht'
    rw [ht'] at key
    exact ⟨s, t, hrun, rfl, key.x⟩

/-- C109 applies to the covariance noise (here with the mode of the documentation) as well. -/
example (ops : List Op) (b : Fin 2 → ℝ) : ∃ eigh : Matrix (Fin 2) (Fin 2) ℝ → (Fin 2 → ℝ) × Matrix (Fin 2) (Fin 2) ℝ, EighOK eigh ∧
    let env := { Example.realEnv (covNoise eigh true Example.smp) with post := fun s => .ok s.x }
    let env' := similarEnv env 2 Example.rot345 b id (covNoise eigh true fun k i j => Example.rot345 *ᵥ Example.smp k i j)
    let a := Example.realArgs (fun m n => ![n + m, 2 - n]) 3 none
    ExRel (fun s t => t.x = s.x.map (simMap 2 Example.rot345 b)) (do let s ← init env a; execAll env (cboInner env) ops s)
      (do let s ← init env' { a with x0 := a.x0.map (simMap 2 Example.rot345 b) }; execAll env' (cboInner env') ops s) := by
  obtain ⟨eigh, he⟩ := eigh_exists (ι := Fin 2)
  refine ⟨eigh, he, ?_⟩
  intro env env' a
  have key := C109_similarity env (covNoise eigh true) (Or.inr ⟨eigh, true, he, rfl⟩) Example.smp (fun v => v 0 ^ 2 + v 1 ^ 2) id id 2 (by norm_num) Example.rot345 Example.rot345_orth b rfl ⟨"no_correction", 0, rfl⟩ rfl
    (fun _ => rfl) (Example.perm_ok (covNoise eigh true Example.smp)) (fun _ => rfl) (fun _ => rfl) (Example.norm_sim345 2 (by norm_num) b (covNoise eigh true Example.smp)) (fun _ _ _ _ => rfl)
    (fun s t h => by simp only [env, Example.realEnv, h.params.1, h.params.2.1, h.params.2.2.1, h.params.2.2.2]) a (by simp [a, Example.realArgs]) ops
  have hterms : a.terms.map (Term.image (Flt.mul (.fin (2 : ℝ)))) = a.terms := rfl
  simp only [hterms] at key
  revert key
  generalize (do let s ← init env a; execAll env (cboInner env) ops s) = u
  show ExRel _ u (do let s ← init env' { a with x0 := a.x0.map (simMap 2 Example.rot345 b) }; execAll env' (cboInner env') ops s) → _
  generalize (do let s ← init env' { a with x0 := a.x0.map (simMap 2 Example.rot345 b) }; execAll env' (cboInner env') ops s) = w
  intro key
  cases u <;> cases w
  · exact key
  · exact key.elim
  · exact key.elim
  · exact key.x

/-- C109 in law: the probability that the first particle of the first run lies in a disc around `w` after any sequence of operations is the probability that the first particle of the rotated, doubled and moved dynamic lies in the
disc of twice the radius around the image of `w`. -/
example (ops : List Op) (b w : Fin 2 → ℝ) (r : ℝ) :
    let env := { Example.realEnv (rowNoise isoRule Example.smp) with post := fun s => .ok s.x }
    let a := Example.realArgs (fun m n => ![n + m, 2 - n]) 3 (some 3)
    let env₁ := fun z : ℕ × ℕ × ℕ → Fin 2 → ℝ => { env with noise := rowNoise isoRule fun k i j => z (k, i, j) }
    let env₂ := fun z : ℕ × ℕ × ℕ → Fin 2 → ℝ => similarEnv env 2 Example.rot345 b id (rowNoise isoRule fun k i j => z (k, i, j))
    normalLaw (Fin 2) {z | ∃ s, (do let s ← init (env₁ z) a; execAll (env₁ z) (cboInner (env₁ z)) ops s) = .ok s ∧ euclid (s.x.get 0 0 - w) ≤ r} =
      normalLaw (Fin 2) {z | ∃ s, (do let s ← init (env₂ z) { a with x0 := a.x0.map (simMap 2 Example.rot345 b) }; execAll (env₂ z) (cboInner (env₂ z)) ops s) = .ok s ∧
        euclid (s.x.get 0 0 - simMap 2 Example.rot345 b w) ≤ 2 * r} := by
  intro env a env₁ env₂
  refine C109_law env (rowNoise isoRule) (Or.inl rfl) (fun v => v 0 ^ 2 + v 1 ^ 2) id id 2 (by norm_num) Example.rot345 Example.rot345_orth b rfl ⟨"no_correction", 0, rfl⟩ (fun _ => rfl)
    (Example.perm_ok (rowNoise isoRule Example.smp)) (fun _ => rfl) (fun _ => rfl) (Example.norm_sim345 2 (by norm_num) b (rowNoise isoRule Example.smp)) (fun _ _ _ _ => rfl)
    (fun s t h => by simp only [env, Example.realEnv, h.params.1, h.params.2.1, h.params.2.2.1, h.params.2.2.2]) a (by simp [a, Example.realArgs]) ops
    (fun u => ∃ s, u = .ok s ∧ euclid (s.x.get 0 0 - w) ≤ r) (fun u => ∃ s, u = .ok s ∧ euclid (s.x.get 0 0 - simMap 2 Example.rot345 b w) ≤ 2 * r) ?_
  intro u v h
  cases u <;> cases v
  · simp
  · exact h.elim
  · exact h.elim
  · rename_i s t
    have hx : t.x.get 0 0 = simMap 2 Example.rot345 b (s.x.get 0 0) := by rw [h.x]; rfl
    have e : simMap 2 Example.rot345 b (s.x.get 0 0) - simMap 2 Example.rot345 b w = (2 : ℝ) • Example.rot345 *ᵥ (s.x.get 0 0 - w) := by simp only [simMap, mulVec_sub, smul_sub]; abel
    simp [hx, e, euclid_smul, euclid_orth Example.rot345_orth]

/-- C109, anisotropic noise: no transformation `T` of the random vectors makes the anisotropic noise of the rotated drifts the rotated anisotropic noise. -/
theorem C109_anisotropic_false : Example.rot345ᵀ * Example.rot345 = 1 ∧
    ¬ ∃ T : (Fin 2 → ℝ) → Fin 2 → ℝ, ∀ d z : Fin 2 → ℝ, anisoRule (Example.rot345 *ᵥ d) (T z) = Example.rot345 *ᵥ anisoRule d z := by
  refine ⟨Example.rot345_orth, ?_⟩
  rintro ⟨T, hT⟩
  have h1 := congrFun (hT ![1, 0] ![1, 2]) 0
  have h2 := congrFun (hT ![0, 1] ![1, 2]) 0
  rw [Example.rot345_mulVec, Example.rot345_mulVec] at h1 h2
  simp [anisoRule] at h1 h2
  linarith

/-- C109, default post processing: an ensemble at the corner `(100, -100)` of the box does not move; the rotated ensemble, with the same clipping, is moved into the box, so it is not the rotated ensemble any more. -/
theorem C109_clip_false :
    let env := Example.realEnv (rowNoise isoRule Example.smp)
    let env' := similarEnv env 1 Example.rot345 0 (clipVec 100) (rowNoise isoRule fun k i j => Example.rot345 *ᵥ Example.smp k i j)
    let a := Example.realArgs (fun _ _ => ![100, -100]) 3 none
    ∃ s t, (do let s ← init env a; execAll env (cboInner env) [.step] s) = .ok s ∧
      (do let s ← init env' { a with x0 := a.x0.map (simMap 1 Example.rot345 0) }; execAll env' (cboInner env') [.step] s) = .ok t ∧
      t.x.get 0 0 ≠ simMap 1 Example.rot345 0 (s.x.get 0 0) := by
  intro env env' a
  obtain ⟨s₀, h0, h1⟩ := Example.realEnv_runs isoRule (fun _ _ => ![100, -100]) 3 none
  obtain ⟨s, hs⟩ := h1 [.step]
  have hE' : Standard env' (fun w => (((1 : ℝ)⁻¹ • Example.rot345ᵀ *ᵥ (w - 0)) 0) ^ 2 + (((1 : ℝ)⁻¹ • Example.rot345ᵀ *ᵥ (w - 0)) 1) ^ 2)
      (fun c dt i j d => Real.sqrt dt • isoRule d (Example.rot345 *ᵥ Example.smp c i j)) (clipVec 100) :=
    ⟨rfl, rfl, by
      intro s d hd
      simp only [env', similarEnv, rowNoise, hd]
      exact ⟨_, rfl, rfl, rfl, fun _ _ => rfl⟩, fun _ => rfl, Example.perm_ok (rowNoise isoRule Example.smp), fun _ => rfl⟩
  obtain ⟨t₀, g0, g1⟩ := C19_never_raises_partial env'
    ⟨rfl, ⟨_, rfl⟩, hE'.noise.ok, fun s => ⟨_, rfl, rfl, rfl⟩, fun s => ⟨_, rfl⟩⟩ hE'.perm
    { a with x0 := a.x0.map (simMap 1 Example.rot345 0) } (by simp [a, Example.realArgs, Mat.map]) (by simp [a, Example.realArgs]) (by
      intro tm ht
      simp only [a, Example.realArgs, List.mem_cons, List.not_mem_nil, or_false] at ht
      rcases ht with rfl | rfl <;> trivial) (fun h => by cases h)
  obtain ⟨t, ht, -⟩ := g1 [.step] (fun h => by cases h)
  refine ⟨s, t, by simp only [bind, Except.bind, env, a, h0]; exact hs, by simp only [bind, Except.bind, g0]; exact ht, ?_⟩
  have e0 : s₀.x = a.x0 ∧ s₀.N = 4 := by
    have h0' := h0
    unfold init at h0'
    split_ifs at h0'
    all_goals
      injection h0' with h0'
      subst h0'
      exact ⟨rfl, rfl⟩
  have e1 : t₀.active = [0, 1] ∧ t₀.N = 4 := by
    have h0' := g0
    unfold init at h0'
    split_ifs at h0'
    all_goals
      injection h0' with h0'
      subst h0'
      exact ⟨rfl, rfl⟩
  have hE := Example.realEnv_standard isoRule
  obtain ⟨n1, n2⟩ := C23_isotropic env Example.smp rfl
  have hsx := C23_absorbing env _ _ hE.corr hE.cons hE.f n1 n2 hE.post hE.perm a (by simp [a, Example.realArgs]) s₀ s₀ s [] [.step] h0 rfl 0
    ![100, -100] (clipVec_id 100 _ (by intro i; fin_cases i <;> norm_num)) (by rw [e0.1]; intro n _; rfl) hs 0 (by rw [e0.2]; norm_num)
  have htx : ∃ v, t.x.get 0 0 = clipVec 100 v := by
    have hst : step env' (cboInner env') t₀ = .ok t := by simpa [execAll, exec, bind_ok] using ht
    obtain ⟨hw, hbs⟩ := std_reach hE' (by simp [a, Example.realArgs]) g0 (ops := []) rfl
    obtain ⟨i, c, r⟩ := runStep hE' hw hbs hst 0 (by rw [e1.1]; simp)
    by_cases hsel : t.pIdx.Sel 0 0
    · obtain ⟨j, -, hj⟩ := r.moved 0 (by rw [e1.2]; norm_num) hsel
      exact ⟨_, hj⟩
    · exact ⟨_, r.still 0 (by rw [e1.2]; norm_num) hsel⟩
  obtain ⟨v, hv⟩ := htx
  rw [hsx, hv]
  intro h
  have h1 := congrFun h 0
  simp only [simMap, Example.rot345_mulVec] at h1
  have h2 : clipVec 100 v 0 ≤ 100 := min_le_right _ _
  rw [h1] at h2
  norm_num at h2

end Verif
