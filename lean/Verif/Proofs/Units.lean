import Verif.Spec.Units
import Verif.Proofs.Greedy
import Verif.Proofs.Affine

/-! Steps of two dynamics that are images of each other under an affine map, with batches (for C116). -/

set_option linter.unusedSectionVars false

namespace Verif

open Matrix

section
variable {ι : Type} [Fintype ι] [DecidableEq ι]

/-- The matrix of `unitsMap`. -/
def unitsMat (a : ι → ℝ) (π : ι → ι) : Matrix ι ι ℝ := Matrix.of fun l k => if k = π l then a l else 0

theorem unitsMat_mulVec (a : ι → ℝ) (π : ι → ι) (v : ι → ℝ) (l : ι) : (unitsMat a π *ᵥ v) l = a l * v (π l) := by
  simp [unitsMat, mulVec, dotProduct]

theorem unitsMap_eq (a : ι → ℝ) (π : ι → ι) (b v : ι → ℝ) : unitsMap a π b v = affMap (unitsMat a π) b v := by
  funext l
  simp [unitsMap, affMap, unitsMat_mulVec]

/-- One step of both dynamics. -/
theorem image_step {env env' : Env ℝ (ι → ℝ)} {f f' : (ι → ℝ) → ℝ} {ν ν' : ℕ → ℝ → ℕ → ℕ → (ι → ℝ) → ι → ℝ} {p p' : (ι → ℝ) → ι → ℝ} (hE : Standard env f ν p) (hE' : Standard env' f' ν' p') (hperm : env'.perm = env.perm)
    (A : Matrix ι ι ℝ) (b : ι → ℝ) (hf : ∀ v, f' (affMap A b v) = f v) (hp : ∀ v, p' (affMap A b v) = affMap A b (p v)) (hν : ∀ c dt i j d, ν' c dt i j (A *ᵥ d) = A *ᵥ ν c dt i j d)
    {s t s' t' : St ℝ (ι → ℝ)} (hw : WF s) (hw' : WF t) (hb : 1 ≤ s.batchSize) (hsc : SameCourse t s) (hal : ∀ m ∈ s.active, t.alpha m = s.alpha m) (hx : ∀ m ∈ s.active, ∀ n < s.N, t.x.get m n = affMap A b (s.x.get m n))
    (hs : step env (cboInner env) s = .ok s') (ht : step env' (cboInner env') t = .ok t') :
    SameCourse t' s' ∧ (∀ m ∈ s.active, ∀ n < s.N, t'.x.get m n = affMap A b (s'.x.get m n)) ∧
      ∃ c c', s'.cons = some c ∧ t'.cons = some c' ∧ ∀ i < s.active.length, c'.get i 0 = affMap A b (c.get i 0) := by
  obtain ⟨ds, c, hc, gs⟩ := slot_step hE.corr hE.cons hE.noise hE.post hE.perm hw hs
  obtain ⟨dt, c', hc', gt⟩ := slot_step hE'.corr hE'.cons hE'.noise hE'.post hE'.perm hw' ht
  have frs := step_frame (by rw [cboInner_eq]; exact consThen_frame (cboMove_ok env)) hs
  have frt := step_frame (by rw [cboInner_eq]; exact consThen_frame (cboMove_ok env')) ht
  obtain ⟨sc, ic, ip⟩ := sameCourse_step hperm.symm hsc frt frs dt ds
  have hix := preStep_idx env hE.perm hw
  have hcl : ∀ i < s.active.length, c'.get i 0 = affMap A b (c.get i 0) := by
    intro i hi
    rw [(gs i hi).1, (gt i (by rw [hsc.active]; exact hi)).1, ← consDefault_aff A b]
    · congr 1
      simp only [sampleOf, List.map_map, ic, hsc.active]
      refine List.map_congr_left fun j hj => ?_
      have hr : s'.cIdx.run i = s.active.getD i 0 := by rw [frs.cIdx, hix.cRun i hi]
      have hn : s'.cIdx.par i j < s.N := by
        have := hix.cIn i (by rw [hix.cRows]; exact hi) j (by rw [← frs.cIdx]; exact List.mem_range.1 hj)
        rw [frs.cIdx]
        exact this.2
      simp only [Function.comp_apply, hr, hx _ (getD_mem hi) _ hn, hal _ (getD_mem hi), hE.f, hE'.f, hf]
    · intro e
      have := congrArg List.length e
      simp [sampleOf, frs.cIdx, hix.cCols] at this
      omega
    · intro q hq
      simp only [sampleOf, List.mem_map] at hq
      obtain ⟨_, -, rfl⟩ := hq
      exact ⟨_, hE.f _⟩
  refine ⟨sc, ?_, c, c', hc, hc', hcl⟩
  intro m hm n hn
  obtain ⟨i, hi, rfl⟩ := mem_getD hm
  have e := (gt i (by rw [hsc.active]; exact hi)).2 n
  rw [hsc.active, ip, hsc.lamda, hsc.dt, hsc.sigma, hsc.draws, hcl i hi, hx _ hm n hn] at e
  rw [e, (gs i hi).2 n]
  have hd : affMap A b (s.x.get (s.active.getD i 0) n) - affMap A b (c.get i 0) = A *ᵥ (s.x.get (s.active.getD i 0) n - c.get i 0) := by
    simp only [affMap, mulVec_sub]
    abel
  split_ifs with hsel
  · rw [hd, hν, ← hp]
    congr 1
    simp only [affMap, cboUpdate, mulVec_add, mulVec_smul]
    abel
  · exact hp _

/-- A dynamic with noise drawn row by row can always take a further step. -/
theorem cbo_path {env : Env ℝ (ι → ℝ)} {rule : (ι → ℝ) → (ι → ℝ) → ι → ℝ} {smp : ℕ → ℕ → ℕ → ι → ℝ} {p : (ι → ℝ) → ι → ℝ} (h1 : env.corr = .none) (h2 : ∃ r, env.cons = .mean r) (h3 : env.noise = rowNoise rule smp)
    (h4 : PostMap env p) (h5 : PermOK env) (h6 : env.emptyRaises = false) (s : St ℝ (ι → ℝ)) (hs : WF s) (hsi : s.saveInt ≠ 0) :
    ∃ σ : ℕ → St ℝ (ι → ℝ), σ 0 = s ∧ ∀ k, step env (cboInner env) (σ k) = .ok (σ (k + 1)) := by
  have hi : InnerFrame (cboInner env) := by rw [cboInner_eq]; exact consThen_frame (cboMove_ok env)
  have next : ∀ q : St ℝ (ι → ℝ), WF q ∧ q.saveInt ≠ 0 → ∃ q', step env (cboInner env) q = .ok q' ∧ WF q' ∧ q'.saveInt ≠ 0 := by
    rintro q ⟨w, hq⟩
    obtain ⟨q', hq'⟩ := cboStep_total_of h1 h2 (fun s => ⟨_, h4 s, rfl, rfl⟩) h5 w hq (fun h => by rw [h6] at h; cases h) fun q d hd _ _ _ _ _ _ => (rowNoise_rows h3).ok q d hd
    exact ⟨q', hq', step_wf (cboMove_ok env) h4.ok h5 w (by rw [← cboInner_eq]; exact hq'), by rw [(step_frame hi hq').saveInt]; exact hq⟩
  choose! F F1 F2 using next
  let σ : ℕ → St ℝ (ι → ℝ) := fun k => Nat.rec s (fun _ q => F q) k
  have hσ : ∀ k, WF (σ k) ∧ (σ k).saveInt ≠ 0 := by
    intro k
    induction k with
    | zero => exact ⟨hs, hsi⟩
    | succ k ih => exact F2 _ ih
  exact ⟨σ, rfl, fun k => F1 _ (hσ k)⟩

end

end Verif
