import Verif.Proofs.Greedy
import Verif.Proofs.Heap
import Verif.Proofs.Moments
import Mathlib.Tactic.IntervalCases
import Verif.Spec.ExampleReal

/-! # C115: the limit of large alpha is the dynamic that follows the best particle -/

set_option linter.unusedSectionVars false

namespace Verif

open Filter Topology

section
variable {V J : Type} [NormedAddCommGroup V] [NormedSpace ℝ V] {L : Filter J}

/-- **C115.** CBO with any batches and any noise that depends continuously on the drift, continuous finite objective and continuous post processing; a family of dynamics `σ j` with the same batches and random numbers whose `alpha`
tends to infinity in every running run and whose ensembles tend to that of `t 0`. Let `t` be the dynamic in which a particle of least energy in the batch takes the place of the consensus point. If the best particle of
each batch of `t` is unique (as a point) in the first `K` steps, then after up to `K` steps all particles of the running runs and the recorded consensus points tend to those of `t`. -/
theorem C115_large_alpha (env env' : Env ℝ V) (f : V → ℝ) (ν : ℕ → ℝ → ℕ → ℕ → V → V) (p : V → V) (hE : Standard env f ν p) (hf : Continuous f) (hν : ∀ c dt i k, Continuous (ν c dt i k)) (hp : Continuous p)
    (r : List (ℝ × Flt ℝ × V) → V) (hr : PicksBest r) (hcorr : env'.corr = .none) (hcons : env'.cons = .mean r) (hn : NoiseRows env' ν) (hpm : PostMap env' p) (hperm : env'.perm = env.perm)
    (hf' : ∀ v, env'.f v = .fin (f v)) (a : J → Args ℝ V) (a' : Args ℝ V) (hb : a'.batchSize ≠ some 0) (s₀ : J → St ℝ V) (t₀ : St ℝ V) (ops : J → List Op) (ops' : List Op) (σ : J → ℕ → St ℝ V) (t : ℕ → St ℝ V)
    (h0 : ∀ j, init env (a j) = .ok (s₀ j)) (h : ∀ j, execAll env (cboInner env) (ops j) (s₀ j) = .ok (σ j 0)) (hσ : ∀ j k, step env (cboInner env) (σ j k) = .ok (σ j (k + 1)))
    (h0' : init env' a' = .ok t₀) (h' : execAll env' (cboInner env') ops' t₀ = .ok (t 0)) (ht : ∀ k, step env' (cboInner env') (t k) = .ok (t (k + 1)))
    (hsame : ∀ j, SameCourse (σ j 0) (t 0)) (hα : ∀ m ∈ (t 0).active, Tendsto (fun j => (σ j 0).alpha m) L atTop)
    (hx : ∀ m ∈ (t 0).active, ∀ n < (t 0).N, Tendsto (fun j => (σ j 0).x.get m n) L (𝓝 ((t 0).x.get m n)))
    (K : ℕ) (huniq : ∀ k < K, ∀ m ∈ (t 0).active, ∀ n n', (t (k + 1)).cIdx.Sel m n → (t (k + 1)).cIdx.Sel m n' → (∀ l, (t (k + 1)).cIdx.Sel m l → f ((t k).x.get m n) ≤ f ((t k).x.get m l)) →
      (∀ l, (t (k + 1)).cIdx.Sel m l → f ((t k).x.get m n') ≤ f ((t k).x.get m l)) → (t k).x.get m n = (t k).x.get m n') :
    (∀ k ≤ K, ∀ m ∈ (t 0).active, ∀ n < (t 0).N, Tendsto (fun j => (σ j k).x.get m n) L (𝓝 ((t k).x.get m n))) ∧
      ∀ k < K, ∃ c : J → Mat V, ∃ c' : Mat V, (∀ j, (σ j (k + 1)).cons = some (c j)) ∧ (t (k + 1)).cons = some c' ∧ ∀ i < (t 0).active.length, Tendsto (fun j => (c j).get i 0) L (𝓝 (c'.get i 0)) := by
  have hp' : PermOK env' := by
    intro N c m j hj
    rw [hperm]
    exact hE.perm N c m j hj
  have hi : InnerFrame (cboInner env) := by rw [cboInner_eq]; exact consThen_frame (cboMove_ok env)
  have hi' : InnerFrame (cboInner env') := by rw [cboInner_eq]; exact consThen_frame (cboMove_ok env')
  have wt0 : WF (t 0) ∧ 1 ≤ (t 0).batchSize := by
    rw [cboInner_eq] at h'
    exact execAll_induct (cboMove_ok env') hpm.ok hp' (P := fun s => 1 ≤ s.batchSize)
      (fun o s s' _ hs h => by rw [(exec_bs (consThen_frame (cboMove_ok env')) h).1]; exact hs) ops' t₀ (t 0) (init_wf hp' h0') (init_bs hb h0') h'
  have ws0 : ∀ j, WF (σ j 0) := by
    intro j
    have := h j
    rw [cboInner_eq] at this
    exact (execAll_induct (cboMove_ok env) hE.post.ok hE.perm (P := fun _ => True) (fun _ _ _ _ _ _ => trivial) (ops j) (s₀ j) (σ j 0) (init_wf hE.perm (h0 j)) trivial this).1
  -- the limit of one step
  have one : ∀ k < K, WF (t k) → 1 ≤ (t k).batchSize → (t k).active = (t 0).active → (t k).N = (t 0).N → (∀ j, WF (σ j k)) → (∀ j, SameCourse (σ j k) (t k)) → (∀ j, (σ j k).alpha = (σ j 0).alpha) →
      (∀ m ∈ (t 0).active, ∀ n < (t 0).N, Tendsto (fun j => (σ j k).x.get m n) L (𝓝 ((t k).x.get m n))) →
      (∀ j, SameCourse (σ j (k + 1)) (t (k + 1))) ∧ (∀ m ∈ (t 0).active, ∀ n < (t 0).N, Tendsto (fun j => (σ j (k + 1)).x.get m n) L (𝓝 ((t (k + 1)).x.get m n))) ∧
      ∃ c : J → Mat V, ∃ c' : Mat V, (∀ j, (σ j (k + 1)).cons = some (c j)) ∧ (t (k + 1)).cons = some c' ∧ ∀ i < (t 0).active.length, Tendsto (fun j => (c j).get i 0) L (𝓝 (c'.get i 0)) := by
    intro k hk wt hbt hat hNt ws hsc hal hxk
    obtain ⟨dt', c', hc', gt⟩ := slot_step hcorr hcons hn hpm hp' wt (ht k)
    choose ds c hc gs using fun j => slot_step hE.corr hE.cons hE.noise hE.post hE.perm (ws j) (hσ j k)
    have frt := step_frame hi' (ht k)
    have sc := fun j => sameCourse_step hperm (hsc j) (step_frame hi (hσ j k)) frt (ds j) dt'
    have hix := preStep_idx env' hp' wt
    have hcols : (t (k + 1)).cIdx.cols = (t k).batchSize := by rw [frt.cIdx, hix.cCols]
    have hrows : (t (k + 1)).cIdx.rows = (t k).active.length := by rw [frt.cIdx, hix.cRows]
    have hrun : ∀ i < (t k).active.length, (t (k + 1)).cIdx.run i = (t k).active.getD i 0 := fun i hi => by rw [frt.cIdx, hix.cRun i hi]
    have hin : ∀ i < (t k).active.length, ∀ q < (t (k + 1)).cIdx.cols, (t (k + 1)).cIdx.par i q < (t k).N := fun i hi q hq => by
      have := hix.cIn i (by rw [hix.cRows]; exact hi) q (by rw [← frt.cIdx]; exact hq)
      rw [frt.cIdx]
      exact this.2
    have hcl : ∀ i < (t 0).active.length, Tendsto (fun j => (c j).get i 0) L (𝓝 (c'.get i 0)) := by
      intro i hi0
      have hit : i < (t k).active.length := by rw [hat]; exact hi0
      have hm : (t k).active.getD i 0 ∈ (t 0).active := hat ▸ getD_mem hit
      -- the best particle
      have hl : sampleOf env' { t k with cIdx := (t (k + 1)).cIdx } i ≠ [] := by
        intro e
        have := congrArg List.length e
        simp [sampleOf] at this
        omega
      obtain ⟨q, hq, hqmin, hrq⟩ := hr _ hl (by
        intro q hq
        simp only [sampleOf, List.mem_map] at hq
        obtain ⟨_, -, rfl⟩ := hq
        exact ⟨_, hf' _⟩)
      simp only [sampleOf, List.mem_map, List.mem_range] at hq
      obtain ⟨i₀, hi₀, rfl⟩ := hq
      rw [(gt i hit).1, hrq]
      simp only
      have hmin : ∀ q < (t (k + 1)).cIdx.cols, f ((t k).x.get ((t (k + 1)).cIdx.run i) ((t (k + 1)).cIdx.par i i₀)) ≤ f ((t k).x.get ((t (k + 1)).cIdx.run i) ((t (k + 1)).cIdx.par i q)) := by
        intro q hq
        have := hqmin _ (List.mem_map_of_mem (List.mem_range.2 hq))
        simp only [hf', Flt.lt, decide_eq_false_iff_not, not_lt] at this
        exact this
      have hlist : ∀ j, (c j).get i 0 = gibbs ((σ j 0).alpha ((t k).active.getD i 0)) ((List.range (t (k + 1)).cIdx.cols).map fun q =>
          (f ((σ j k).x.get ((t (k + 1)).cIdx.run i) ((t (k + 1)).cIdx.par i q)), (σ j k).x.get ((t (k + 1)).cIdx.run i) ((t (k + 1)).cIdx.par i q))) := by
        intro j
        rw [(gs j i (by rw [(hsc j).active]; exact hit)).1, ← consDefault_fin]
        congr 1
        simp only [sampleOf, finSample, List.map_map, (sc j).2.1, hal, (hsc j).active]
        apply List.map_congr_left
        intro q _
        simp only [Function.comp_apply, hE.f]
      simp only [hlist]
      have hxq : ∀ q < (t (k + 1)).cIdx.cols, Tendsto (fun j => (σ j k).x.get ((t (k + 1)).cIdx.run i) ((t (k + 1)).cIdx.par i q)) L (𝓝 ((t k).x.get ((t (k + 1)).cIdx.run i) ((t (k + 1)).cIdx.par i q))) := by
        intro q hq
        rw [hrun i hit]
        exact hxk _ hm _ (hNt ▸ hin i hit q hq)
      refine gibbs_limit (e' := fun q => f ((t k).x.get ((t (k + 1)).cIdx.run i) ((t (k + 1)).cIdx.par i q))) (y' := fun q => (t k).x.get ((t (k + 1)).cIdx.run i) ((t (k + 1)).cIdx.par i q)) (hα _ hm)
        (fun q hq => (hf.tendsto _).comp (hxq q hq)) hxq hi₀ hmin ?_
      intro q hq he
      have hsel : ∀ q < (t (k + 1)).cIdx.cols, (t (k + 1)).cIdx.Sel ((t k).active.getD i 0) ((t (k + 1)).cIdx.par i q) := fun q hq => ⟨i, by rw [hrows]; exact hit, q, hq, hrun i hit, rfl⟩
      have hall : ∀ l, (t (k + 1)).cIdx.Sel ((t k).active.getD i 0) l → f ((t k).x.get ((t k).active.getD i 0) ((t (k + 1)).cIdx.par i i₀)) ≤ f ((t k).x.get ((t k).active.getD i 0) l) := by
        rintro l ⟨i', hi', q', hq', e1, rfl⟩
        have hii : i' = i := getD_inj wt.nodup (by rw [← hrows]; exact hi') hit (by rw [← hrun i' (by rw [← hrows]; exact hi'), e1])
        subst hii
        have := hmin q' hq'
        rwa [hrun i' hit] at this
      simp only [hrun i hit] at he ⊢
      exact huniq k hk _ hm _ _ (hsel q hq) (hsel i₀ hi₀) (fun l hl => by rw [he]; exact hall l hl) hall
    refine ⟨fun j => (sc j).1, ?_, c, c', hc, hc', hcl⟩
    intro m hm n hn
    obtain ⟨i, hit, rfl⟩ := mem_getD (hat ▸ hm : m ∈ (t k).active)
    have hi0 : i < (t 0).active.length := by rw [← hat]; exact hit
    have e1 : ∀ j, (σ j (k + 1)).x.get ((t k).active.getD i 0) n = if (t (k + 1)).pIdx.Sel ((t k).active.getD i 0) n then
        p ((σ j k).x.get ((t k).active.getD i 0) n + cboUpdate (t k).lamda (t k).dt (t k).sigma ((σ j k).x.get ((t k).active.getD i 0) n - (c j).get i 0)
          (ν (t k).draws (t k).dt i (slotOf (t (k + 1)).pIdx i n) ((σ j k).x.get ((t k).active.getD i 0) n - (c j).get i 0))) else p ((σ j k).x.get ((t k).active.getD i 0) n) := by
      intro j
      have := (gs j i (by rw [(hsc j).active]; exact hit)).2 n
      rwa [(hsc j).active, (sc j).2.2, (hsc j).lamda, (hsc j).dt, (hsc j).sigma, (hsc j).draws] at this
    rw [(gt i hit).2 n]
    simp only [e1]
    have hxm := hxk _ hm n hn
    split_ifs with hsel
    · have hd := hxm.sub (hcl i hi0)
      refine (hp.tendsto _).comp (hxm.add ?_)
      unfold cboUpdate
      exact (hd.const_smul _).add ((((hν _ _ _ _).tendsto _).comp hd).const_smul _)
    · exact (hp.tendsto _).comp hxm
  have inv : ∀ k ≤ K, WF (t k) ∧ 1 ≤ (t k).batchSize ∧ (t k).active = (t 0).active ∧ (t k).N = (t 0).N ∧ (∀ j, WF (σ j k)) ∧ (∀ j, SameCourse (σ j k) (t k)) ∧ (∀ j, (σ j k).alpha = (σ j 0).alpha) ∧
      (∀ m ∈ (t 0).active, ∀ n < (t 0).N, Tendsto (fun j => (σ j k).x.get m n) L (𝓝 ((t k).x.get m n))) := by
    intro k hk
    induction k with
    | zero => exact ⟨wt0.1, wt0.2, rfl, rfl, ws0, hsame, fun _ => rfl, hx⟩
    | succ k ih =>
      obtain ⟨i1, i2, i3, i4, i5, i6, i7, i8⟩ := ih (by omega)
      obtain ⟨o1, o2, -⟩ := one k (by omega) i1 i2 i3 i4 i5 i6 i7 i8
      have frt := step_frame hi' (ht k)
      exact ⟨step_wf (cboMove_ok env') hpm.ok hp' i1 (by rw [← cboInner_eq]; exact ht k), by rw [frt.batchSize]; exact i2, by rw [frt.active, i3], by rw [frt.N, i4],
        fun j => step_wf (cboMove_ok env) hE.post.ok hE.perm (i5 j) (by rw [← cboInner_eq]; exact hσ j k), o1, fun j => by rw [(step_frame hi (hσ j k)).alpha, i7 j], o2⟩
  refine ⟨fun k hk => (inv k hk).2.2.2.2.2.2.2, fun k hk => ?_⟩
  obtain ⟨i1, i2, i3, i4, i5, i6, i7, i8⟩ := inv k hk.le
  exact (one k hk i1 i2 i3 i4 i5 i6 i7 i8).2.2

end

namespace Example

/-- A rule that picks a best particle. -/
noncomputable def greedy (l : List (ℝ × Flt ℝ × (Fin 2 → ℝ))) : Fin 2 → ℝ :=
  open Classical in if h : ∃ q ∈ l, ∀ q' ∈ l, Flt.lt q'.2.1 q.2.1 = false then h.choose.2.2 else 0

theorem greedy_best : PicksBest greedy := by
  intro l hl hfin
  have hx : ∃ q ∈ l, ∀ q' ∈ l, Flt.lt q'.2.1 q.2.1 = false := by
    let e : ℝ × Flt ℝ × (Fin 2 → ℝ) → ℝ := fun q => match q.2.1 with
      | .fin v => v
      | _ => 0
    have he : ∀ q ∈ l, q.2.1 = .fin (e q) := by
      intro q hq
      obtain ⟨v, hv⟩ := hfin q hq
      simp only [e, hv]
    obtain ⟨q, hq, hmin⟩ := Set.exists_min_image {q | q ∈ l} e l.finite_toSet (List.exists_mem_of_ne_nil l hl)
    exact ⟨q, hq, fun q' hq' => by
      rw [he q hq, he q' hq']
      simp only [Flt.lt, decide_eq_false_iff_not, not_lt]
      exact hmin q' hq'⟩
  unfold greedy
  rw [dif_pos hx]
  exact ⟨_, hx.choose_spec.1, hx.choose_spec.2, rfl⟩

/-- The dynamic that follows the best particle. -/
noncomputable def greedyEnv (rule : (Fin 2 → ℝ) → (Fin 2 → ℝ) → Fin 2 → ℝ) : Env ℝ (Fin 2 → ℝ) := { realEnv (rowNoise rule smp) with cons := .mean greedy }

/-- A family of dynamics with `alpha = j`, and the one that follows the best particle: infinitely many steps of each. -/
theorem greedy_paths (rule : (Fin 2 → ℝ) → (Fin 2 → ℝ) → Fin 2 → ℝ) (x : ℕ → ℕ → Fin 2 → ℝ) (sigma : ℝ) (b : Option ℕ) :
    ∃ (σ : ℕ → ℕ → St ℝ (Fin 2 → ℝ)) (t : ℕ → St ℝ (Fin 2 → ℝ)),
      (∀ j : ℕ, init (realEnv (rowNoise rule smp)) { realArgs x sigma b with alpha := j } = .ok (σ j 0)) ∧
      (∀ j k, step (realEnv (rowNoise rule smp)) (cboInner (realEnv (rowNoise rule smp))) (σ j k) = .ok (σ j (k + 1))) ∧
      init (greedyEnv rule) (realArgs x sigma b) = .ok (t 0) ∧ (∀ k, step (greedyEnv rule) (cboInner (greedyEnv rule)) (t k) = .ok (t (k + 1))) ∧
      (∀ j, SameCourse (σ j 0) (t 0)) ∧ (∀ j m, (σ j 0).alpha m = j) ∧ (∀ j, (σ j 0).x.get = x) ∧ (t 0).x.get = x ∧ (t 0).active = [0, 1] ∧ (t 0).N = 4 ∧ WF (t 0) ∧
      (t 0).lamda = 1 ∧ (t 0).dt = 1 / 10 ∧ (t 0).sigma = sigma := by
  have init_ok : ∀ (env : Env ℝ (Fin 2 → ℝ)) (al : ℝ), ∃ s, init env { realArgs x sigma b with alpha := al } = .ok s := fun env al => by
    unfold init
    rw [if_neg (by simp [realArgs])]
    exact ⟨_, rfl⟩
  have path : ∀ (env : Env ℝ (Fin 2 → ℝ)), env.corr = .none → (∃ r, env.cons = .mean r) → env.noise = rowNoise rule smp → PostMap env (clipVec 100) → PermOK env → env.emptyRaises = false →
      ∀ s, WF s → s.saveInt ≠ 0 → ∃ σ : ℕ → St ℝ (Fin 2 → ℝ), σ 0 = s ∧ ∀ k, step env (cboInner env) (σ k) = .ok (σ (k + 1)) := by
    intro env h1 h2 h3 h4 h5 h6 s hs hsi
    have hi : InnerFrame (cboInner env) := by rw [cboInner_eq]; exact consThen_frame (cboMove_ok env)
    have next : ∀ q : St ℝ (Fin 2 → ℝ), WF q ∧ q.saveInt ≠ 0 → ∃ q', step env (cboInner env) q = .ok q' ∧ WF q' ∧ q'.saveInt ≠ 0 := by
      rintro q ⟨w, hq⟩
      obtain ⟨q', hq'⟩ := cboStep_total_of h1 h2 (fun s => ⟨_, h4 s, rfl, rfl⟩) h5 w hq (fun h => by rw [h6] at h; cases h) fun q d hd _ _ _ _ _ _ => (rowNoise_rows h3).ok q d hd
      exact ⟨q', hq', step_wf (cboMove_ok env) h4.ok h5 w (by rw [← cboInner_eq]; exact hq'), by rw [(step_frame hi hq').saveInt]; exact hq⟩
    choose! F F1 F2 using next
    let σ : ℕ → St ℝ (Fin 2 → ℝ) := fun k => Nat.rec s (fun _ q => F q) k
    have hσ : ∀ k, WF (σ k) ∧ (σ k).saveInt ≠ 0 := by
      intro k
      induction k with
      | zero => exact ⟨hs, hsi⟩
      | succ k ih => exact F2 _ ih
    exact ⟨σ, rfl, fun k => F1 _ (hσ k)⟩
  choose s0 hs0 using fun j : ℕ => init_ok (realEnv (rowNoise rule smp)) j
  obtain ⟨t0, ht0⟩ := init_ok (greedyEnv rule) 3
  have facts : (∀ j, SameCourse (s0 j) t0) ∧ (∀ j m, (s0 j).alpha m = j) ∧ (∀ j, (s0 j).x.get = x) ∧ t0.x.get = x ∧ t0.active = [0, 1] ∧ t0.N = 4 ∧ t0.lamda = 1 ∧ t0.dt = 1 / 10 ∧ t0.sigma = sigma ∧
      (∀ j, (s0 j).saveInt ≠ 0) ∧ t0.saveInt ≠ 0 := by
    unfold init at hs0 ht0
    simp only [realArgs, if_neg (show ¬ (4 : ℕ) = 0 by omega)] at hs0 ht0
    injection ht0 with ht0
    have hs0' := fun j => Except.ok.inj (hs0 j)
    have e0 : s0 = fun j => s0 j := rfl
    clear hs0
    have h2 : (2 : ℕ) ≠ 0 := by omega
    rcases b with _ | b
    · refine ⟨fun j => ?_, fun j m => ?_, fun j => ?_, ?_, ?_, ?_, ?_, ?_, ?_, fun j => ?_, ?_⟩
      all_goals first
        | (rw [← hs0' j, ← ht0]; constructor <;> rfl)
        | (rw [← hs0' j]; rfl)
        | (rw [← ht0]; rfl)
        | (rw [← hs0' j]; exact h2)
        | (rw [← ht0]; exact h2)
    · refine ⟨fun j => ?_, fun j m => ?_, fun j => ?_, ?_, ?_, ?_, ?_, ?_, ?_, fun j => ?_, ?_⟩
      all_goals first
        | (rw [← hs0' j, ← ht0]; constructor <;> rfl)
        | (rw [← hs0' j]; rfl)
        | (rw [← ht0]; rfl)
        | (rw [← hs0' j]; exact h2)
        | (rw [← ht0]; exact h2)
  obtain ⟨c1, c2, c3, c4, c5, c6, c7, c8, c9, c10, c11⟩ := facts
  have hpg : PermOK (greedyEnv rule) := perm_ok (rowNoise rule smp)
  have p1 := fun j => path (realEnv (rowNoise rule smp)) rfl ⟨_, rfl⟩ rfl (realEnv_standard rule).post (perm_ok (rowNoise rule smp)) rfl (s0 j) (init_wf (perm_ok (rowNoise rule smp)) (hs0 j)) (c10 j)
  choose σ σ0 hσ using p1
  obtain ⟨t, tt0, ht⟩ := path (greedyEnv rule) rfl ⟨_, rfl⟩ rfl (fun s => rfl) hpg rfl t0 (init_wf hpg ht0) c11
  refine ⟨σ, t, fun j => by rw [σ0]; exact hs0 j, hσ, by rw [tt0]; exact ht0, ht, fun j => by rw [σ0, tt0]; exact c1 j, fun j m => by rw [σ0]; exact c2 j m, fun j => by rw [σ0]; exact c3 j, ?_⟩
  rw [tt0]
  exact ⟨c4, c5, c6, init_wf hpg ht0, c7, c8, c9⟩

end Example

theorem Example.isoRule_continuous (z : Fin 2 → ℝ) : Continuous fun d : Fin 2 → ℝ => isoRule d z := by
  unfold isoRule euclid
  fun_prop

theorem Example.isoRule_scaled (c : ℝ) (z : Fin 2 → ℝ) : Continuous fun d : Fin 2 → ℝ => c • isoRule d z := by
  have := Example.isoRule_continuous z
  fun_prop

theorem Example.clip_continuous : Continuous (clipVec 100 : (Fin 2 → ℝ) → Fin 2 → ℝ) := by
  unfold clipVec
  fun_prop

/-- C115: two runs of four particles on the plane with isotropic noise, clipping and batches of 3 of 4 particles: for `alpha = 0, 1, 2, …` the ensembles after the first step tend to the one obtained by following the best
particle of the batch. -/
example : ∃ (σ : ℕ → ℕ → St ℝ (Fin 2 → ℝ)) (t : ℕ → St ℝ (Fin 2 → ℝ)),
    (∀ j : ℕ, init (Example.realEnv (rowNoise isoRule Example.smp)) { Example.realArgs (fun m n => ![n, m]) 3 (some 3) with alpha := j } = .ok (σ j 0)) ∧
    (∀ j k, step (Example.realEnv (rowNoise isoRule Example.smp)) (cboInner (Example.realEnv (rowNoise isoRule Example.smp))) (σ j k) = .ok (σ j (k + 1))) ∧
    init (Example.greedyEnv isoRule) (Example.realArgs (fun m n => ![n, m]) 3 (some 3)) = .ok (t 0) ∧
    (∀ k, step (Example.greedyEnv isoRule) (cboInner (Example.greedyEnv isoRule)) (t k) = .ok (t (k + 1))) ∧
    ∀ m < 2, ∀ n < 4, Tendsto (fun j => (σ j 1).x.get m n) atTop (𝓝 ((t 1).x.get m n)) := by
  obtain ⟨σ, t, h0, hσ, h0', ht, c1, c2, c3, c4, c5, c6, -⟩ := Example.greedy_paths isoRule (fun m n => ![n, m]) 3 (some 3)
  refine ⟨σ, t, h0, hσ, h0', ht, ?_⟩
  have hE := Example.realEnv_standard isoRule
  have key := C115_large_alpha (L := atTop) _ (Example.greedyEnv isoRule) _ _ _ hE (by fun_prop) (fun c dt i k => Example.isoRule_scaled _ _) Example.clip_continuous _ Example.greedy_best rfl rfl
    hE.noise (fun _ => rfl) rfl (fun _ => rfl) _ _ (by simp [Example.realArgs]) (fun j => σ j 0) (t 0) (fun _ => []) [] σ t h0 (fun _ => rfl) hσ h0' rfl ht c1
    (fun m _ => by simp only [c2]; exact tendsto_natCast_atTop_atTop) (fun m _ n _ => by simp only [c3, c4]; exact tendsto_const_nhds) 1 (by
      intro k hk m _ n n' h1 h2 g1 g2
      obtain rfl : k = 0 := by omega
      have e := le_antisymm (g1 n' h2) (g2 n h1)
      rw [c4] at e ⊢
      simp at e
      rw [e])
  intro m hm n hn
  refine key.1 1 le_rfl m ?_ n (by rw [c6]; exact hn)
  rw [c5]
  interval_cases m <;> simp

/-- C115, all steps: without noise the best particle `(0, m)` of run `m` stays where it is, the others approach it; for `alpha = 0, 1, 2, …` the ensembles after any number `k` of steps tend to `(0.9 ^ k * n, m)`. -/
example : ∃ (σ : ℕ → ℕ → St ℝ (Fin 2 → ℝ)),
    (∀ j : ℕ, init (Example.realEnv (rowNoise isoRule Example.smp)) { Example.realArgs (fun m n => ![n, m]) 0 none with alpha := j } = .ok (σ j 0)) ∧
    (∀ j k, step (Example.realEnv (rowNoise isoRule Example.smp)) (cboInner (Example.realEnv (rowNoise isoRule Example.smp))) (σ j k) = .ok (σ j (k + 1))) ∧
    ∀ k, ∀ m < 2, ∀ n < 4, Tendsto (fun j => (σ j k).x.get m n) atTop (𝓝 ![(9 / 10) ^ k * n, m]) := by
  obtain ⟨σ, t, h0, hσ, h0', ht, c1, c2, c3, c4, c5, c6, wt0, c7, c8, c9⟩ := Example.greedy_paths isoRule (fun m n => ![n, m]) 0 none
  refine ⟨σ, h0, hσ, ?_⟩
  have hE := Example.realEnv_standard isoRule
  have hn : NoiseRows (Example.greedyEnv isoRule) (fun c dt i j d => Real.sqrt dt • isoRule d (Example.smp c i j)) := hE.noise
  have hpm : PostMap (Example.greedyEnv isoRule) (clipVec 100) := fun _ => rfl
  have hp : PermOK (Example.greedyEnv isoRule) := Example.perm_ok (rowNoise isoRule Example.smp)
  have hi' : InnerFrame (cboInner (Example.greedyEnv isoRule)) := by rw [cboInner_eq]; exact consThen_frame (cboMove_ok _)
  have hbat : (t 0).batched = false := by
    unfold init at h0'
    simp only [Example.realArgs, if_neg (show ¬ (4 : ℕ) = 0 by omega)] at h0'
    rw [← Except.ok.inj h0']
    rfl
  have inv : ∀ k, WF (t k) ∧ (t k).active = [0, 1] ∧ (t k).N = 4 ∧ (t k).batched = false ∧ (t k).lamda = 1 ∧ (t k).dt = 1 / 10 ∧ (t k).sigma = 0 ∧
      ∀ m < 2, ∀ n < 4, (t k).x.get m n = ![(9 / 10) ^ k * (n : ℝ), (m : ℝ)] := by
    intro k
    induction k with
    | zero => exact ⟨wt0, c5, c6, hbat, c7, c8, c9, fun m _ n _ => by rw [c4]; simp⟩
    | succ k ih =>
      obtain ⟨w, i1, i2, i3, i4, i5, i6, i7⟩ := ih
      have fr := step_frame hi' (ht k)
      refine ⟨step_wf (cboMove_ok _) hpm.ok hp w (by rw [← cboInner_eq]; exact ht k), by rw [fr.active, i1], by rw [fr.N, i2], by rw [fr.batched, i3], by rw [fr.lamda, i4], by rw [fr.dt, i5], by rw [fr.sigma, i6], ?_⟩
      intro m hm n hn4
      obtain ⟨-, cm, -, g⟩ := slot_step (r := Example.greedy) rfl rfl hn hpm hp w (ht k)
      have hml : m < (t k).active.length := by rw [i1]; exact hm
      have hmm : (t k).active.getD m 0 = m := by rw [i1]; interval_cases m <;> rfl
      obtain ⟨g1, g2⟩ := g m hml
      obtain ⟨pc, pr, pcol, prun, ppar⟩ := (preStep_pIdx (Example.greedyEnv isoRule) (t k) w).2.2 i3
      have e1 : (t (k + 1)).cIdx.cols = 4 := by rw [fr.cIdx, ← pc, pcol, i2]
      have e2 : (t (k + 1)).cIdx.run m = m := by rw [fr.cIdx, ← pc, prun m hml, hmm]
      have e3 : ∀ j, (t (k + 1)).cIdx.par m j = j := fun j => by rw [fr.cIdx, ← pc, ppar]
      have hsel : (t (k + 1)).pIdx.Sel m n := by
        rw [fr.pIdx]
        exact ⟨m, by rw [pr]; exact hml, n, by rw [pcol, i2]; exact hn4, by rw [prun m hml, hmm], ppar m n⟩
      have hs : sampleOf (Example.greedyEnv isoRule) { t k with cIdx := (t (k + 1)).cIdx } m =
          (List.range 4).map fun j : ℕ => ((t k).alpha m, .fin (((9 / 10) ^ k * (j : ℝ)) ^ 2 + (m : ℝ) ^ 2), ![(9 / 10) ^ k * (j : ℝ), (m : ℝ)]) := by
        simp only [sampleOf, e1, e2, e3, hmm]
        refine List.map_congr_left fun j hj => ?_
        rw [i7 m hm j (List.mem_range.1 hj)]
        simp [Example.greedyEnv, Example.realEnv]
      rw [hs] at g1
      obtain ⟨q, hq, hmin, hr⟩ := Example.greedy_best ((List.range 4).map fun j : ℕ => ((t k).alpha m, Flt.fin (((9 / 10) ^ k * (j : ℝ)) ^ 2 + (m : ℝ) ^ 2), ![(9 / 10) ^ k * (j : ℝ), (m : ℝ)])) (by simp)
        (by intro q hq; simp only [List.mem_map] at hq; obtain ⟨j, -, rfl⟩ := hq; exact ⟨_, rfl⟩)
      obtain ⟨j, hj, rfl⟩ := List.mem_map.1 hq
      have hm0 := hmin _ (List.mem_map_of_mem (List.mem_range.2 (show 0 < 4 by omega)))
      simp only [Flt.lt, decide_eq_false_iff_not, not_lt, Nat.cast_zero, mul_zero] at hm0
      have hj0 : (9 / 10 : ℝ) ^ k * (j : ℝ) = 0 := by
        have : ((9 / 10 : ℝ) ^ k * (j : ℝ)) ^ 2 ≤ 0 := by linarith
        exact pow_eq_zero_iff two_ne_zero |>.1 (le_antisymm this (sq_nonneg _))
      have hc : cm.get m 0 = ![0, (m : ℝ)] := by rw [g1, hr, hj0]
      have g3 := g2 n
      rw [hmm, if_pos hsel, hc, i7 m hm n hn4, i4, i5, i6] at g3
      rw [g3]
      have hb : (9 / 10 : ℝ) ^ (k + 1) ≤ 1 := pow_le_one₀ (by norm_num) (by norm_num)
      have hb0 : (0 : ℝ) ≤ (9 / 10) ^ (k + 1) := by positivity
      have hn3 : (n : ℝ) ≤ 4 := by exact_mod_cast hn4.le
      have hm3 : (m : ℝ) ≤ 2 := by exact_mod_cast hm.le
      have hv : ![(9 / 10 : ℝ) ^ k * (n : ℝ), (m : ℝ)] + cboUpdate (1 : ℝ) (1 / 10) 0 (![(9 / 10 : ℝ) ^ k * (n : ℝ), (m : ℝ)] - ![0, (m : ℝ)])
          (Real.sqrt (1 / 10) • isoRule (![(9 / 10 : ℝ) ^ k * (n : ℝ), (m : ℝ)] - ![0, (m : ℝ)]) (Example.smp (t k).draws m (slotOf (t (k + 1)).pIdx m n))) = ![(9 / 10 : ℝ) ^ (k + 1) * (n : ℝ), (m : ℝ)] := by
        funext l
        fin_cases l
        · simp [cboUpdate]
          ring
        · simp [cboUpdate]
      rw [hv]
      have hle : (9 / 10 : ℝ) ^ (k + 1) * (n : ℝ) ≤ 4 := (mul_le_of_le_one_left (by positivity) hb).trans hn3
      have hge : 0 ≤ (9 / 10 : ℝ) ^ (k + 1) * (n : ℝ) := by positivity
      have hm0 : (0 : ℝ) ≤ m := by positivity
      funext l
      fin_cases l
      · show min (max ((9 / 10 : ℝ) ^ (k + 1) * (n : ℝ)) (-100)) 100 = (9 / 10 : ℝ) ^ (k + 1) * (n : ℝ)
        rw [max_eq_left (by linarith), min_eq_left (by linarith)]
      · show min (max (m : ℝ) (-100)) 100 = (m : ℝ)
        rw [max_eq_left (by linarith), min_eq_left (by linarith)]
  intro K
  have key := C115_large_alpha (L := atTop) _ (Example.greedyEnv isoRule) _ _ _ hE (by fun_prop) (fun c dt i k => Example.isoRule_scaled _ _) Example.clip_continuous _ Example.greedy_best rfl rfl
    hE.noise (fun _ => rfl) rfl (fun _ => rfl) _ _ (by simp [Example.realArgs]) (fun j => σ j 0) (t 0) (fun _ => []) [] σ t h0 (fun _ => rfl) hσ h0' rfl ht c1
    (fun m _ => by simp only [c2]; exact tendsto_natCast_atTop_atTop) (fun m _ n _ => by simp only [c3, c4]; exact tendsto_const_nhds) K (by
      intro k hk m hm n n' h1 h2 g1 g2
      obtain ⟨w, i1, i2, i3, -, -, -, i7⟩ := inv k
      have hix := preStep_idx (Example.greedyEnv isoRule) hp w
      have hlt : ∀ n, (t (k + 1)).cIdx.Sel m n → n < 4 := by
        rintro n ⟨i, hi, j, hj, -, rfl⟩
        rw [(step_frame hi' (ht k)).cIdx] at hi hj ⊢
        have := (hix.cIn i hi j hj).2
        rwa [i2] at this
      have hm2 : m < 2 := by
        rw [c5] at hm
        simp at hm
        omega
      have e := le_antisymm (g1 n' h2) (g2 n h1)
      rw [i7 m hm2 n (hlt n h1), i7 m hm2 n' (hlt n' h2)] at e ⊢
      simp at e
      have e2 := (pow_left_inj₀ (by positivity) (by positivity) two_ne_zero).1 e
      rw [e2])
  intro m hm n hn
  rw [← (inv K).2.2.2.2.2.2.2 m hm n hn]
  refine key.1 K le_rfl m ?_ n (by rw [c6]; exact hn)
  rw [c5]
  interval_cases m <;> simp

end Verif
