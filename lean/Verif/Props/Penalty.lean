import Verif.Proofs.Penalty
import Verif.Props.Regularizers
import Verif.Spec.ExampleReal

/-! # C119: the penalty of a regularised objective in the consensus point -/

set_option linter.unusedSectionVars false

namespace Verif

open Filter Topology

section
variable {d : ℕ}

/-- The energies of the regularised objective, row by row. -/
theorem regCall_sample {f R : (Fin d → ℝ) → ℝ} {p lam : ℝ} {x : Mat (Fin d → ℝ)} {y : Mat ℝ} {L : Lam} (hy : regCall f R p (.num lam) x = .ok (y, L)) {m : ℕ} (hm : m < x.rows) {W : Type} (a : ℝ)
    (g : (Fin d → ℝ) → W) : ((List.range x.cols).map fun n => (a, Flt.fin (y.get m n), g (x.get m n))) =
      ((List.range x.cols).map fun n => x.get m n).map fun v => (a, Flt.fin (f v + lam * R v ^ p), g v) := by
  have hfit : (Lam.num lam).fits x.rows := trivial
  obtain ⟨y', L', h', -, -, -, hv⟩ := C43_value f R p (.num lam) x hfit
  rw [hy] at h'
  injection h' with h'
  injection h' with e1 e2
  subst e1
  rw [List.map_map]
  apply List.map_congr_left
  intro n _
  simp only [Function.comp_apply, (hv m hm).2 n]
  rfl

/-- **C119, the violation falls.** The energies of a run are those of `regularize_objective` with the number `lam`; the consensus rule is applied to the violations `R^p` of the particles instead of their positions, that is, the
violation is averaged with the weights of the consensus point. This average does not increase when the penalty is raised (`alpha ≥ 0`, any `f`, `R`, `p`). -/
theorem C119_violation (f R : (Fin d → ℝ) → ℝ) (p a : ℝ) (ha : 0 ≤ a) (x : Mat (Fin d → ℝ)) (m : ℕ) (hm : m < x.rows) (lam lam' : ℝ) (hl : lam ≤ lam') (y y' : Mat ℝ) (L L' : Lam)
    (hy : regCall f R p (.num lam) x = .ok (y, L)) (hy' : regCall f R p (.num lam') x = .ok (y', L')) :
    consDefault ((List.range x.cols).map fun n => (a, .fin (y'.get m n), R (x.get m n) ^ p)) ≤ consDefault ((List.range x.cols).map fun n => (a, .fin (y.get m n), R (x.get m n) ^ p)) := by
  rw [regCall_sample hy hm a fun v => R v ^ p, regCall_sample hy' hm a fun v => R v ^ p, cons_wmean, cons_wmean]
  exact wmean_antitone ha f (fun v => R v ^ p) _ hl

/-- **C119, weight of the violating particles.** With penalty `lam ≥ 0`, the total weight in the consensus point of the particles whose violation exceeds that of some particle `n₀` by at least `δ` is at most
`N exp(-alpha (lam δ - K))`, where no particle is better than `n₀` by more than `K` in the original objective. -/
theorem C119_weight (f R : (Fin d → ℝ) → ℝ) (p a : ℝ) (ha : 0 ≤ a) (x : Mat (Fin d → ℝ)) (m : ℕ) (hm : m < x.rows) (lam : ℝ) (hl : 0 ≤ lam) (y : Mat ℝ) (L : Lam) (hy : regCall f R p (.num lam) x = .ok (y, L))
    (n₀ : ℕ) (h₀ : n₀ < x.cols) (δ K : ℝ) (hK : ∀ n < x.cols, f (x.get m n₀) - f (x.get m n) ≤ K) [∀ n, Decidable (R (x.get m n₀) ^ p + δ ≤ R (x.get m n) ^ p)] :
    consDefault ((List.range x.cols).map fun n => (a, .fin (y.get m n), if R (x.get m n₀) ^ p + δ ≤ R (x.get m n) ^ p then (1 : ℝ) else 0)) ≤ x.cols * Real.exp (-(a * (lam * δ - K))) := by
  classical
  have h1 := regCall_sample hy hm a fun v => if R (x.get m n₀) ^ p + δ ≤ R v ^ p then (1 : ℝ) else 0
  have h2 : ((List.range x.cols).map fun n => (a, Flt.fin (y.get m n), if R (x.get m n₀) ^ p + δ ≤ R (x.get m n) ^ p then (1 : ℝ) else 0)) =
      ((List.range x.cols).map fun n => (a, Flt.fin (y.get m n), (fun v => if R (x.get m n₀) ^ p + δ ≤ R v ^ p then (1 : ℝ) else 0) (x.get m n))) := by
    apply List.map_congr_left
    intro n _
    simp only
    congr
  rw [h2, h1, cons_wmean]
  have := wmean_tail (δ := δ) (K := K) ha hl f (fun v => R v ^ p) ((List.range x.cols).map fun n => x.get m n) (v₀ := x.get m n₀) (List.mem_map_of_mem (List.mem_range.2 h₀)) (by
      intro v hv
      obtain ⟨n, hn, rfl⟩ := List.mem_map.1 hv
      exact hK n (List.mem_range.1 hn)) (fun v => R (x.get m n₀) ^ p + δ ≤ R v ^ p) fun v _ h => h
  simpa using this

/-- **C119, large penalties.** As `lam` tends to infinity (`alpha > 0`) the consensus point of a run tends to the consensus point, for the original objective, of the particles of least violation alone; if some particles are
feasible (`R = 0`, `p > 0`) that is the consensus point of the feasible ones. -/
theorem C119_limit (f R : (Fin d → ℝ) → ℝ) (p a : ℝ) (ha : 0 < a) (x : Mat (Fin d → ℝ)) (m : ℕ) (hm : m < x.rows) (y : ℝ → Mat ℝ) (L : ℝ → Lam) (hy : ∀ lam, regCall f R p (.num lam) x = .ok (y lam, L lam))
    (n₀ : ℕ) (h₀ : n₀ < x.cols) (hmin : ∀ n < x.cols, R (x.get m n₀) ^ p ≤ R (x.get m n) ^ p) :
    Tendsto (fun lam => consDefault ((List.range x.cols).map fun n => (a, .fin (y lam |>.get m n), x.get m n))) atTop
      (𝓝 (consDefault (((List.range x.cols).filter fun n => R (x.get m n) ^ p = R (x.get m n₀) ^ p).map fun n => (a, .fin (f (x.get m n)), x.get m n)))) := by
  have h := wmean_limit ha f (fun v => R v ^ p) (fun v : Fin d → ℝ => v) ((List.range x.cols).map fun n => x.get m n) (v₀ := x.get m n₀) (List.mem_map_of_mem (List.mem_range.2 h₀)) (by
    intro v hv
    obtain ⟨n, hn, rfl⟩ := List.mem_map.1 hv
    exact hmin n (List.mem_range.1 hn))
  rw [← cons_wmean, List.filter_map, List.map_map] at h
  refine h.congr fun lam => ?_
  rw [regCall_sample (hy lam) hm a fun v => v, cons_wmean]

end

section
variable {V : Type} [NormedAddCommGroup V] [NormedSpace ℝ V]

/-- **C119, in a step.** CBO with any batches, noise and post processing acting on particles one by one, and the objective `f + lam R^p`; `s` is any reachable state (reached with penalty `lam₀`) and `s' lam` the state after one step
with penalty `lam`. As `lam → ∞` the consensus point of every running run with `alpha > 0` tends to the mean, weighted by the original objective, of the particles of least violation in the batch of the run. The batch
does not depend on `lam`. -/
theorem C119_step (env : Env ℝ V) (f R : V → ℝ) (p : ℝ) (ν : ℕ → ℝ → ℕ → ℕ → V → V) (π : V → V) (hE : ∀ lam, Standard { env with f := fun v => .fin (penal f R p lam v) } (penal f R p lam) ν π)
    (a : Args ℝ V) (hb : a.batchSize ≠ some 0) (s₀ s : St ℝ V) (ops : List Op) (lam₀ : ℝ) (h0 : init { env with f := fun v => .fin (penal f R p lam₀ v) } a = .ok s₀)
    (h : execAll { env with f := fun v => .fin (penal f R p lam₀ v) } (cboInner { env with f := fun v => .fin (penal f R p lam₀ v) }) ops s₀ = .ok s) (s' : ℝ → St ℝ V)
    (hs : ∀ lam, step { env with f := fun v => .fin (penal f R p lam v) } (cboInner { env with f := fun v => .fin (penal f R p lam v) }) s = .ok (s' lam))
    (m : ℕ) (hm : m ∈ s.active) (hα : 0 < s.alpha m) :
    ∃ (i : ℕ) (js : List ℕ) (c : ℝ → Mat V) (n₀ : ℕ), i < s.active.length ∧ s.active.getD i 0 = m ∧ (∀ lam, (s' lam).cons = some (c lam)) ∧
      (∀ lam, js = (List.range (s' lam).cIdx.cols).map ((s' lam).cIdx.par i)) ∧ n₀ ∈ js ∧ LeastViolation R p (js.map (s.x.get m)) (s.x.get m n₀) ∧ (∀ n ∈ js, n < s.N) ∧
      Tendsto (fun lam => (c lam).get i 0) atTop (𝓝 (wmean (s.alpha m) f (fun v => v) ((js.map (s.x.get m)).filter fun v => R v ^ p = R (s.x.get m n₀) ^ p))) := by
  have wf := std_reach (hE lam₀) hb h0 h
  have hix := preStep_idx { env with f := fun v => .fin (penal f R p 0 v) } (hE 0).perm wf.1
  have hci : ∀ lam, (s' lam).cIdx = (preStep { env with f := fun v => .fin (penal f R p 0 v) } s).cIdx := fun lam =>
    (step_frame (by rw [cboInner_eq]; exact consThen_frame (cboMove_ok _)) (hs lam)).cIdx
  obtain ⟨i, hi, hmi⟩ := mem_getD hm
  have hr : ∀ lam, (s' lam).cIdx.run i = m := fun lam => by rw [hci, hix.cRun i hi, hmi]
  choose ii cc H using fun lam => runStep (hE lam) wf.1 wf.2 (hs lam) m hm
  have hii : ∀ lam, ii lam = i := fun lam => getD_inj (wf.1.act.nodup List.nodup_range) (H lam).pos hi ((H lam).act.trans hmi.symm)
  choose c hc hcc using fun lam => (H lam).cons
  let js := (List.range (s' 0).cIdx.cols).map ((s' 0).cIdx.par i)
  have hjs : ∀ lam, js = (List.range (s' lam).cIdx.cols).map ((s' lam).cIdx.par i) := fun lam => by rw [hci lam, ← hci 0]
  have hpts : ∀ lam, batchPairs (penal f R p lam) s (s' lam) i = (js.map (s.x.get m)).map fun v => (penal f R p lam v, v) := by
    intro lam
    rw [hjs lam, List.map_map, List.map_map]
    simp only [batchPairs, hr lam]
    rfl
  have hne : js ≠ [] := by
    have := (H 0).ne
    rw [hii, hpts] at this
    intro e
    rw [e] at this
    exact this rfl
  obtain ⟨n₀, hn₀, hmin⟩ : ∃ n₀ ∈ js, ∀ n ∈ js, R (s.x.get m n₀) ^ p ≤ R (s.x.get m n) ^ p := by
    obtain ⟨n₀, h1, h2⟩ := js.toFinset.exists_min_image (fun n => R (s.x.get m n) ^ p) (by rwa [List.toFinset_nonempty_iff])
    exact ⟨n₀, List.mem_toFinset.1 h1, fun n hn => h2 n (List.mem_toFinset.2 hn)⟩
  have hmin' : LeastViolation R p (js.map (s.x.get m)) (s.x.get m n₀) := by
    intro w hw
    obtain ⟨n, hn, rfl⟩ := List.mem_map.1 hw
    exact hmin n hn
  refine ⟨i, js, c, n₀, hi, hmi, hc, hjs, hn₀, hmin', ?_, ?_⟩
  · intro n hn
    obtain ⟨j, hj, rfl⟩ := List.mem_map.1 hn
    rw [hci 0]
    exact (hix.cIn i (by rw [hix.cRows]; exact hi) j (by rw [← hci 0]; exact List.mem_range.1 hj)).2
  · refine (wmean_limit hα f (fun v => R v ^ p) (fun v : V => v) (js.map (s.x.get m)) (List.mem_map_of_mem hn₀) hmin').congr fun lam => ?_
    have h1 := hcc lam
    rw [(H lam).pairs, hii, hpts, gibbs_wmean] at h1
    rw [h1]
    rfl

end

/-- C119: the distance to the unit circle as penalty; the particle at `(1, 0)` is feasible, the one at the origin has the least energy and violates the constraint by one. -/
example : let f : (Fin 2 → ℝ) → ℝ := fun v => v 0 ^ 2 + v 1 ^ 2
    let x : Mat (Fin 2 → ℝ) := ⟨1, 2, fun _ n => if n = 0 then ![1, 0] else ![0, 0]⟩
    (∀ lam, ∃ y L, regCall f (regSphere 1) 1 (.num lam) x = .ok (y, L)) ∧ 0 < x.rows ∧ regSphere 1 (x.get 0 0) ^ (1 : ℝ) = 0 ∧ regSphere 1 (x.get 0 1) ^ (1 : ℝ) = 1 ∧
      (∀ n < x.cols, regSphere 1 (x.get 0 0) ^ (1 : ℝ) ≤ regSphere 1 (x.get 0 n) ^ (1 : ℝ)) ∧ ∀ n < x.cols, f (x.get 0 0) - f (x.get 0 n) ≤ 1 := by
  have e0 : regSphere 1 (![1, 0] : Fin 2 → ℝ) = 0 := by simp [regSphere]
  have e1 : regSphere 1 (![0, 0] : Fin 2 → ℝ) = 1 := by simp [regSphere]
  refine ⟨fun lam => ?_, by norm_num, by simp [e0], by simp [e1], ?_, ?_⟩
  · obtain ⟨y, L, h, -⟩ := C43_value (fun v : Fin 2 → ℝ => v 0 ^ 2 + v 1 ^ 2) (regSphere 1) 1 (.num lam) ⟨1, 2, fun _ n => if n = 0 then ![1, 0] else ![0, 0]⟩ trivial
    exact ⟨y, L, h⟩
  · intro n _
    by_cases hn : n = 0 <;> simp [hn, e0, e1]
  · intro n _
    by_cases hn : n = 0 <;> simp [hn]

/-- C119, in a step: the surroundings of the examples with a penalty; the constructor and every sequence of operations succeed, in particular a step with every penalty. -/
example (rule : (Fin 2 → ℝ) → (Fin 2 → ℝ) → Fin 2 → ℝ) (f R : (Fin 2 → ℝ) → ℝ) (p : ℝ) (x : ℕ → ℕ → Fin 2 → ℝ) :
    let env := fun lam => { Example.realEnv (rowNoise rule Example.smp) with f := fun v => .fin (penal f R p lam v) }
    (∀ lam, Standard (env lam) (penal f R p lam) (fun c dt i j d => Real.sqrt dt • rule d (Example.smp c i j)) (clipVec 100)) ∧
      ∃ s₀, init (env 1) (Example.realArgs x 1 (some 2)) = .ok s₀ ∧ 0 ∈ s₀.active ∧ 0 < s₀.alpha 0 ∧ ∀ lam, ∃ s', step (env lam) (cboInner (env lam)) s₀ = .ok s' := by
  intro env
  have hE : ∀ lam, Standard (env lam) (penal f R p lam) (fun c dt i j d => Real.sqrt dt • rule d (Example.smp c i j)) (clipVec 100) := fun lam =>
    ⟨rfl, rfl, (Example.realEnv_standard rule).noise, fun _ => rfl, Example.perm_ok (rowNoise rule Example.smp), fun _ => rfl⟩
  have hi : ∃ s₀, init (env 1) (Example.realArgs x 1 (some 2)) = .ok s₀ ∧ 0 ∈ s₀.active ∧ 0 < s₀.alpha 0 ∧ s₀.saveInt ≠ 0 := by
    unfold init
    rw [if_neg (by simp [Example.realArgs])]
    refine ⟨_, rfl, ?_, ?_, ?_⟩
    · show 0 ∈ List.range 2
      simp
    · show (0 : ℝ) < 3
      norm_num
    · show (2 : ℕ) ≠ 0
      norm_num
  obtain ⟨s₀, h0, h1, h2, h3⟩ := hi
  refine ⟨hE, s₀, h0, h1, h2, fun lam => ?_⟩
  exact cboStep_total_of rfl ⟨_, rfl⟩ (fun s => ⟨_, (hE lam).post s, rfl, rfl⟩) (hE lam).perm (init_wf (hE 1).perm h0) h3 (fun h => by cases h) fun q d hd _ _ _ _ _ _ => (hE lam).noise.ok q d hd

end Verif
