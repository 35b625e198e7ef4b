import Verif.Proofs.Consensus
import Verif.Proofs.Local
import Verif.Spec.Standard

/-! One CBO step with the default consensus rule, run by run. Helper lemmas. -/

set_option linter.unusedSectionVars false

namespace Verif

section
variable {K V : Type} [Zero K] [One K] [Neg K] [Add K] [Sub K] [Mul K] [Inv K] [Div K] [NatCast K] [Pow K ℕ] [LinearOrder K] [Add V] [Sub V] [SMul K V]

theorem init_bs {env : Env K V} {a : Args K V} {s : St K V} (hb : a.batchSize ≠ some 0) (h : init env a = .ok s) :
    1 ≤ s.batchSize := by
  unfold init at h
  split_ifs at h with h0 hc
  all_goals
    injection h with h
    subst h
    simp only [initBatch, initHistory, checkFDims, callF, baseSt, batchSizeOf]
    cases hbs : a.batchSize with
    | none => simp only; omega
    | some b =>
      have : b ≠ 0 := fun h => hb (by rw [hbs, h])
      simp only; omega

theorem exec_bs {env : Env K V} {inner : St K V → Except Err (St K V)} (hi : InnerFrame inner) {o : Op} {s s' : St K V}
    (h : exec env inner o s = .ok s') : s'.batchSize = s.batchSize ∧ s'.M = s.M ∧ s'.N = s.N := by
  cases o with
  | step => have f := step_frame hi h; exact ⟨f.batchSize, f.M, f.N⟩
  | select => have f := select_frame h; rw [f]; exact ⟨rfl, rfl, rfl⟩
  | sched => have f := sched_frame h; rw [f]; exact ⟨rfl, rfl, rfl⟩
  | reset =>
    simp only [exec] at h
    injection h with h
    subst h
    exact ⟨rfl, rfl, rfl⟩

end

variable {V : Type} [AddCommGroup V] [Module ℝ V]

/-- The batch of the `i`-th active run: pairs (energy, particle). -/
noncomputable def batchPairs (f : V → ℝ) (s s' : St ℝ V) (i : ℕ) : List (ℝ × V) :=
  (List.range s'.cIdx.cols).map fun j =>
    (f (s.x.get (s'.cIdx.run i) (s'.cIdx.par i j)), s.x.get (s'.cIdx.run i) (s'.cIdx.par i j))

/-- What one step does to run `m`, in terms of its consensus point `c`. -/
structure RunStep (f : V → ℝ) (ν : ℕ → ℝ → ℕ → ℕ → V → V) (p : V → V) (s s' : St ℝ V) (m i : ℕ) (c : V) : Prop where
  pos : i < s.active.length
  act : s.active.getD i 0 = m
  cons : ∃ cm, s'.cons = some cm ∧ cm.get i 0 = c
  pairs : c = gibbs (s.alpha m) (batchPairs f s s' i)
  ne : batchPairs f s s' i ≠ []
  mem : ∀ q ∈ batchPairs f s s' i, ∃ n < s.N, q = (f (s.x.get m n), s.x.get m n)
  moved : ∀ n < s.N, s'.pIdx.Sel m n → ∃ j, s'.pIdx.par i j = n ∧ s'.x.get m n = p (s.x.get m n +
    cboUpdate s.lamda s.dt s.sigma (s.x.get m n - c) (ν s.draws s.dt i j (s.x.get m n - c)))
  still : ∀ n < s.N, ¬ s'.pIdx.Sel m n → s'.x.get m n = p (s.x.get m n)

theorem runStep {env : Env ℝ V} {f : V → ℝ} {ν : ℕ → ℝ → ℕ → ℕ → V → V} {p : V → V} (hE : Standard env f ν p)
    {s s' : St ℝ V} (hw : WF s) (hb : 1 ≤ s.batchSize) (h : step env (cboInner env) s = .ok s') :
    ∀ m ∈ s.active, ∃ i c, RunStep f ν p s s' m i c := by
  intro m hm
  obtain ⟨c, d, n, xm, cs⟩ := cboStep_facts hE.corr hE.noise.ok.shape hE.cons hE.perm hw h
  obtain ⟨i, hi, hmi⟩ := mem_getD hm
  have fr := step_frame (by rw [cboInner_eq]; exact consThen_frame (cboMove_ok env)) h
  have hix := preStep_idx env hE.perm hw
  have hcr : s'.cIdx.run i = m := by rw [fr.cIdx, hix.cRun i hi, hmi]
  have hlist : sampleOf env { s with cIdx := s'.cIdx } i = finSample (s.alpha m) (batchPairs f s s' i) := by
    simp only [sampleOf, finSample, batchPairs, List.map_map, hmi]
    apply List.map_congr_left
    intro j _
    simp only [Function.comp_apply, hE.f]
  have hpost : ∀ k, s'.x.get m k = p (xm.get m k) := by
    intro k
    obtain ⟨q, hq1, hq2⟩ := cs.post
    rw [hE.post q, hq1] at hq2
    injection hq2 with hq2
    rw [← hq2]; rfl
  refine ⟨i, c.get i 0, hi, hmi, ⟨c, cs.cons, rfl⟩, ?_, ?_, ?_, ?_, ?_⟩
  · rw [cs.cget i hi, hlist, consDefault_fin]
  · have : s'.cIdx.cols = s.batchSize := by rw [fr.cIdx, hix.cCols]
    intro h0
    have := congrArg List.length h0
    simp [batchPairs] at this
    omega
  · intro q hq
    simp only [batchPairs, List.mem_map, List.mem_range] at hq
    obtain ⟨j, hj, rfl⟩ := hq
    refine ⟨s'.cIdx.par i j, ?_, by rw [hcr]⟩
    have := hix.cIn i (by rw [hix.cRows]; exact hi) j (by rw [← fr.cIdx]; exact hj)
    rw [fr.cIdx]
    exact this.2
  · intro k hk hsel
    obtain ⟨i', hi', j, hj, e1, e2, e3⟩ := cs.sel m k hsel
    have hpr : s'.pIdx.run i' = s.active.getD i' 0 := by rw [fr.pIdx, hix.pRun i' hi']
    have hii : i' = i := getD_inj hw.nodup hi' hi (by rw [← hpr, e1, hmi])
    subst hii
    obtain ⟨q, q1, q2, q3, q4, q5, -⟩ := cs.noise
    obtain ⟨n', hn', -, -, hn3⟩ := hE.noise q d q2
    rw [q1] at hn'
    injection hn' with hn'
    subst hn'
    refine ⟨j, e2, ?_⟩
    rw [hpost, e3, hn3, q3, q5, cs.dget i' hi' j hj, e1, e2]
  · intro k hk hsel
    rw [hpost, cs.unsel m k hsel]

theorem std_reach {env : Env ℝ V} {f : V → ℝ} {ν : ℕ → ℝ → ℕ → ℕ → V → V} {p : V → V} (hE : Standard env f ν p)
    {a : Args ℝ V} (hb : a.batchSize ≠ some 0) {s₀ s : St ℝ V} {ops : List Op} (h0 : init env a = .ok s₀)
    (h : execAll env (cboInner env) ops s₀ = .ok s) : WF s ∧ 1 ≤ s.batchSize := by
  rw [cboInner_eq] at h
  exact execAll_induct (cboMove_ok env) hE.post.ok hE.perm (P := fun s => 1 ≤ s.batchSize)
    (fun o s s' _ hs h => by rw [(exec_bs (consThen_frame (cboMove_ok env)) h).1]; exact hs) ops s₀ s (init_wf hE.perm h0)
    (init_bs hb h0) h

end Verif
