import Verif.Proofs.Arrays
import Verif.Props.Frozen
import Verif.Proofs.Noise

/-!
# C72: the vectorised step on arrays of shape `(M, N, d1, ..., dk)`

`Rep ds a m`: the array `a` holds the particles `m`; `Model/Arrays.lean` is the code with its broadcasting and reshaping.
-/

set_option linter.unusedSectionVars false

namespace Verif

variable {ds : List ℕ} {F : Arr ℝ → Except Err (Arr (Flt ℝ))} {kind : ArrModel.Kind} {smp : ℕ → List ℕ → ℝ} {T : ℝ}
  {env : Env ℝ (Fin ds.prod → ℝ)}

/-- **C72, step (partial: constant, isotropic and anisotropic noise, no correction).** In every reachable state, for particles with any number of trailing axes of any lengths, the vectorised code with its broadcasting, `[..., None]`,
`reshape` and axis arguments computes exactly the step of the per-particle model: it raises no exception, the clipped particles and the energies it stores are those of the next state, and so are the consensus (one per active run) and the drift. -/
theorem C72_step_partial (he : ArrEnv ds F kind smp T env) (a : Args ℝ (Fin ds.prod → ℝ)) (ops : List Op) {s₀ s s' : St ℝ (Fin ds.prod → ℝ)}
    (h0 : init env a = .ok s₀) (h : execAll env (cboInner env) ops s₀ = .ok s) (hs : step env (cboInner env) s = .ok s')
    (hk : kind = .iso → s.active ≠ [] ∧ s.batchSize ≠ 0)
    (A : ArrModel.State) (hx : Rep ds A.x s.x) (hen : Rep2 A.energy s.energy) (hal : Rep2 A.alpha ⟨s.M, 1, fun i _ => s.alpha i⟩) :
    ∃ A' c d, ArrModel.cboStep F kind (smp s.draws) s.active s'.cIdx s'.pIdx s.lamda s.dt s.sigma A = .ok (A', c, d) ∧
      Rep ds (ArrModel.clip T A'.x) s'.x ∧ Rep2 A'.energy s'.energy ∧ Rep2 A'.alpha ⟨s'.M, 1, fun i _ => s'.alpha i⟩ ∧
      (∃ m, s'.cons = some m ∧ m.rows = s.active.length ∧ m.cols = 1 ∧ Rep ds c m) ∧ ∃ m, s'.drift = some m ∧ Rep ds d m := by
  have hw : WF s := (execAll_induct (P := fun _ => True) (cboMove_ok env) (fun s x' h => by
    rw [he.post] at h
    injection h with h
    subst h
    exact ⟨rfl, rfl⟩) he.perm (fun _ _ _ _ _ _ => trivial) ops s₀ s (init_wf he.perm h0) trivial h).1
  have hix := preStep_idx env he.perm hw
  have p1 := preStep_frame env s
  have f := step_frame (consThen_frame (cboMove_ok env)) hs
  obtain ⟨v, hv, hpost⟩ := step_split.1 hs
  have pf := postStep_facts hpost
  have hrow : (preStep env s).cIdx.rows = (preStep env s).active.length := by rw [hix.cRows, p1]
  obtain ⟨A', c, d, e1, e2, e3, e4, ⟨m, hm, rm⟩, ⟨m', hm', rm'⟩⟩ := cboInner_rep (A := A) he hrow (by rw [hix.pRows, p1])
    (by rw [p1]; exact fun m hm => hw.act_lt hm) (by
      intro hiso
      obtain ⟨k1, k2⟩ := hk hiso
      refine ⟨by rw [hix.pRows]; exact fun h => k1 (List.length_eq_zero_iff.1 h), ?_⟩
      rcases hix.pCols with h | h
      · rw [h]; exact hw.pos.ne'
      · rw [h, hix.cCols]; exact k2) hv (by rw [p1]; exact hx) (by rw [p1]; exact hen) (by rw [p1]; exact hal)
  have q1 : (preStep env s).draws = s.draws := by rw [p1]
  have q2 : (preStep env s).active = s.active := by rw [p1]
  have q3 : (preStep env s).lamda = s.lamda := by rw [p1]
  have q4 : (preStep env s).dt = s.dt := by rw [p1]
  have q5 : (preStep env s).sigma = s.sigma := by rw [p1]
  rw [q1, q2, q3, q4, q5, ← f.cIdx, ← f.pIdx] at e1
  have hc' : s'.cons = v.cons := by rw [pf.frame]
  have hd' : s'.drift = v.drift := by rw [pf.frame]
  have hE' : s'.energy = v.energy := by rw [pf.frame]
  obtain ⟨mc, hmc, mc1, mc2, -⟩ : ∃ c, v.cons = some c ∧ c.rows = (preStep env s).active.length ∧ c.cols = 1 ∧ True := by
    obtain ⟨q, hq, hmv⟩ := consThen_split.1 hv
    obtain ⟨c, hcc, c1, c2, -⟩ := computeConsensus_mean he.cons hrow hq
    refine ⟨c, ?_, c1, c2, trivial⟩
    rw [(cboMove_ok env).frame _ _ hmv]
    exact hcc
  have hmm : m = mc := by rw [hm] at hmc; injection hmc
  refine ⟨A', c, d, e1, ?_, by rw [hE']; exact e3, by rw [e4, f.M, f.alpha]; exact hal,
    ⟨m, by rw [hc']; exact hm, by rw [hmm, mc1, q2], by rw [hmm]; exact mc2, rm⟩, m', by rw [hd']; exact hm', rm'⟩
  have hp := pf.post
  rw [he.post] at hp
  injection hp with hp
  rw [← hp]
  exact map_rep e2 _

/-- **C72, empty selections.** Why the step theorem asks for an active run with isotropic noise: without one (or with empty batches) it raises, because `reshape(0, ..., -1)` cannot infer the last length. -/
theorem C72_iso_empty_false (drift : Arr ℝ) (z : List ℕ → ℝ) (h : (drift.shape.take 2).prod = 0) :
    ArrModel.sample .iso drift z = .error .value := by
  simp only [ArrModel.sample, ArrModel.isoSample, Arr.reshapeInfer, h, if_true, bind, Except.bind]

example : ArrModel.sample .iso ⟨[0, 4, 3], fun _ => 1⟩ (fun _ => 1) = .error .value := C72_iso_empty_false _ _ (by decide)

/-- **C72, step size of the runs (partial: one trailing axis).** For particles of shape `(d,)` the array `update_diff` has one entry per run, the Euclidean norm of the change of all particles of the run divided by `N`, and the criterion `diff_tol`
compares it run by run. -/
theorem C72_diff_partial (d : ℕ) (x xo : Arr ℝ) (m o : Mat (Fin [d].prod → ℝ)) (hx : Rep [d] x m) (ho : Rep [d] xo o)
    (h1 : o.rows = m.rows) (h2 : o.cols = m.cols) (N : ℕ) (tol : ℝ) :
    ∃ u t, ArrModel.updateDiff N x xo = .ok u ∧ u.shape = [m.rows] ∧
      (∀ i < m.rows, u.get [i] = Real.sqrt (∑ j ∈ Finset.range m.cols, ∑ q, (m.get i j q - o.get i j q) ^ 2) / N) ∧
      ArrModel.diffTol m.rows tol u = .ok t ∧ ∀ i < m.rows, t i = decide (u.get [i] < tol) := by
  obtain ⟨c, hc, rc⟩ := bin_rep (f := fun a b => a - b) (g := fun v w => v - w) (fun _ _ _ => rfl) hx ho
    (Mat.bin_of_dims (by rw [h1]; exact Mat.bdim_self _) (by rw [h2]; exact Mat.bdim_self _))
  have hn : c.normLast2 Real.sqrt = .ok ⟨[m.rows], fun I =>
      Real.sqrt ((List.range m.cols).map fun i => ((List.range d).map fun j => c.get (I ++ [i, j]) ^ 2).sum).sum⟩ := by
    unfold Arr.normLast2
    rw [rc.shape]
    rfl
  obtain ⟨t, ht, ht'⟩ := diffTol_ok (M := m.rows) tol (u := ⟨[m.rows], fun I =>
    Real.sqrt ((List.range m.cols).map fun i => ((List.range d).map fun j => c.get (I ++ [i, j]) ^ 2).sum).sum / N⟩) rfl
  refine ⟨_, t, ?_, rfl, ?_, ht, ht'⟩
  · simp only [ArrModel.updateDiff, hc, hn, bind, Except.bind, pure, Except.pure, Arr.map]
  · intro i hi
    simp only
    congr 2
    have : ∀ g : ℕ → ℝ, ((List.range m.cols).map g).sum = ∑ j ∈ Finset.range m.cols, g j := fun _ => rfl
    rw [this]
    refine Finset.sum_congr rfl fun j hj => ?_
    have hj := Finset.mem_range.1 hj
    have hd : List.range d = List.range [d].prod := by simp
    rw [hd, sum_range_fin]
    refine Finset.sum_congr rfl fun q _ => ?_
    have hq : [i, j, (q : ℕ)] = i :: j :: unravel [d] q := by simp [unravel]
    have e := rc.get i hi j hj q
    simp only at e
    rw [h1, h2, Mat.bpos_lt hi, Mat.bpos_lt hj] at e
    have e' : c.get ([i] ++ [j, (q : ℕ)]) = (m.get i j - o.get i j) q := by
      rw [← e]
      exact congrArg c.get hq
    rw [e']
    rfl

/-- **C72, step size of the runs (negation).** With two or more trailing axes the axes `(-2, -1)` are axes of one particle: `update_diff` has shape `(M, N, ...)`, and `select_active_runs` raises as soon as the criterion `diff_tol` is used,
except for one run of one particle. -/
theorem C72_diff_false (x xo : Arr ℝ) (m o : Mat (Fin ds.prod → ℝ)) (hds : 2 ≤ ds.length) (hx : Rep ds x m) (ho : Rep ds xo o)
    (h1 : o.rows = m.rows) (h2 : o.cols = m.cols) (hM : m.rows ≠ 1 ∨ m.cols ≠ 1) (N : ℕ) (tol : ℝ) :
    ∃ u, ArrModel.updateDiff N x xo = .ok u ∧ u.shape = m.rows :: m.cols :: ds.dropLast.dropLast ∧
      ArrModel.diffTol m.rows tol u = .error .value := by
  obtain ⟨c, hc, rc⟩ := bin_rep (f := fun a b => a - b) (g := fun v w => v - w) (fun _ _ _ => rfl) hx ho
    (Mat.bin_of_dims (by rw [h1]; exact Mat.bdim_self _) (by rw [h2]; exact Mat.bdim_self _))
  obtain ⟨e, d1, d2, rfl⟩ : ∃ e d1 d2, ds = e ++ [d1, d2] := by
    refine ⟨ds.dropLast.dropLast, ds.dropLast.getLast (by intro h; have := congrArg List.length h; simp at this; omega),
      ds.getLast (by intro h; rw [h] at hds; simp at hds), ?_⟩
    have t1 := List.dropLast_append_getLast (l := ds) (by intro h; rw [h] at hds; simp at hds)
    have t2 := List.dropLast_append_getLast (l := ds.dropLast) (by intro h; have := congrArg List.length h; simp at this; omega)
    conv_lhs => rw [← t1, ← t2]
    simp
  have hcs : c.shape = (m.rows :: m.cols :: e) ++ [d1, d2] := by rw [rc.shape]; simp
  have hdl : c.shape.dropLast.dropLast = m.rows :: m.cols :: e := by
    rw [hcs, show (m.rows :: m.cols :: e) ++ [d1, d2] = ((m.rows :: m.cols :: e) ++ [d1]) ++ [d2] by simp, List.dropLast_concat,
      List.dropLast_concat]
  have hrev : c.shape.reverse = d2 :: d1 :: (m.rows :: m.cols :: e).reverse := by rw [hcs]; simp
  refine ⟨⟨m.rows :: m.cols :: e, fun I =>
      Real.sqrt ((List.range d1).map fun i => ((List.range d2).map fun j => c.get (I ++ [i, j]) ^ 2).sum).sum / N⟩, ?_, ?_, ?_⟩
  · have : c.normLast2 Real.sqrt = .ok ⟨m.rows :: m.cols :: e, fun I =>
        Real.sqrt ((List.range d1).map fun i => ((List.range d2).map fun j => c.get (I ++ [i, j]) ^ 2).sum).sum⟩ := by
      unfold Arr.normLast2
      rw [hrev]
      simp only
      rw [hdl]
    simp only [ArrModel.updateDiff, hc, this, bind, Except.bind, pure, Except.pure, Arr.map]
  · simp only
    congr 2
    rw [show e ++ [d1, d2] = (e ++ [d1]) ++ [d2] by simp, List.dropLast_concat, List.dropLast_concat]
  · unfold ArrModel.diffTol
    rw [if_neg]
    simp only
    intro h
    cases e with
    | nil => 
      simp [Arr.assignable, Arr.padTo, Arr.fits] at h
      omega
    | cons a e =>
      simp [Arr.assignable] at h
      omega

/-- **C72, covariance noise.** For particles of shape `(d,)`, with all runs active and no batching, the covariance noise has the shape of the drift ... -/
theorem C72_covariance_shape (M N d : ℕ) : ArrModel.covShape [M, N, d] [M, N] = .ok [M, N, d] := by
  have e1 : Arr.bshape [M, N, d, 1] [M, N, 1, d] = some [M, N, d, d] := by
    rw [Arr.bshape_eq (by simp)]
    simp [Arr.bdims, Mat.bdim_self, Mat.bdim_one_left, Mat.bdim_one_right]
  have e2 : Arr.bshape [M, N, d, d] [M, N, 1, 1] = some [M, N, d, d] := by
    rw [Arr.bshape_eq (by simp)]
    simp [Arr.bdims, Mat.bdim_self, Mat.bdim_one_right]
  simp [ArrModel.covShape, ArrModel.bshapeE, e1, e2, bind, Except.bind, ArrModel.einsumShape, ArrModel.einLabel, Mat.bdim_self, pure, Except.pure]

/-- ... **but with two or more trailing axes it always raises** (negation). -/
theorem C72_covariance_false (dsh : List ℕ) (h : 4 ≤ dsh.length) (M N : ℕ) : ∃ e, ArrModel.covShape dsh [M, N] = .error e := by
  unfold ArrModel.covShape ArrModel.bshapeE
  cases h1 : Arr.bshape (dsh ++ [1]) (dsh.dropLast ++ [1, dsh.getLastD 1]) with
  | none => exact ⟨_, rfl⟩
  | some D =>
    have hD : D.length = dsh.length + 1 := by
      rw [Arr.bshape_length h1]
      simp
      omega
    simp only [bind, Except.bind]
    cases h2 : Arr.bshape D ([M, N] ++ [1, 1]) with
    | none => exact ⟨_, rfl⟩
    | some P =>
      have hP : P.length = dsh.length + 1 := by
        rw [Arr.bshape_length h2, hD]
        simp
        omega
      simp only
      rw [if_neg (by omega)]
      unfold ArrModel.einsumShape
      have hS : (P.eraseIdx (P.length - 3)).length = dsh.length := by
        rw [List.length_eraseIdx, if_pos (by omega)]
        omega
      rw [if_pos hS]
      generalize P.eraseIdx (P.length - 3) = S at hS
      split
      · simp only [List.length_cons, List.length_nil] at hS h
        omega
      · exact ⟨_, rfl⟩

/-! ### The hypotheses can be met -/

namespace Example

/-- The objective `|v|²` on arrays of particles of shape `ds`. -/
noncomputable def arrF (ds : List ℕ) (a : Arr ℝ) : Except Err (Arr (Flt ℝ)) :=
  .ok ⟨a.shape.take 2, fun I => .fin (∑ q : Fin ds.prod, a.get (I ++ unravel ds q) ^ 2)⟩

/-- A dynamic on particles of shape `ds`. -/
noncomputable def arrEnv (ds : List ℕ) (kind : ArrModel.Kind) (smp : ℕ → List ℕ → ℝ) : Env ℝ (Fin ds.prod → ℝ) where
  f v := .fin (∑ q, v q ^ 2)
  cons := .mean consDefault
  noise := rowNoise (kindRule kind) fun c i j q => smp c (i :: j :: unravel ds q)
  corr := .none
  post s := .ok (s.x.map fun v q => min (max (v q) (-100)) 100)
  normDiff _ := .fin 0
  sqrtK := Real.sqrt
  perm N c m j := if j < N then (j + c + m) % N else j
  sampler _ _ _ _ := 0
  custom _ _ _ := false
  sched s := .ok { alpha := fun m => min (2 * s.alpha m) 1000, lamda := s.lamda, sigma := s.sigma, dt := s.dt }
  emptyRaises := match kind with | .iso => true | _ => false

theorem arrEnv_ok (ds : List ℕ) (kind : ArrModel.Kind) (smp : ℕ → List ℕ → ℝ) :
    ArrEnv ds (arrF ds) kind smp 100 (arrEnv ds kind smp) where
  corr := rfl
  cons := rfl
  noise := rfl
  post := rfl
  perm := by
    intro N c m j hj
    simp only [arrEnv, if_pos hj]
    exact Nat.mod_lt _ (by omega)
  f := by
    intro a m h
    refine ⟨_, rfl, by simp only [h.shape]; rfl, fun i hi j hj => ?_⟩
    simp only [Mat.map, arrEnv]
    congr 1
    refine Finset.sum_congr rfl fun q _ => ?_
    rw [← h.get i hi j hj q]
    rfl

/-- Three runs of five particles, batches of two. -/
noncomputable def arrArgs (ds : List ℕ) : Args ℝ (Fin ds.prod → ℝ) where
  x0 := ⟨3, 5, fun i j q => i + 2 * j - q.1⟩
  alpha := 3
  lamda := 1
  sigma := 2
  dt := 1 / 10
  terms := [.maxIt (some 7)]
  tracks := []
  saveInt := 1
  batchSize := some 2
  batchPartial := true
  batchConcat := false
  checkF := true

end Example

/-- Particles of any shape `ds` (for instance images of shape `(3, 28, 28)`), each kind of noise, any random numbers: the constructor succeeds, and so does a step from the initial state or, with noise that tolerates idle runs, from any later state. -/
example (ds : List ℕ) (kind : ArrModel.Kind) (smp : ℕ → List ℕ → ℝ) :
    ∃ s₀, init (Example.arrEnv ds kind smp) (Example.arrArgs ds) = .ok s₀ ∧
      (∃ s', step (Example.arrEnv ds kind smp) (cboInner (Example.arrEnv ds kind smp)) s₀ = .ok s' ∧ (kind = .iso → s₀.active ≠ [] ∧ s₀.batchSize ≠ 0)) ∧
      (kind ≠ .iso → ∀ ops, ∃ s, execAll (Example.arrEnv ds kind smp) (cboInner (Example.arrEnv ds kind smp)) ops s₀ = .ok s) ∧
      ∃ A : ArrModel.State, Rep ds A.x s₀.x ∧ Rep2 A.energy s₀.energy ∧ Rep2 A.alpha ⟨s₀.M, 1, fun i _ => s₀.alpha i⟩ := by
  have hok := Example.arrEnv_ok ds kind smp
  have hE : EnvOK (Example.arrEnv ds kind smp) :=
    ⟨rfl, ⟨_, rfl⟩, (rowNoise_rows hok.noise).ok, fun s => ⟨_, rfl, rfl, rfl⟩, fun s => ⟨_, rfl⟩⟩
  obtain ⟨s₀, h0, h1⟩ := C19_never_raises_partial _ hE hok.perm (Example.arrArgs ds) (by simp [Example.arrArgs]) (by simp [Example.arrArgs]) (by
      intro tm ht
      simp only [Example.arrArgs, List.mem_cons, List.not_mem_nil, or_false] at ht
      subst ht
      trivial) (fun _ => by simp [Example.arrArgs])
  have hb : s₀.batchSize ≠ 0 := init_batch_pos h0 (by simp [Example.arrArgs])
  have ha : s₀.active ≠ [] := by
    have : s₀.active = List.range 3 := by
      unfold init at h0
      split_ifs at h0
      all_goals
        injection h0 with h0
        subst h0
        rfl
    rw [this]
    decide
  refine ⟨s₀, h0, ?_, ?_, ?_⟩
  · obtain ⟨s', h', -⟩ := h1 [.step] (fun _ => ⟨fun _ => ha, fun _ _ => trivial⟩)
    simp only [execAll, exec, bind_ok] at h'
    obtain ⟨u, hu, -⟩ := h'
    exact ⟨u, hu, fun _ => ⟨ha, hb⟩⟩
  · intro hk ops
    obtain ⟨s, h, -⟩ := h1 ops (fun h => by cases kind <;> simp_all [Example.arrEnv])
    exact ⟨s, h⟩
  · refine ⟨⟨⟨_, fun I => match I with
      | i :: j :: K => if h : Nd.ravel ds K < ds.prod then s₀.x.get i j ⟨_, h⟩ else 0
      | _ => 0⟩, ⟨_, fun I => s₀.energy.get (I.getD 0 0) (I.getD 1 0)⟩, ⟨_, fun I => s₀.alpha (I.getD 0 0)⟩⟩, ⟨rfl, ?_⟩, ⟨rfl, fun _ _ _ _ => rfl⟩, ⟨rfl, fun _ _ _ _ => rfl⟩⟩
    intro i hi j hj q
    simp only [ravel_unravel q.2]
    rw [dif_pos q.2]

/-- Two runs of three particles that are `2 × 2` matrices: all entries move from 0 to 1, and the tolerance check raises. -/
example : ∃ u, ArrModel.updateDiff 3 ⟨[2, 3, 2, 2], fun _ => 1⟩ ⟨[2, 3, 2, 2], fun _ => 0⟩ = .ok u ∧ u.shape = [2, 3] ∧ ArrModel.diffTol 2 1 u = .error .value :=
  C72_diff_false (ds := [2, 2]) _ _ ⟨2, 3, fun _ _ _ => 1⟩ ⟨2, 3, fun _ _ _ => 0⟩ (by decide) ⟨rfl, fun _ _ _ _ _ => rfl⟩ ⟨rfl, fun _ _ _ _ _ => rfl⟩
    rfl rfl (by decide) 3 1

/-- The same with particles of shape `(4,)`: no exception. -/
example : ∃ u t, ArrModel.updateDiff 3 ⟨[2, 3, 4], fun _ => 1⟩ ⟨[2, 3, 4], fun _ => 0⟩ = .ok u ∧ ArrModel.diffTol 2 1 u = .ok t :=
  let ⟨u, t, h1, _, _, h2, _⟩ := C72_diff_partial 4 _ _ ⟨2, 3, fun _ _ _ => 1⟩ ⟨2, 3, fun _ _ _ => 0⟩ ⟨rfl, fun _ _ _ _ _ => rfl⟩ ⟨rfl, fun _ _ _ _ _ => rfl⟩ rfl rfl 3 1
  ⟨u, t, h1, h2⟩

example : ∃ e, ArrModel.covShape [2, 3, 2, 2] [2, 3] = .error e := C72_covariance_false _ (by decide) 2 3

end Verif
