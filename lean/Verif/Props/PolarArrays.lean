import Verif.Spec.PolarArrays
import Verif.Proofs.PolarArrays
import Verif.Props.Arrays
import Verif.Props.Polar

/-!
# C118: `PolarCBO` on arrays of shape `(M, N, d1, ..., dk)`

`Rep ds a m`: the array `a` holds the particles `m`; `Model/PolarArrays.lean` is the code with its broadcasting and axis arguments.
-/

set_option linter.unusedSectionVars false

namespace Verif

variable {ds : List ℕ} {F : Arr ℝ → Except Err (Arr (Flt ℝ))} {kind : ArrModel.Kind} {smp : ℕ → List ℕ → ℝ} {T kappa : ℝ} {k : Kernel} {mode : KernelMode}
  {env : Env ℝ (Fin ds.prod → ℝ)}

/-- **C118, Gaussian kernel.** In every reachable state, for particles with any number of trailing axes of any lengths, the vectorised code of a step of `PolarCBO` (`neg_log` on `x[:,None,...]` and `x[:,:,None,...]`,
broadcasting of `alpha`, energies and coefficients, the sums over axes) computes exactly the step of the per-particle model, in which every particle has the consensus of its own run weighted by its own distances:
it raises no exception, the clipped particles and the energies it stores are those of the next state, and so are the consensus and the drift. -/
theorem C118_gaussian (he : PolarArrEnv ds F .gaussian kappa mode kind smp T env) (hm : mode ≠ .other) (a : Args ℝ (Fin ds.prod → ℝ)) (ops : List Op)
    {s₀ s s' : St ℝ (Fin ds.prod → ℝ)} (h0 : init env a = .ok s₀) (h : execAll env (cboInner env) ops s₀ = .ok s) (hs : step env (cboInner env) s = .ok s')
    (hk : kind = .iso → s.active ≠ [] ∧ s.batchSize ≠ 0)
    (A : ArrModel.State) (hx : Rep ds A.x s.x) (hen : Rep2 A.energy s.energy) (hal : Rep2 A.alpha ⟨s.M, 1, fun i _ => s.alpha i⟩) :
    ∃ A' c d, ArrModel.polarStep F .gaussian kappa mode kind (smp s.draws) s.active s'.cIdx s'.pIdx s.lamda s.dt s.sigma A = .ok (A', c, d) ∧
      Rep ds (ArrModel.clip T A'.x) s'.x ∧ Rep2 A'.energy s'.energy ∧ Rep2 A'.alpha ⟨s'.M, 1, fun i _ => s'.alpha i⟩ ∧
      (∃ m, s'.cons = some m ∧ Rep ds c m) ∧ ∃ m, s'.drift = some m ∧ Rep ds d m :=
  polar_step_rep he hm (fun _ _ _ _ h => negLog_gaussian kappa 1 h) a ops h0 h hs hk A hx hen hal

/-- **C118, other kernels (partial: one trailing axis).** For particles of shape `(n,)` the same holds for the Laplace, the constant and the inverse quadratic kernel. -/
theorem C118_norm_partial {n : ℕ} {env : Env ℝ (Fin [n].prod → ℝ)} (he : PolarArrEnv [n] F k kappa mode kind smp T env) (hm : mode ≠ .other) (ht : k ≠ .taz)
    (a : Args ℝ (Fin [n].prod → ℝ)) (ops : List Op)
    {s₀ s s' : St ℝ (Fin [n].prod → ℝ)} (h0 : init env a = .ok s₀) (h : execAll env (cboInner env) ops s₀ = .ok s) (hs : step env (cboInner env) s = .ok s')
    (hk : kind = .iso → s.active ≠ [] ∧ s.batchSize ≠ 0)
    (A : ArrModel.State) (hx : Rep [n] A.x s.x) (hen : Rep2 A.energy s.energy) (hal : Rep2 A.alpha ⟨s.M, 1, fun i _ => s.alpha i⟩) :
    ∃ A' c d, ArrModel.polarStep F k kappa mode kind (smp s.draws) s.active s'.cIdx s'.pIdx s.lamda s.dt s.sigma A = .ok (A', c, d) ∧
      Rep [n] (ArrModel.clip T A'.x) s'.x ∧ Rep2 A'.energy s'.energy ∧ Rep2 A'.alpha ⟨s'.M, 1, fun i _ => s'.alpha i⟩ ∧
      (∃ m, s'.cons = some m ∧ Rep [n] c m) ∧ ∃ m, s'.drift = some m ∧ Rep [n] d m := by
  refine polar_step_rep he hm (fun r c v x h => ?_) a ops h0 h hs hk A hx hen hal
  obtain ⟨m, h1, h2⟩ := negLog_norm k kappa h
  refine ⟨m, h1, h2.shape, fun i hi j hj l hl K hK => ?_⟩
  rw [h2.get i hi j hj l hl K hK]
  cases k <;> first | exact absurd rfl ht | rfl

/-- **C118, consensus (partial: one trailing axis).** For particles of shape `(n,)` and every kernel, Taz included, the array computed by `PolarCBO.compute_consensus` holds the points of `polarConsensus`, one for every particle of the batch;
an unknown `kernel_factor_mode` raises `NotImplementedError` in both. `polarConsensus` is the definition that the theorems about polarised dynamics use. -/
theorem C118_consensus_partial {n r c : ℕ} {energy : Arr (Flt ℝ)} {x alpha : Arr ℝ} {e : ℕ → ℕ → Flt ℝ} {v : ℕ → ℕ → Fin [n].prod → ℝ} {al : ℕ → ℝ} {active : List ℕ} {A : ArrModel.State}
    (he : Rep2 energy ⟨r, c, e⟩) (hx : Rep [n] x ⟨r, c, v⟩) (hal : ArrModel.alphaRows A.alpha active = .ok alpha) (ha : Rep2 alpha ⟨r, 1, fun i _ => al i⟩) :
    match ArrModel.polarCons k kappa mode active A energy x, polarConsensus k kappa mode ⟨r, c, fun i j => (al i, e i j, v i j)⟩ with
    | .ok y, .ok m => Rep [n] y m
    | .error e, .error e' => e = .notImpl ∧ e' = .notImpl
    | _, _ => False := by
  by_cases hm : mode = .other
  · subst hm
    obtain ⟨m, h1, -⟩ := negLog_norm k kappa hx
    simp only [ArrModel.polarCons, h1, hal, ArrModel.kernelFactor, bind, Except.bind, polarConsensus, if_true]
    exact ⟨trivial, trivial⟩
  · obtain ⟨y, hy, ry⟩ := polarCons_rep hm he hx hal ha (negLog_norm k kappa hx)
    rw [hy]
    unfold polarConsensus
    rw [if_neg hm]
    exact ry

/-- **C118, other kernels (negation).** With two or more trailing axes `np.linalg.norm(x-y, axis=-1)` leaves the other ones, `neg_log` has shape `(k, B, B, ...)` and the array of weights cannot be formed: for every kernel but the Gaussian one
`compute_consensus` raises `ValueError`, unless the batch has one particle or the last but one axis has length 1 or the length of the batch. -/
theorem C118_kernels_false {es : List ℕ} {d1 d2 r c : ℕ} {energy : Arr (Flt ℝ)} {x alpha : Arr ℝ} {e : ℕ → ℕ → Flt ℝ} {v : ℕ → ℕ → Fin (es ++ [d1, d2]).prod → ℝ} {al : ℕ → ℝ}
    {active : List ℕ} {A : ArrModel.State} (hk : k ≠ .gaussian) (hm : mode ≠ .other)
    (he : Rep2 energy ⟨r, c, e⟩) (hx : Rep (es ++ [d1, d2]) x ⟨r, c, v⟩) (hal : ArrModel.alphaRows A.alpha active = .ok alpha) (ha : Rep2 alpha ⟨r, 1, fun i _ => al i⟩)
    (hc : c ≠ 1) (h1 : d1 ≠ 1) (h2 : d1 ≠ c) : ArrModel.polarCons k kappa mode active A energy x = .error .value := by
  obtain ⟨m, hn, ms⟩ := negLog_shape k hk kappa hx
  have hs : alpha.shape = [r, 1] := ha.shape
  cases mode with
  | other => exact absurd rfl hm
  | const =>
    simp only [ArrModel.polarCons, hn, hal, ArrModel.kernelFactor, bind, Except.bind]
    exact polarConsensus_raises ms he.shape (.inl rfl) hs hc h1 h2
  | alpha =>
    simp only [ArrModel.polarCons, hn, hal, ArrModel.kernelFactor, bind, Except.bind]
    exact polarConsensus_raises ms he.shape (.inr (by simp [Arr.expand, hs])) hs hc h1 h2

/-! ### The hypotheses can be met -/

namespace Example

/-- A polarised dynamic on particles of shape `ds`. -/
noncomputable def polarArrEnv (ds : List ℕ) (k : Kernel) (kind : ArrModel.Kind) (smp : ℕ → List ℕ → ℝ) : Env ℝ (Fin ds.prod → ℝ) :=
  { arrEnv ds kind smp with cons := polarCons k 2 .alpha }

theorem polarArrEnv_ok (ds : List ℕ) (k : Kernel) (kind : ArrModel.Kind) (smp : ℕ → List ℕ → ℝ) :
    PolarArrEnv ds (arrF ds) k 2 .alpha kind smp 100 (polarArrEnv ds k kind smp) :=
  ⟨rfl, rfl, rfl, rfl, (arrEnv_ok ds kind smp).perm, (arrEnv_ok ds kind smp).f⟩

end Example

/-- Particles of any shape `ds`, each kind of noise, any random numbers, three runs of five particles with batches of two: the constructor succeeds, and so does a step from the initial state; the arrays of the state exist. -/
example (ds : List ℕ) (k : Kernel) (kind : ArrModel.Kind) (smp : ℕ → List ℕ → ℝ) :
    ∃ s₀, init (Example.polarArrEnv ds k kind smp) (Example.arrArgs ds) = .ok s₀ ∧
      (∃ s', step (Example.polarArrEnv ds k kind smp) (cboInner (Example.polarArrEnv ds k kind smp)) s₀ = .ok s' ∧ (kind = .iso → s₀.active ≠ [] ∧ s₀.batchSize ≠ 0)) ∧
      ∃ A : ArrModel.State, Rep ds A.x s₀.x ∧ Rep2 A.energy s₀.energy ∧ Rep2 A.alpha ⟨s₀.M, 1, fun i _ => s₀.alpha i⟩ := by
  have hok := Example.polarArrEnv_ok ds k kind smp
  obtain ⟨s₀, h0, h1⟩ := C50_never_raises (Example.polarArrEnv ds k kind smp) rfl ⟨_, rfl⟩ (rowNoise_rows hok.noise).ok (fun s => ⟨_, rfl, rfl, rfl⟩) (fun s => ⟨_, rfl⟩) hok.perm
    (Example.arrArgs ds) (by simp [Example.arrArgs]) (by simp [Example.arrArgs]) (by
      intro tm ht
      simp only [Example.arrArgs, List.mem_cons, List.not_mem_nil, or_false] at ht
      subst ht
      trivial) (Or.inr rfl) (fun _ => by simp [Example.arrArgs])
  have hb : s₀.batchSize ≠ 0 := init_batch_pos h0 (by simp [Example.arrArgs])
  have ha : s₀.active ≠ [] := by
    have : s₀.active = List.range 3 := by
      unfold init at h0
      split_ifs at h0
      all_goals
        injection h0 with h0
        subst h0
        rfl
    rw [this]
    decide
  refine ⟨s₀, h0, ?_, ?_⟩
  · obtain ⟨s', h', -⟩ := h1 [.step] (fun _ => ⟨fun _ => ha, fun _ _ => trivial⟩)
    simp only [execAll, exec, bind_ok] at h'
    obtain ⟨u, hu, -⟩ := h'
    exact ⟨u, hu, fun _ => ⟨ha, hb⟩⟩
  · refine ⟨⟨⟨_, fun I => match I with
      | i :: j :: K => if h : Nd.ravel ds K < ds.prod then s₀.x.get i j ⟨_, h⟩ else 0
      | _ => 0⟩, ⟨_, fun I => s₀.energy.get (I.getD 0 0) (I.getD 1 0)⟩, ⟨_, fun I => s₀.alpha (I.getD 0 0)⟩⟩, ⟨rfl, ?_⟩, ⟨rfl, fun _ _ _ _ => rfl⟩, ⟨rfl, fun _ _ _ _ => rfl⟩⟩
    intro i hi j hj q
    simp only [ravel_unravel q.2]
    rw [dif_pos q.2]

/-- The consensus theorem for the Taz kernel, two runs of two particles in the plane: the array code succeeds and holds the points of the model. -/
example : ∃ y m, ArrModel.polarCons .taz 1 .alpha [0, 1] ⟨⟨[2, 2, 2], fun I => I.sum⟩, ⟨[2, 2], fun _ => .fin 0⟩, ⟨[2, 1], fun _ => 5⟩⟩ ⟨[2, 2], fun _ => .fin 0⟩ ⟨[2, 2, 2], fun I => I.sum⟩ = .ok y ∧
    polarConsensus .taz 1 .alpha ⟨2, 2, fun i j => (5, .fin 0, fun q : Fin [2].prod => ((i :: j :: unravel [2] q).sum : ℕ))⟩ = .ok m ∧ Rep [2] y m := by
  have h := C118_consensus_partial (n := 2) (r := 2) (c := 2) (k := .taz) (kappa := 1) (mode := .alpha) (energy := ⟨[2, 2], fun _ => .fin 0⟩) (x := ⟨[2, 2, 2], fun I => I.sum⟩)
    (e := fun _ _ => .fin 0) (v := fun i j q => ((i :: j :: unravel [2] q).sum : ℕ)) (al := fun _ => 5) (active := [0, 1])
    (A := ⟨⟨[2, 2, 2], fun I => I.sum⟩, ⟨[2, 2], fun _ => .fin 0⟩, ⟨[2, 1], fun _ => 5⟩⟩)
    (alpha := ⟨[2, 1], fun I => match I with | _ :: _ :: _ => 5 | _ => 5⟩) ⟨rfl, fun _ _ _ _ => rfl⟩ ⟨rfl, fun _ _ _ _ _ => rfl⟩ rfl ⟨rfl, fun _ _ _ _ => rfl⟩
  revert h
  generalize ArrModel.polarCons _ _ _ _ _ _ _ = a
  intro h
  cases a with
  | error e =>
    unfold polarConsensus at h
    rw [if_neg (by decide)] at h
    exact h.elim
  | ok y =>
    unfold polarConsensus at h ⊢
    rw [if_neg (by decide)] at h ⊢
    exact ⟨y, _, rfl, rfl, h⟩

/-- Particles that are matrices of shape `(2, 2)` and the Laplace kernel, one run of three particles: the consensus raises. -/
example : ArrModel.polarCons .laplace 1 .alpha [0] ⟨⟨[1, 3, 2, 2], fun _ => 1⟩, ⟨[1, 3], fun _ => .fin 0⟩, ⟨[1, 1], fun _ => 5⟩⟩ ⟨[1, 3], fun _ => .fin 0⟩ ⟨[1, 3, 2, 2], fun _ => 1⟩ = .error .value :=
  C118_kernels_false (es := []) (d1 := 2) (d2 := 2) (r := 1) (c := 3) (e := fun _ _ => .fin 0) (v := fun _ _ _ => 1) (al := fun _ => 5)
    (alpha := ⟨[1, 1], fun I => match I with | _ :: _ :: _ => 5 | _ => 5⟩) (by decide) (by decide) ⟨rfl, fun _ _ _ _ => rfl⟩ ⟨rfl, fun _ _ _ _ _ => rfl⟩ rfl
    ⟨rfl, fun _ _ _ _ => rfl⟩ (by decide) (by decide) (by decide)

end Verif
