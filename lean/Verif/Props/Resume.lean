import Verif.Proofs.ResumeRun
import Verif.Proofs.Lamda
import Verif.Proofs.AdamUpdate
import Verif.Proofs.MirrorDyn
import Verif.Proofs.FullMoves
import Verif.Proofs.Memory
import Verif.Spec.Example

/-! # C77: an optimization can be stopped and resumed; C78: parameters without influence -/

set_option linter.unusedSectionVars false

namespace Verif

section
variable {K V : Type} [Zero K] [One K] [Neg K] [Add K] [Sub K] [Mul K] [Inv K] [Div K] [NatCast K] [Pow K ℕ] [LinearOrder K] [Add V] [Sub V] [SMul K V]

/-- **C77 (partial):** stopping with `max_it` or `max_time` and calling `optimize()` again with a larger bound ends in exactly the state, or
with exactly the exception, of a single call with the larger bound: positions, best particles, history, evaluation counters and termination
reasons included. `T`, `T'` are the other criteria. Missing: `energy_stagnation` among the criteria, see `C77_stagnation_false`. -/
theorem C77_resume_partial (env : Env K V) (he : env.Plain) (inner : St K V → Except Err (St K V)) (hi : InnerFrame inner)
    (hb : ∀ T R, StepIgnores inner (St.withTR T R)) (T T' : List (Term K)) (hT : ∀ tm ∈ T, Stateless tm) (hT' : ∀ tm ∈ T', Stateless tm)
    (a b : Term K) (hab : Later a b) (s s1 : St K V) (fuel1 fuel2 : ℕ) (o : Outcome (St K V)) (ho : o ≠ .outOfFuel)
    (h1 : optimize env inner fuel1 (s.withTerms (T ++ a :: T')) = .done s1)
    (h2 : optimize env inner fuel2 (s1.withTerms (T ++ b :: T')) = o) :
    ∀ fuel ≥ fuel1 + fuel2, optimize env inner fuel (s.withTerms (T ++ b :: T')) = o := by
  intro fuel hf
  obtain ⟨k, hk, hk'⟩ := (optimize_resume he hi hb hT hT' hab fuel1 s s.reason s.reason s.active s.active (fun _ _ => rfl)).1 s1 h1 fuel2
  rw [h2] at hk'
  have hne : optimize env inner (fuel2 + k) (s.set3 (T ++ b :: T') s.reason s.active) ≠ .outOfFuel := by rw [hk']; exact ho
  have := optimize_more (fuel2 + k) (fuel - (fuel2 + k)) _ hne
  rw [show fuel2 + k + (fuel - (fuel2 + k)) = fuel by omega, hk'] at this
  exact this

/-- **C77 (partial), converse:** every finished optimization can be split in this way: the call with the smaller bound finishes, and the
second call leads to the same final state. -/
theorem C77_split_partial (env : Env K V) (he : env.Plain) (inner : St K V → Except Err (St K V)) (hi : InnerFrame inner)
    (hb : ∀ T R, StepIgnores inner (St.withTR T R)) (T T' : List (Term K)) (hT : ∀ tm ∈ T, Stateless tm) (hT' : ∀ tm ∈ T', Stateless tm)
    (a b : Term K) (hab : Later a b) (s s2 : St K V) (fuel : ℕ)
    (h : optimize env inner fuel (s.withTerms (T ++ b :: T')) = .done s2) :
    ∃ s1, optimize env inner fuel (s.withTerms (T ++ a :: T')) = .done s1 ∧ ∃ fuel2, optimize env inner fuel2 (s1.withTerms (T ++ b :: T')) = .done s2 := by
  obtain ⟨r1, r2, r3⟩ := optimize_resume he hi hb hT hT' hab fuel s s.reason s.reason s.active s.active (fun _ _ => rfl)
  have h' : optimize env inner fuel (s.set3 (T ++ b :: T') s.reason s.active) = .done s2 := h
  cases h1 : optimize env inner fuel (s.withTerms (T ++ a :: T')) with
  | outOfFuel => rw [r3 h1] at h'; exact nomatch h'
  | raised e => rw [r2 e h1] at h'; exact nomatch h'
  | done s1 =>
    obtain ⟨k, -, hk⟩ := r1 s1 h1 fuel
    refine ⟨s1, rfl, fuel, ?_⟩
    rw [← hk, optimize_more fuel k _ (by rw [h']; exact fun h => (nomatch h)), h']

/-- **C77 (partial), exceptions:** if the call with the smaller bound raises, so does the single call. -/
theorem C77_raises_partial (env : Env K V) (he : env.Plain) (inner : St K V → Except Err (St K V)) (hi : InnerFrame inner)
    (hb : ∀ T R, StepIgnores inner (St.withTR T R)) (T T' : List (Term K)) (hT : ∀ tm ∈ T, Stateless tm) (hT' : ∀ tm ∈ T', Stateless tm)
    (a b : Term K) (hab : Later a b) (s : St K V) (fuel : ℕ) (e : Err)
    (h : optimize env inner fuel (s.withTerms (T ++ a :: T')) = .raised e) :
    optimize env inner fuel (s.withTerms (T ++ b :: T')) = .raised e :=
  (optimize_resume he hi hb hT hT' hab fuel s s.reason s.reason s.active s.active (fun _ _ => rfl)).2.1 e h

/-- **C77 (partial), the dynamics:** what the theorems ask of the inner step holds for `CBO` (so also `PolarCBO` and `CBS`), `MirrorCBO`,
`AdamCBO`, `DriftConstrainedCBO`, `RegCombinationCBO`, `HyperSurfaceCBO` and `PSO`. -/
theorem C77_dynamics_partial (env : Env K V) (he : env.Plain) (gc : V → V) (A : AdamOps V) (β1 β2 : K) (G : ConOps K V) (eps : K)
    (S : SurfOps K V) (p : PsoPar K) :
    ∀ inner ∈ [cboInner env, consThen env (mirrorMove env gc), consThen env (adamMove env A β1 β2), consThen env (dcMove env G eps),
      consThen env (regMove env G eps), consThen env (hyperMove env S), psoInner env p],
      InnerFrame inner ∧ ∀ T R, StepIgnores inner (St.withTR T R) := by
  intro inner h
  simp only [List.mem_cons, List.not_mem_nil, or_false] at h
  rcases h with rfl | rfl | rfl | rfl | rfl | rfl | rfl
  · exact ⟨consThen_frame (cboMove_ok env), fun T R => consThen_tweak (f := id) (g := fun _ => T) (h := fun _ => R) (cboMove_tweak (he.ignores T R))⟩
  · exact ⟨consThen_frame (mirrorMove_ok env gc),
      fun T R => consThen_tweak (f := id) (g := fun _ => T) (h := fun _ => R) (mirrorMove_tweak (he.ignores T R) gc)⟩
  · exact ⟨consThen_frame (adamMove_ok env A β1 β2),
      fun T R => consThen_tweak (f := id) (g := fun _ => T) (h := fun _ => R) (adamMove_tweak (he.ignores T R) A β1 β2)⟩
  · exact ⟨consThen_frame (dcMove_full env G eps).ok,
      fun T R => consThen_tweak (f := id) (g := fun _ => T) (h := fun _ => R) (dcMove_tweak (he.ignores T R) G eps)⟩
  · exact ⟨consThen_frame (regMove_full env G eps).ok,
      fun T R => consThen_tweak (f := id) (g := fun _ => T) (h := fun _ => R) (regMove_tweak (he.ignores T R) G eps)⟩
  · exact ⟨consThen_frame (hyperMove_full env S).ok,
      fun T R => consThen_tweak (f := id) (g := fun _ => T) (h := fun _ => R) (hyperMove_tweak (he.ignores T R) S)⟩
  · exact ⟨psoInner_frame env p, fun T R => psoInner_tweak (g := fun _ => T) (h := fun _ => R) (he.ignores T R) p⟩

/-- **C77 is false with `energy_stagnation`:** once an optimization has finished and a consensus point was computed, every further call of
`optimize()` with this criterion raises, whatever the bounds are: no run is active when the criteria are evaluated, and the criterion
assigns an array of shape `(0, 1)` to `losses[it % patience, active_runs_idx]` of shape `(0,)`. -/
theorem C77_stagnation_false (env : Env K V) (inner : St K V → Except Err (St K V)) (s s1 : St K V) (fuel : ℕ)
    (h1 : optimize env inner fuel s = .done s1) (hc : ∃ c, s1.cons = some c) (T : List (Term K)) (p : ℕ) (th : Flt K)
    (L : Option (ℕ → ℕ → Flt K)) (hT : .energyStag p th L ∈ T) : ∃ e, ∀ fuel2, optimize env inner (fuel2 + 1) (s1.withTerms T) = .raised e := by
  have ha : s1.active = [] := optimize_done_active fuel s s1 h1
  obtain ⟨e, he⟩ := stag_inactive (env := env) (s := s1.withTerms T) hT ha hc
  refine ⟨e, fun fuel2 => ?_⟩
  unfold optimize
  have : selectActive env (s1.withTerms T) = .error e := by
    unfold selectActive
    rw [show (s1.withTerms T).terms = T from rfl, he]
    rfl
  rw [this]

/-- The callables of the example do not read criteria or reasons. -/
theorem Example.env_plain : Example.env.Plain where
  ignores T R := ⟨fun _ => rfl, fun _ => rfl, fun _ h => (nomatch h)⟩
  sched _ _ _ := rfl
  custom _ _ _ _ := rfl
  customTR _ _ _ _ _ := rfl

/-- C77: two steps, then three more, against five; with `energy_tol` as a second criterion, which stops run 0 before. -/
example : Later (K := ℚ) (.maxIt (some 2)) (.maxIt (some 5)) ∧ (∀ tm ∈ [Term.energyTol (.fin (1 / 10 : ℚ))], Stateless tm) ∧
    (match optimize Example.env (cboInner Example.env) 9 ((Example.start [] none).withTerms ([.energyTol (.fin (1 / 10))] ++ .maxIt (some 2) :: [])) with
    | .done s1 => decide (s1.it = 2) && (match optimize Example.env (cboInner Example.env) 9 (s1.withTerms ([.energyTol (.fin (1 / 10))] ++ .maxIt (some 5) :: [])) with
      | .done s2 => decide (s2.it = 5 ∧ s2.reason 0 = some [0, 1] ∧ s2.reason 1 = some [1])
      | _ => false)
    | _ => false) = true :=
  ⟨.maxIt (by decide), by simp [Stateless], by decide +kernel⟩

/-- C77_stagnation_false: a single run with stagnation criterion and `max_it` finishes; the next call raises. -/
example : (match optimize Example.env (cboInner Example.env) 9 (Example.start1 [.energyStag 2 (.fin 0) none, .maxIt (some 2)]) with
    | .done s1 => s1.cons.isSome && (match optimize Example.env (cboInner Example.env) 9 (s1.withTerms [.energyStag 2 (.fin 0) none, .maxIt (some 4)]) with
      | .raised e => decide (e = .value)
      | _ => false)
    | _ => false) = true := by decide +kernel

/-! ### C78 -/

/-- **C78 is false for `HyperSurfaceCBO`:** its parameter `lamda` has no influence: in every sequence of operations, started with two values of
`lamda`, the same exceptions occur and all states agree in everything but `lamda` itself. -/
theorem C78_hypersurface_false (env : Env K V) (he : env.NoLamda) (S : SurfOps K V) (l : K) (ops : List Op) (s : St K V) :
    ∃ l', execAll env (consThen env (hyperMove env S)) ops (s.withLamda l) =
      (execAll env (consThen env (hyperMove env S)) ops s).map (St.withLamda l') :=
  execAll_lamda he (fun l => consThen_tweak (f := fun _ => l) (g := id) (h := id) (hyperMove_tweak (he.ignores l) S)) ops l s

/-- **C78 is false for the corrections of `AdamCBO`, `DriftConstrainedCBO`, `RegCombinationCBO` and `HyperSurfaceCBO`:** they accept the argument
`correction`, but every execution is the same for every correction. -/
theorem C78_correction_false (env : Env K V) (c : Corr K V) (A : AdamOps V) (β1 β2 : K) (G : ConOps K V) (eps : K) (S : SurfOps K V)
    (ops : List Op) (s : St K V) :
    execAll { env with corr := c } (consThen { env with corr := c } (adamMove { env with corr := c } A β1 β2)) ops s =
      execAll env (consThen env (adamMove env A β1 β2)) ops s ∧
    execAll { env with corr := c } (consThen { env with corr := c } (dcMove { env with corr := c } G eps)) ops s =
      execAll env (consThen env (dcMove env G eps)) ops s ∧
    execAll { env with corr := c } (consThen { env with corr := c } (regMove { env with corr := c } G eps)) ops s =
      execAll env (consThen env (regMove env G eps)) ops s ∧
    execAll { env with corr := c } (consThen { env with corr := c } (hyperMove { env with corr := c } S)) ops s =
      execAll env (consThen env (hyperMove env S)) ops s := by
  have hT : ∀ (T : List (Term K)) (s : St K V), evalTerms { env with corr := c } T s = evalTerms env T s := by
    intro T
    induction T with
    | nil => intro s; rfl
    | cons tm T ih =>
      intro s
      unfold evalTerms
      rw [show evalTerm { env with corr := c } tm s = evalTerm env tm s from rfl]
      simp only [ih]
  have key : ∀ inner inner' : St K V → Except Err (St K V), (∀ s, inner s = inner' s) → ∀ o s, exec { env with corr := c } inner o s = exec env inner' o s := by
    intro inner inner' hi o s
    cases o with
    | step =>
      show (inner (preStep env s) >>= postStep env) = (inner' (preStep env s) >>= postStep env)
      rw [hi]
    | select =>
      show selectActive { env with corr := c } s = selectActive env s
      unfold selectActive
      rw [hT]
    | sched => rfl
    | reset => rfl
  exact ⟨execAll_congr_env (key _ _ fun _ => rfl) ops s, execAll_congr_env (key _ _ fun _ => rfl) ops s,
    execAll_congr_env (key _ _ fun _ => rfl) ops s, execAll_congr_env (key _ _ fun _ => rfl) ops s⟩

end

section
variable {K V : Type} [Field K] [LinearOrder K] [AddCommGroup V] [Module K V]

/-- **C78 (partial):** in a step of `CBO` the parameter `lamda` counts: for two values the moved particles differ by the drift (corrected, if
there is a correction) times `dt` times the difference of the values; so they differ whenever that drift is not zero and `dt ≠ 0`.  Missing:
`HyperSurfaceCBO`, where it does not (`C78_hypersurface_false`). -/
theorem C78_cbo_partial (env : Env K V) (l : K) (he : env.Ignores (St.withLamda l)) (s v v' : St K V) (h : cboMove env s = .ok v)
    (h' : cboMove env (s.withLamda l) = .ok v') (m n : ℕ) (hs : s.pIdx.Sel m n) :
    ∃ d i j, v.drift = some d ∧ i < s.pIdx.rows ∧ j < s.pIdx.cols ∧ s.pIdx.run i = m ∧ s.pIdx.par i j = n ∧
      v'.x.get m n = v.x.get m n + ((s.lamda - l) * s.dt) • d.get (Mat.bpos d.rows i) (Mat.bpos d.cols j) ∧
      (v'.x.get m n ≠ v.x.get m n ↔ s.lamda ≠ l ∧ s.dt ≠ 0 ∧ d.get (Mat.bpos d.rows i) (Mat.bpos d.cols j) ≠ 0) := by
  obtain ⟨d, i, j, h1, h2, h3, h4, h5, h6⟩ := cboMove_lamda he h h' hs
  refine ⟨d, i, j, h1, h2, h3, h4, h5, h6, ?_⟩
  rw [h6, Ne, add_eq_left, smul_eq_zero, mul_eq_zero, sub_eq_zero]
  tauto

/-- **C78 is false for the step length of `AdamCBO`:** the drift part of the update does not contain `dt`. Without noise (`sigma = 0`) a step moves
all particles to the same positions for every value of `dt`, although the time `t` advances by `dt`. -/
theorem C78_adam_dt_false (env : Env K V) (A : AdamOps V) (β1 β2 : K) (s v v' : St K V) (τ : K) (hσ : s.sigma = 0)
    (h : adamMove env A β1 β2 s = .ok v) (h' : adamMove env A β1 β2 { s with dt := τ } = .ok v') : v'.x = v.x := by
  obtain ⟨x1, x2, x3, x4⟩ := adamMove_entry h
  obtain ⟨y1, y2, y3, y4⟩ := adamMove_entry h'
  have ha : v'.aux1 = v.aux1 ∧ v'.aux2 = v.aux2 := by
    unfold adamMove at h h'
    cases hc : s.cons with
    | none => rw [hc] at h; exact nomatch h
    | some c =>
      rw [hc] at h h'
      simp only [bind_ok, pure_ok] at h h'
      obtain ⟨xp, e1, d, e2, m, e3, w, e4, -, -, -, -, -, -, -, -, -, -, -, -, -, -, -, -, rfl⟩ := h
      obtain ⟨xp', e1', d', e2', m', e3', w', e4', -, -, -, -, -, -, -, -, -, -, -, -, -, -, -, -, rfl⟩ := h'
      obtain rfl : xp' = xp := Except.ok.inj (e1'.symm.trans e1)
      obtain rfl : d' = d := Except.ok.inj (e2'.symm.trans e2)
      exact ⟨Except.ok.inj (e3'.symm.trans e3), Except.ok.inj (e4'.symm.trans e4)⟩
  refine Mat.ext_get (y1.trans x1.symm) (y2.trans x2.symm) fun m k => ?_
  by_cases hs : s.pIdx.Sel m k
  · obtain ⟨z, hz⟩ := x4 m k hs
    obtain ⟨z', hz'⟩ := y4 m k hs
    rw [hz, hz', ha.1, ha.2]
    simp only [hσ, zero_smul]
  · rw [x3 m k hs, y3 m k hs]

end

/-- The callables of the example do not read `lamda`. -/
theorem Example.env_noLamda : Example.env.NoLamda where
  ignores l := ⟨fun _ => rfl, fun _ => rfl, fun _ h => (nomatch h)⟩
  sched _ _ := rfl
  custom _ _ _ _ := rfl

/-- C78_cbo_partial: both moves of the example succeed and the first particle moves differently. -/
example : Example.env.Ignores (St.withLamda 3) ∧
    (match computeConsensus Example.env (preStep Example.env (Example.start [] none)) with
    | .ok c => (match cboMove Example.env c, cboMove Example.env (c.withLamda 3) with
      | .ok v, .ok v' => decide (v.x.get 0 0 ≠ v'.x.get 0 0 ∧ 0 < c.pIdx.rows ∧ 0 < c.pIdx.cols)
      | _, _ => false)
    | .error _ => false) = true := ⟨Example.env_noLamda.ignores 3, by decide +kernel⟩

/-- C78_adam_dt_false: without noise both moves of the example succeed for `dt` 1/10 and 7, and particles move. -/
example : (match computeConsensus Example.env { preStep Example.env (Example.start [] none) with sigma := 0 } with
    | .ok c => (match adamMove Example.env ⟨fun v => v * v, fun a b => a / (b + 1)⟩ (1 / 2) (1 / 3) c, adamMove Example.env ⟨fun v => v * v, fun a b => a / (b + 1)⟩ (1 / 2) (1 / 3) { c with dt := 7 } with
      | .ok v, .ok v' => decide (v.x.get 0 1 = v'.x.get 0 1 ∧ v.x.get 0 1 ≠ c.x.get 0 1 ∧ c.dt ≠ 7)
      | _, _ => false)
    | .error _ => false) = true := by decide +kernel

/-- C78_hypersurface_false: the real line as a "surface"; two steps with `lamda` 1 and 3 succeed and give the same positions. -/
example : (match execAll Example.env (consThen Example.env (hyperMove Example.env ⟨fun _ z => z, id, fun _ _ _ d => d⟩)) [.step, .sched, .step]
      (Example.start [] none),
      execAll Example.env (consThen Example.env (hyperMove Example.env ⟨fun _ z => z, id, fun _ _ _ d => d⟩)) [.step, .sched, .step]
      ((Example.start [] none).withLamda 3) with
    | .ok v, .ok v' => decide (v.x.get 0 1 = v'.x.get 0 1 ∧ v.x.get 0 1 ≠ (Example.start [] none).x.get 0 1 ∧ v.lamda = 1 ∧ v'.lamda = 3)
    | _, _ => false) = true := by decide +kernel

end Verif
