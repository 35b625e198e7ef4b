import Verif.Proofs.Relabel
import Verif.Props.Best
import Verif.Props.Consensus
import Verif.Spec.Example

/-! Property C104: the numbering of the particles does not matter. -/

set_option linter.unusedSectionVars false

namespace Verif

variable {K V : Type} [Zero K] [One K] [Neg K] [Add K] [Sub K] [Mul K] [Inv K] [Div K] [NatCast K] [Pow K ℕ] [LinearOrder K] [Add V] [Sub V] [SMul K V]

/-- **C104.** CBO without batches and correction, a consensus rule that does not look at the order of the particles. Start it from the same ensemble with the particles of every run in another order, and give every particle the random numbers it
had before. Then every sequence of operations that succeeds for one dynamic succeeds for the other; at any time positions and energies agree up to the order, and consensus points, best energies, `update_diff`, evaluation counts,
active runs, parameters and clock are equal. -/
theorem C104_run (π : ℕ → ℕ) (r : List (K × Flt K × V) → V) (p : V → V) (env env' : Env K V) (hp : PermOK env) (hp' : PermOK env') (a : Args K V) (hπ : Renumbers π a.x0.cols)
    (he : EnvRelabel π a.x0.cols r p env env') (hb : ∀ b, a.batchSize = some b → a.x0.cols ≤ b) (hsi : a.saveInt ≠ 0) (hterms : ∀ tm ∈ a.terms, BuiltIn tm) (ops : List Op) (s₀ s : St K V)
    (h0 : init env a = .ok s₀) (h : execAll env (cboInner env) ops s₀ = .ok s) :
    ∃ u₀ u, init env' (a.relabel π) = .ok u₀ ∧ execAll env' (cboInner env') ops u₀ = .ok u ∧ Relabelled π s u := by
  obtain ⟨u₀, hu₀, hs⟩ := init_relabel (π := π) (env' := env') h0
  obtain ⟨i1, i2, i3, i4⟩ := relabel_init h0 hb
  obtain ⟨u, hu, hr⟩ := execAll_relabel (π := π) (N := a.x0.cols) hπ he hp hp' ops s₀ s u₀ (init_wf hp h0) (init_wf hp' hu₀) i1 i2 (by rw [i3]; exact hsi) (by rw [i4]; exact hterms) hs h
  exact ⟨u₀, u, hu₀, hu, hr⟩

/-- **C104, `optimize`.** The same for a call of `optimize`: it returns in both cases, after the same number of iterations. -/
theorem C104_optimize (π : ℕ → ℕ) (r : List (K × Flt K × V) → V) (p : V → V) (env env' : Env K V) (hp : PermOK env) (hp' : PermOK env') (a : Args K V) (hπ : Renumbers π a.x0.cols)
    (he : EnvRelabel π a.x0.cols r p env env') (hb : ∀ b, a.batchSize = some b → a.x0.cols ≤ b) (hsi : a.saveInt ≠ 0) (hterms : ∀ tm ∈ a.terms, BuiltIn tm) (fuel : ℕ) (s₀ s : St K V)
    (h0 : init env a = .ok s₀) (h : optimize env (cboInner env) fuel s₀ = .done s) :
    ∃ u₀ u, init env' (a.relabel π) = .ok u₀ ∧ optimize env' (cboInner env') fuel u₀ = .done u ∧ Relabelled π s u := by
  obtain ⟨u₀, hu₀, hs⟩ := init_relabel (π := π) (env' := env') h0
  obtain ⟨i1, i2, i3, i4⟩ := relabel_init h0 hb
  obtain ⟨u, hu, hr⟩ := optimize_relabel (π := π) (N := a.x0.cols) hπ he hp hp' fuel s₀ s u₀ (init_wf hp h0) (init_wf hp' hu₀) i1 i2 (by rw [i3]; exact hsi) (by rw [i4]; exact hterms) hs h
  exact ⟨u₀, u, hu₀, hu, hr⟩

/-- **C104, best particle.** For an objective without NaN the best particles of the two dynamics have the same objective value, from the first finite value on. -/
theorem C104_best (π : ℕ → ℕ) (r : List (K × Flt K × V) → V) (p : V → V) (env env' : Env K V) (hp : PermOK env) (hp' : PermOK env') (a : Args K V) (hπ : Renumbers π a.x0.cols)
    (he : EnvRelabel π a.x0.cols r p env env') (hb : ∀ b, a.batchSize = some b → a.x0.cols ≤ b) (hsi : a.saveInt ≠ 0) (hterms : ∀ tm ∈ a.terms, BuiltIn tm) (hf : ∀ v, env.f v ≠ .nan) (ops : List Op) (s₀ s : St K V)
    (h0 : init env a = .ok s₀) (h : execAll env (cboInner env) ops s₀ = .ok s) :
    ∃ u₀ u, init env' (a.relabel π) = .ok u₀ ∧ execAll env' (cboInner env') ops u₀ = .ok u ∧ ∀ m < s.M, s.bestE m ≠ .pinf → env.f (u.bestP m) = env.f (s.bestP m) := by
  obtain ⟨u₀, u, hu₀, hu, hr⟩ := C104_run π r p env env' hp hp' a hπ he hb hsi hterms ops s₀ s h0 h
  refine ⟨u₀, u, hu₀, hu, fun m hm hbest => ?_⟩
  rw [cboInner_eq] at h hu
  have b1 := bestInv_execAll (cboMove_ok env) he.post.ok hp (init_wf hp h0) (bestInv_init h0) h (fun m v _ => hf v)
  have b2 := bestInv_execAll (cboMove_ok env') he.post'.ok hp' (init_wf hp' hu₀) (bestInv_init hu₀) hu (fun m v _ => by rw [he.f]; exact hf v)
  rcases b1.best m hm with h1 | ⟨-, h1⟩
  · exact absurd h1 hbest
  · rcases b2.best m (by rw [hr.M]; exact hm) with h2 | ⟨-, h2⟩
    · rw [hr.bestE m hm] at h2
      exact absurd h2 hbest
    · rw [he.f, hr.bestE m hm] at h2
      rw [h1, h2]

/-- **C104, default rule.** The default consensus rule does not look at the order of the particles; neither does the norm used for `update_diff` (`pdyn.py:922`: the root of the sum of the squared distances, divided by the number of
particles). -/
theorem C104_default {V : Type} [AddCommGroup V] [Module ℝ V] : (∀ l l' : List (ℝ × Flt ℝ × V), l.Perm l' → consDefault l = consDefault l') ∧
    ∀ (g : V × V → ℝ) (l l' : List (V × V)), l.Perm l' → Real.sqrt (l.map fun q => g q ^ 2).sum / l.length = Real.sqrt (l'.map fun q => g q ^ 2).sum / l'.length :=
  ⟨fun l l' h => C21_perm l l' h, fun g l l' h => by rw [(h.map _).sum_eq, h.length_eq]⟩

namespace Example

/-- The particles `0, 1, 2` are renumbered `2, 0, 1`. -/
def rot (n : ℕ) : ℕ := (n + 2) % 3

/-- The example dynamic with the noise of the renumbered particles. -/
def rotEnv : Env ℚ ℚ := { env with
  noise := fun s => match s.drift with
    | some d => .ok ⟨d.rows, d.cols, fun i j => if i + rot j = s.draws then 1 / 2 else -1 / 2⟩
    | none => .error .attribute }

theorem rotEnv_relabel : EnvRelabel (K := ℚ) (V := ℚ) rot 3 (fun l => (l.map fun p => p.2.2).sum / l.length) (fun v => max (-100) (min 100 v)) env rotEnv where
  f := rfl
  cons := rfl
  cons' := rfl
  sym l l' h := by rw [(h.map _).sum_eq, h.length_eq]
  corr := rfl
  corr' := rfl
  noise := ⟨fun c _ i j _ => if i + j = c then (1 / 2 : ℚ) else -1 / 2, fun c _ i j _ => if i + rot j = c then (1 / 2 : ℚ) else -1 / 2, fun s d hd => by simp only [env, hd]; exact ⟨_, rfl, rfl, rfl, fun _ _ => rfl⟩,
    fun s d hd => by simp only [rotEnv, hd]; exact ⟨_, rfl, rfl, rfl, fun _ _ => rfl⟩, fun _ _ _ _ _ _ => rfl⟩
  post _ := rfl
  post' _ := rfl
  norm := rfl
  normSym l l' h := by simp only [env]; rw [(h.map _).sum_eq]
  empty := rfl
  sched := ⟨fun v => 2 * v, id, id, id, fun _ => rfl, fun _ => rfl⟩

/-- The hypotheses hold for two runs of three particles one of which stops before the other; the noise does depend on the particle, and the order of the particles is different. -/
example : Renumbers rot (args [.energyTol (.fin (1 / 10)), .maxIt (some 3)] none).x0.cols ∧ PermOK env ∧ PermOK rotEnv ∧ (∀ tm ∈ (args [.energyTol (.fin (1 / 10)), .maxIt (some 3)] none).terms, BuiltIn tm) ∧
    (match init env (args [.energyTol (.fin (1 / 10)), .maxIt (some 3)] none), init rotEnv ((args [.energyTol (.fin (1 / 10)), .maxIt (some 3)] none).relabel rot) with
      | .ok s, .ok u => (match execAll env (cboInner env) [.select, .step, .sched, .select, .step, .sched] s, execAll rotEnv (cboInner rotEnv) [.select, .step, .sched, .select, .step, .sched] u with
        | .ok s, .ok u => decide (s.active = [1] ∧ u.active = [1] ∧ u.x.get 1 0 = s.x.get 1 2 ∧ u.x.get 1 0 ≠ s.x.get 1 0 ∧ u.bestE 1 = s.bestE 1 ∧ s.bestE 1 ≠ .pinf)
        | _, _ => false)
      | _, _ => false) = true := by
  refine ⟨by unfold Renumbers; decide, fun N c m j hj => ?_, fun N c m j hj => ?_, ?_, by decide +kernel⟩
  · simp only [env, if_pos hj]; exact Nat.mod_lt _ (by omega)
  · simp only [rotEnv, env, if_pos hj]; exact Nat.mod_lt _ (by omega)
  · simp [args, BuiltIn]

/-- Two particles with equal objective values; no noise. -/
def tieArgs : Args ℚ ℚ := { args [] none with x0 := ⟨1, 2, fun _ j => if j = 0 then 2 else 5 / 2⟩, sigma := 0 }

/-- The example dynamic without noise. -/
def quietEnv : Env ℚ ℚ := { env with
  noise := fun s => match s.drift with
    | some d => .ok ⟨d.rows, d.cols, fun _ _ => 0⟩
    | none => .error .attribute }

end Example

/-- **C104 is false for `best_particle` itself**: of particles with equal energies the first one is taken, so renumbering changes the result. -/
theorem C104_best_particle_false : ∃ (π : ℕ → ℕ) (r : List (ℚ × Flt ℚ × ℚ) → ℚ) (p : ℚ → ℚ) (env : Env ℚ ℚ) (a : Args ℚ ℚ) (s₀ s u₀ u : St ℚ ℚ), Renumbers π a.x0.cols ∧ EnvRelabel π a.x0.cols r p env env ∧
    init env a = .ok s₀ ∧ execAll env (cboInner env) [.step] s₀ = .ok s ∧ init env (a.relabel π) = .ok u₀ ∧ execAll env (cboInner env) [.step] u₀ = .ok u ∧ s.bestE 0 ≠ .pinf ∧ u.bestP 0 ≠ s.bestP 0 := by
  have key : (match init Example.quietEnv Example.tieArgs, init Example.quietEnv (Example.tieArgs.relabel fun n => 1 - n) with
      | .ok s, .ok u => (match execAll Example.quietEnv (cboInner Example.quietEnv) [.step] s, execAll Example.quietEnv (cboInner Example.quietEnv) [.step] u with
        | .ok s, .ok u => decide (s.bestE 0 ≠ .pinf ∧ u.bestP 0 ≠ s.bestP 0)
        | _, _ => false)
      | _, _ => false) = true := by decide +kernel
  split at key
  · next s₀ u₀ h1 h2 =>
    split at key
    · next s u h3 h4 =>
      refine ⟨fun n => 1 - n, fun l => (l.map fun p => p.2.2).sum / l.length, fun v => max (-100) (min 100 v), Example.quietEnv, Example.tieArgs, s₀, s, u₀, u, by unfold Renumbers; decide, ?_, h1, h3, h2, h4, (of_decide_eq_true key).1,
        (of_decide_eq_true key).2⟩
      exact {
        f := rfl, cons := rfl, cons' := rfl
        sym := fun l l' h => by rw [(h.map _).sum_eq, h.length_eq]
        corr := rfl, corr' := rfl
        noise := ⟨fun _ _ _ _ _ => (0 : ℚ), fun _ _ _ _ _ => (0 : ℚ), fun s d hd => by simp only [Example.quietEnv, hd]; exact ⟨_, rfl, rfl, rfl, fun _ _ => rfl⟩,
          fun s d hd => by simp only [Example.quietEnv, hd]; exact ⟨_, rfl, rfl, rfl, fun _ _ => rfl⟩, fun _ _ _ _ _ _ => rfl⟩
        post := fun _ => rfl, post' := fun _ => rfl, norm := rfl
        normSym := fun l l' h => by simp only [Example.quietEnv, Example.env]; rw [(h.map _).sum_eq]
        empty := rfl
        sched := ⟨fun v => 2 * v, id, id, id, fun _ => rfl, fun _ => rfl⟩ }
    · simp at key
  · simp at key

end Verif
