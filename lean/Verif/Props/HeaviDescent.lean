import Verif.Props.Correction
import Verif.Props.Frozen
import Verif.Model.Noise
import Mathlib.Analysis.Convex.Quasiconvex

/-! Property C103: with the Heaviside correction particles do not get worse. -/

set_option linter.unusedSectionVars false

namespace Verif

section
variable {K V : Type} [Field K] [LinearOrder K] [IsStrictOrderedRing K] [AddCommGroup V] [Module K V]

/-- **C103 (particles that stay).** CBO with `correction='heavi_side'`, no batches, all runs active, any consensus rule with one point per run, any parameters, noise that is zero where the drift is zero
(isotropic, anisotropic): after a step a particle whose energy was not above the energy of the consensus point of its run is where it was, up to post processing. -/
theorem C103_stay (env : Env K V) (hg : env.corr = .heavi heaviG) (r : List (K × Flt K × V) → V) (hr : env.cons = .mean r) (p : V → V) (hpm : PostMap env p) (hp : PermOK env)
    (hz : ∀ (q : St K V) d n, q.drift = some d → env.noise q = .ok n → n.rows = d.rows ∧ n.cols = d.cols ∧ ∀ i j, d.get i j = 0 → n.get i j = 0) (s s' : St K V) (hw : WF s) (hb : s.batched = false)
    (hall : s.active.length = s.M) (h : step env (cboInner env) s = .ok s') :
    ∃ c, s'.cons = some c ∧ ∀ m < s.M, ∀ n < s.N, Flt.lt (env.f (c.get m 0)) (env.f (s.x.get m n)) = false → s'.x.get m n = p (s.x.get m n) := by
  obtain ⟨c, d, nz, h1, h2, h3, h4, ⟨q, h5, h6⟩, h7⟩ := C54_heaviside env hg r hr p hpm hp s s' hw (.inl hb) hall h
  refine ⟨c, h1, fun m hm n hn hl => ?_⟩
  obtain ⟨-, g2, g3, g4⟩ := h7 m hm n hn
  rw [g3 hb] at g2
  obtain ⟨z1, z2, z3⟩ := hz q d nz h6 h5
  rw [g4, g2 hl, z1, z2, h3, h4, Mat.bpos_lt hm, Mat.bpos_lt hn, z3 m n (g2 hl)]
  simp

/-- **C103 (descent).** CBO with `correction='heavi_side'`, no batches, no noise (`sigma = 0`, `0 ≤ lamda*dt ≤ 1`, kept by the scheduler), any consensus rule with one point per run, a quasi-convex objective that post processing
does not increase: from one reachable state to a later one, whatever steps, checks, scheduler updates and resets lie between, the objective value of no particle increases. -/
theorem C103_descent (env : Env K V) (hg : env.corr = .heavi heaviG) (r : List (K × Flt K × V) → V) (hr : env.cons = .mean r) (p : V → V) (hpm : PostMap env p) (hp : PermOK env) (f : V → K)
    (hf : ∀ v, env.f v = .fin (f v)) (hq : QuasiconvexOn K Set.univ f) (hpf : ∀ v, f (p v) ≤ f v) (a : Args K V) (hb : batchSizeOf a.batchSize a.x0.cols = a.x0.cols)
    (hn : a.sigma = 0 ∧ 0 ≤ a.lamda * a.dt ∧ a.lamda * a.dt ≤ 1)
    (hsched : ∀ q u, (q.sigma = 0 ∧ 0 ≤ q.lamda * q.dt ∧ q.lamda * q.dt ≤ 1) → env.sched q = .ok u → u.sigma = 0 ∧ 0 ≤ u.lamda * u.dt ∧ u.lamda * u.dt ≤ 1)
    (s₀ s s' : St K V) (ops ops' : List Op) (h0 : init env a = .ok s₀) (h : execAll env (cboInner env) ops s₀ = .ok s) (h' : execAll env (cboInner env) ops' s = .ok s') :
    ∀ m < a.x0.rows, ∀ n < a.x0.cols, f (s'.x.get m n) ≤ f (s.x.get m n) := by
  have hpo : PostOK env := fun s x' hx => by rw [hpm] at hx; injection hx with hx; rw [← hx]; exact ⟨rfl, rfl⟩
  have e0 : s₀.M = a.x0.rows ∧ s₀.N = a.x0.cols ∧ s₀.batched = false ∧ (s₀.sigma = 0 ∧ 0 ≤ s₀.lamda * s₀.dt ∧ s₀.lamda * s₀.dt ≤ 1) := by
    unfold init at h0
    split_ifs at h0 <;>
    · injection h0 with h0
      subst h0
      exact ⟨rfl, rfl, by simp [initBatch, initHistory, checkFDims, callF, baseSt, hb], hn⟩
  rw [cboInner_eq] at h h'
  have hstep : ∀ (y : ℕ → ℕ → V) o q q', WF q →
      (q.M = a.x0.rows ∧ q.N = a.x0.cols ∧ q.batched = false ∧ (q.sigma = 0 ∧ 0 ≤ q.lamda * q.dt ∧ q.lamda * q.dt ≤ 1) ∧ ∀ m < a.x0.rows, ∀ n < a.x0.cols, f (q.x.get m n) ≤ f (y m n)) →
      exec env (consThen env (cboMove env)) o q = .ok q' →
      (q'.M = a.x0.rows ∧ q'.N = a.x0.cols ∧ q'.batched = false ∧ (q'.sigma = 0 ∧ 0 ≤ q'.lamda * q'.dt ∧ q'.lamda * q'.dt ≤ 1) ∧ ∀ m < a.x0.rows, ∀ n < a.x0.cols, f (q'.x.get m n) ≤ f (y m n)) := by
    intro y o q q' hw ⟨e1, e2, e3, e4, e5⟩ hx
    cases o with
    | select =>
      have fr := select_frame hx
      rw [fr]
      exact ⟨e1, e2, e3, e4, e5⟩
    | sched =>
      have hx' := hx
      simp only [exec, schedUpdate, bind_ok, pure_ok] at hx'
      obtain ⟨u, h1, rfl⟩ := hx'
      exact ⟨e1, e2, e3, hsched q u e4 h1, e5⟩
    | reset =>
      simp only [exec] at hx
      injection hx with hx
      subst hx
      exact ⟨e1, e2, e3, e4, e5⟩
    | step =>
      have fr := step_frame (consThen_frame (cboMove_ok env)) hx
      refine ⟨by rw [fr.M, e1], by rw [fr.N, e2], by rw [fr.batched, e3], by rw [fr.sigma, fr.lamda, fr.dt]; exact e4, fun m hm n hn => ?_⟩
      refine le_trans ?_ (e5 m hm n hn)
      by_cases hm' : m ∈ q.active
      · have hall : q.active.length = q.M := by
          have hle : q.active.length ≤ q.M := by simpa using hw.act.length_le
          rcases Nat.lt_or_ge q.M 2 with h2 | h2
          · have := List.length_pos_of_mem hm'
            omega
          · by_contra hne
            rw [← cboInner_eq] at hx
            obtain ⟨e, he⟩ := C54_stopped_raises env heaviG hg r hr hp q hw h2 (by omega)
            simp only [exec] at hx
            rw [he] at hx
            cases hx
        rw [← cboInner_eq] at hx
        obtain ⟨c, d, nz, h1, h2, h3, h4, ⟨u, h5, h6⟩, h7⟩ := C54_heaviside env hg r hr p hpm hp q q' hw (.inl e3) hall hx
        obtain ⟨g1, g2, g3, g4⟩ := h7 m (by rw [e1]; exact hm) n (by rw [e2]; exact hn)
        rw [g3 e3, hf, hf] at g1 g2
        rw [g4, e4.1]
        refine (hpf _).trans ?_
        cases hl : Flt.lt (.fin (f (c.get m 0))) (.fin (f (q.x.get m n))) with
        | false => rw [g2 hl]; simp
        | true =>
          rw [g1 hl]
          have hl' : f (c.get m 0) < f (q.x.get m n) := by simpa [Flt.lt] using hl
          have hc := hq (f (q.x.get m n)) (x := q.x.get m n) ⟨trivial, le_refl _⟩ (y := c.get m 0) ⟨trivial, hl'.le⟩ (a := 1 - q.lamda * q.dt) (b := q.lamda * q.dt) (by linarith [e4.2.2]) e4.2.1 (by ring)
          have e : q.x.get m n + ((-q.lamda * q.dt) • (q.x.get m n - c.get m 0) + (0 : K) • nz.get (Mat.bpos nz.rows m) (Mat.bpos nz.cols n)) =
              (1 - q.lamda * q.dt) • q.x.get m n + (q.lamda * q.dt) • c.get m 0 := by
            module
          rw [e]
          exact hc.2
      · rw [(C16_only_selected env (cboMove env) (cboMove_ok env) (cboMove_local env) p hpm hp q q' hw hx).2.2.1 m n (fun hh => hm' hh.1)]
        exact hpf _
  have hw0 := init_wf hp h0
  obtain ⟨hw, k1, k2, k3, k4, -⟩ := execAll_induct (cboMove_ok env) hpo hp (hstep s₀.x.get) ops s₀ s hw0 ⟨e0.1, e0.2.1, e0.2.2.1, e0.2.2.2, fun _ _ _ _ => le_refl _⟩ h
  obtain ⟨-, -, -, -, -, k5⟩ := execAll_induct (cboMove_ok env) hpo hp (hstep s.x.get) ops' s s' hw ⟨k1, k2, k3, k4, fun _ _ _ _ => le_refl _⟩ h'
  exact k5

end

/-- **C103 needs the correction.** The quasi-convex objective `(v - 9/4)²`, no noise, no correction: the best particle of run 1, at 5, moves to 11/2 and gets worse; with the Heaviside correction it stays. -/
theorem C103_uncorrected_false : (match init Example.env { Example.args [] none with sigma := 0 } with
    | .error _ => false
    | .ok s₀ => match execAll Example.env (cboInner Example.env) [.step] s₀, execAll Example.envHeavi (cboInner Example.envHeavi) [.step] s₀ with
      | .ok s, .ok t => decide (s₀.x.get 1 0 = 5 ∧ s.x.get 1 0 = 11 / 2 ∧ t.x.get 1 0 = 5 ∧ t.x.get 1 2 = 13 / 2)
      | _, _ => false) = true := by decide +kernel

/-- An objective with a hill between two particles. -/
def Example.envHill : Env ℚ ℚ := { Example.envHeavi with f := fun v => .fin (if v ≤ 1 / 2 then 1 else if v < 3 / 2 then 5 else 0) }

/-- **C103 needs quasi-convexity.** Particles at 0 and 4 with energies 1 and 0, consensus 2 with energy 0: the particle at 0 moves to 1, on top of the hill, with energy 5. -/
theorem C103_hill_false : (match init Example.envHill { Example.args [] none with sigma := 0, x0 := ⟨1, 2, fun _ j => 4 * j⟩ } with
    | .error _ => false
    | .ok s₀ => match execAll Example.envHill (cboInner Example.envHill) [.step] s₀ with
      | .ok s => decide (s₀.x.get 0 0 = 0 ∧ s.x.get 0 0 = 1 ∧ Example.envHill.f 0 = .fin 1 ∧ Example.envHill.f 1 = .fin 5)
      | _ => false) = true := by decide +kernel

/-- C103: the hypotheses hold for the objective `(v - 9/4)²` on two runs of three particles with clipping, a scheduler and a stopping criterion; a run with five operations succeeds and moves a particle. -/
example : PostMap Example.envHeavi (fun v => max (-100) (min 100 v)) ∧ PermOK Example.envHeavi ∧ QuasiconvexOn ℚ Set.univ (fun v : ℚ => (v - 9 / 4) * (v - 9 / 4)) ∧
    (∀ v : ℚ, (max (-100) (min 100 v) - 9 / 4) * (max (-100) (min 100 v) - 9 / 4) ≤ (v - 9 / 4) * (v - 9 / 4)) ∧
    (∀ q u, (q.sigma = 0 ∧ 0 ≤ q.lamda * q.dt ∧ q.lamda * q.dt ≤ 1) → Example.envHeavi.sched q = .ok u → u.sigma = 0 ∧ 0 ≤ u.lamda * u.dt ∧ u.lamda * u.dt ≤ 1) ∧
    (match init Example.envHeavi { Example.args [.maxIt (some 9)] none with sigma := 0 } with
      | .error _ => false
      | .ok s₀ => match execAll Example.envHeavi (cboInner Example.envHeavi) [.step, .select, .sched, .step, .reset] s₀ with
        | .ok s => decide (s.x.get 0 0 ≠ s₀.x.get 0 0 ∧ s.active = [0, 1])
        | .error _ => false) = true := by
  refine ⟨fun _ => rfl, ?_, ?_, ?_, ?_, by decide +kernel⟩
  · intro N c m j hj
    simp only [Example.envHeavi, Example.env, if_pos hj]
    exact Nat.mod_lt _ (by omega)
  · apply ConvexOn.quasiconvexOn
    refine ⟨convex_univ, fun x _ y _ a b ha hb hab => ?_⟩
    obtain rfl : b = 1 - a := by linarith
    simp only [smul_eq_mul]
    nlinarith [mul_nonneg (mul_nonneg ha hb) (mul_self_nonneg (x - y))]
  · intro v
    rcases le_total v 100 with h | h
    · rw [min_eq_right h]
      rcases le_total (-100) v with h' | h'
      · rw [max_eq_right h']
      · rw [max_eq_left h']
        nlinarith
    · rw [min_eq_left h, max_eq_right (by norm_num)]
      nlinarith
  · intro q u hq hu
    simp only [Example.envHeavi, Example.env, Except.ok.injEq] at hu
    subst hu
    exact hq

/-- C103: the noise hypothesis of `C103_stay` holds for isotropic noise. -/
example {ι : Type} [Fintype ι] (smp : ℕ → ℕ → ℕ → ι → ℝ) (q : St ℝ (ι → ℝ)) (d n : Mat (ι → ℝ)) (hd : q.drift = some d) (h : rowNoise isoRule smp q = .ok n) :
    n.rows = d.rows ∧ n.cols = d.cols ∧ ∀ i j, d.get i j = 0 → n.get i j = 0 := by
  simp only [rowNoise, hd] at h
  injection h with h
  subst h
  refine ⟨rfl, rfl, fun i j h0 => ?_⟩
  funext l
  simp [h0, isoRule, euclid]

end Verif
