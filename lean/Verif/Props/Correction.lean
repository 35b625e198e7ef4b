import Verif.Proofs.Correction
import Verif.Spec.Example
import Verif.Props.Count

/-! Property C54: the Heaviside corrections. -/

set_option linter.unusedSectionVars false

namespace Verif

section
variable {K V : Type} [Field K] [LinearOrder K] [IsStrictOrderedRing K] [AddCommGroup V] [Module K V]

/-- **C54, Heaviside.** CBO with `correction='heavi_side'`, one consensus point per run, all runs active and no batching (or `partial=False`):
the drift of particle `n` of run `m` is `x - c` if the energy stored for the particle is strictly above the energy of the consensus point and zero
otherwise (also for infinite or NaN energies). Without batching the stored energy is the energy of the particle. The particle moves by this drift and
the noise the noise model returns for this drift. -/
theorem C54_heaviside (env : Env K V) (hg : env.corr = .heavi heaviG) (r : List (K × Flt K × V) → V) (hr : env.cons = .mean r)
    (p : V → V) (hpm : PostMap env p) (hp : PermOK env) (s s' : St K V) (hw : WF s) (hfull : s.batched = false ∨ s.batchPartial = false)
    (hall : s.active.length = s.M) (h : step env (cboInner env) s = .ok s') :
    ∃ c d nz, s'.cons = some c ∧ s'.drift = some d ∧ d.rows = s.M ∧ d.cols = s.N ∧ (∃ q : St K V, env.noise q = .ok nz ∧ q.drift = some d) ∧ ∀ m < s.M, ∀ n < s.N,
      (Flt.lt (env.f (c.get m 0)) (s'.energy.get m n) = true → d.get m n = s.x.get m n - c.get m 0) ∧
      (Flt.lt (env.f (c.get m 0)) (s'.energy.get m n) = false → d.get m n = 0) ∧
      (s.batched = false → s'.energy.get m n = env.f (s.x.get m n)) ∧
      s'.x.get m n = p (s.x.get m n + ((-s.lamda * s.dt) • d.get m n + s.sigma • nz.get (Mat.bpos nz.rows m) (Mat.bpos nz.cols n))) := by
  obtain ⟨q, v, cm, q1, q2, q3, q4, q5, q6, q7, ⟨w, w1, w2⟩, l1, l2, l3, q8, q9, q10, q11, q12, q13⟩ := heaviStep_split hr hp hw h
  obtain ⟨d, zr, zc, ur, uc, d1, d2, d3, z1, z2, z3, z4, -, -, -, -, d4, d5⟩ := heaviMove_facts hg q1 (by rw [q2, q10]) q3 q4
  obtain ⟨hpc, hpr, hpp⟩ : q.pIdx.cols = s.N ∧ (∀ i < s.M, q.pIdx.run i = i) ∧ ∀ i j, q.pIdx.par i j = j := by
    have hact : ∀ i < s.M, s.active.getD i 0 = i := by
      intro i hi
      rw [hw.act_full hall]
      simp [List.getD, hi]
    rw [q9]
    obtain ⟨e1, e2, e3⟩ := preStep_pIdx env s hw
    by_cases hb : s.batched = true
    · rcases hfull with hf | hf
      · rw [hb] at hf; cases hf
      · rw [e2 hb hf]
        exact ⟨rfl, fun i hi => hact i hi, fun _ _ => rfl⟩
    · obtain ⟨-, r1, r2, r3, r4⟩ := e3 (by simpa using hb)
      exact ⟨r2, fun i hi => by rw [r3 i (by omega)]; exact hact i hi, r4⟩
  have hM : q.pIdx.rows = s.M := by rw [q10, hall]
  obtain ⟨q', nz, n1, n2, n3⟩ := d5 (by rw [q11, hM]) (by rw [q12, hpc])
  refine ⟨cm, d, nz, by rw [q6, d2], by rw [q5, d1], ?_, ?_, ⟨q', n1, n2⟩, ?_⟩
  · rw [q11, hM, Mat.bdim_self] at z1
    rw [hM, ← Option.some.inj z1, Mat.bdim_self] at z3
    exact (Option.some.inj z3).symm
  · rw [← z2, q12, hpc, Mat.bdim_self] at z4
    exact (Option.some.inj z4).symm
  intro m hm n hn
  have hd := d4 (by rw [q11, hM]) (by rw [q12, hpc]) m (by omega) n (by omega)
  rw [hpr m hm, hpp, q8] at hd
  unfold heaviG at hd
  rw [sub_gt_zero] at hd
  rw [q7, d3]
  refine ⟨fun hl => ?_, fun hl => ?_, fun hb => ?_, ?_⟩
  · rw [hd, hl]
    simp
  · rw [hd, hl]
    simp
  · apply q13
    obtain ⟨e1, e2, e3, e4, e5⟩ := (preStep_pIdx env s hw).2.2 hb
    rw [← e1, ← q9]
    exact ⟨m, by omega, n, by omega, hpr m hm, hpp m n⟩
  · rw [hpm w] at w2
    injection w2 with w2
    rw [← w2]
    simp only [Mat.map]
    obtain ⟨i, hi, j, hj, r1, r2, r3⟩ := n3 m n ⟨m, by omega, n, by omega, hpr m hm, hpp m n⟩
    rw [hpr i (by omega)] at r1
    rw [hpp] at r2
    subst r1 r2
    rw [w1, r3, q8, l1, l2, l3]
    rfl

/-- C54, disagreement: with a Heaviside correction and at least two runs a step raises as soon as at least one run has stopped, because the energies
of all runs are combined with the consensus of the active ones. -/
theorem C54_stopped_raises (env : Env K V) (g : Flt K → V → V) (hg : env.corr = .heavi g) (r : List (K × Flt K × V) → V)
    (hr : env.cons = .mean r) (hp : PermOK env) (s : St K V) (hw : WF s) (h1 : 2 ≤ s.M) (h2 : s.active.length < s.M) :
    ∃ e, step env (cboInner env) s = .error e := by
  cases h : step env (cboInner env) s with
  | error e => exact ⟨e, rfl⟩
  | ok s' =>
    exfalso
    obtain ⟨q, v, cm, q1, q2, q3, q4, q5, q6, q7, -, -, -, -, q8, q9, q10, q11, q12, q13⟩ := heaviStep_split hr hp hw h
    obtain ⟨d, zr, zc, ur, uc, d1, d2, d3, z1, z2, e1, e2, ⟨a, u1⟩, ⟨b, u2⟩, u3, u4, -⟩ := heaviMove_facts hg q1 (by rw [q2, q10]) q3 q4
    have b1 := Mat.bdim_eq_some z1
    have b2 := Mat.bdim_eq_some e1
    have b3 := Mat.bdim_eq_some u1
    by_cases h0 : s.active.length = 0
    · rw [q10, q11, h0] at z1
      unfold Mat.bdim at z1
      split_ifs at z1 <;> omega
    omega

/-- C54, disagreement: with a Heaviside correction and partial batch updates (the default for batching) every step raises, because the energies of
all particles are combined with the drift of the batch. -/
theorem C54_batch_raises (env : Env K V) (g : Flt K → V → V) (hg : env.corr = .heavi g) (r : List (K × Flt K × V) → V)
    (hr : env.cons = .mean r) (hp : PermOK env) (s : St K V) (hw : WF s) (hb : s.batched = true) (hpart : s.batchPartial = true)
    (h1 : 1 ≤ s.batchSize) : ∃ e, step env (cboInner env) s = .error e := by
  cases h : step env (cboInner env) s with
  | error e => exact ⟨e, rfl⟩
  | ok s' =>
    exfalso
    obtain ⟨q, v, cm, q1, q2, q3, q4, q5, q6, q7, -, -, -, -, q8, q9, q10, q11, q12, q13⟩ := heaviStep_split hr hp hw h
    obtain ⟨d, zr, zc, ur, uc, d1, d2, d3, z1, z2, e1, e2, ⟨a, u1⟩, ⟨b, u2⟩, u3, u4, -⟩ := heaviMove_facts hg q1 (by rw [q2, q10]) q3 q4
    have hpc : q.pIdx.cols = s.batchSize := by
      rw [q9, (preStep_pIdx env s hw).1 hb hpart]
      exact (preStep_idx env hp hw).cCols
    have hlt := (hw.bat hb).1
    have b2 := Mat.bdim_eq_some e2
    have b3 := Mat.bdim_eq_some u2
    omega

end

/-- **C54, regularised.** For `eps > 0` and finite energies the factor of `heavi_side_reg` lies strictly between 0 and 1, is strictly increasing in the
energy gap, and exceeds 1/2 exactly when the energy of the particle is above the energy of the consensus point. -/
theorem C54_regularised (eps : ℝ) (he : 0 < eps) (e c e' c' : ℝ) :
    (0 < regFactor eps (Flt.sub (.fin e) (.fin c)) ∧ regFactor eps (Flt.sub (.fin e) (.fin c)) < 1) ∧
    (e - c < e' - c' → regFactor eps (Flt.sub (.fin e) (.fin c)) < regFactor eps (Flt.sub (.fin e') (.fin c'))) ∧
    (1 / 2 < regFactor eps (Flt.sub (.fin e) (.fin c)) ↔ c < e) := by
  simp only [Flt.sub, Flt.add, Flt.neg, regFactor]
  have h1 := tanh_bounds ((e + -c) / eps)
  refine ⟨⟨by linarith, by linarith⟩, fun h => ?_, ?_⟩
  · have : Real.tanh ((e + -c) / eps) < Real.tanh ((e' + -c') / eps) :=
      tanh_strictMono (div_lt_div_of_pos_right (by linarith) he)
    linarith
  · have h0 : Real.tanh 0 = 0 := Real.tanh_zero
    constructor
    · intro h
      have : Real.tanh 0 < Real.tanh ((e + -c) / eps) := by rw [h0]; linarith
      have := tanh_strictMono.lt_iff_lt.1 this
      have := (div_pos_iff_of_pos_right he).1 this
      linarith
    · intro h
      have : Real.tanh 0 < Real.tanh ((e + -c) / eps) := tanh_strictMono (div_pos (by linarith) he)
      rw [h0] at this
      linarith

/-- **C54, regularised drift.** In a step as in `C54_heaviside` but with `correction='heavi_side_reg'` the drift of every particle is `x - c` times the
factor of its energy gap. -/
theorem C54_regularised_drift {V : Type} [AddCommGroup V] [Module ℝ V] (env : Env ℝ V) (eps : ℝ) (hg : env.corr = .heavi (heaviRegG eps))
    (r : List (ℝ × Flt ℝ × V) → V) (hr : env.cons = .mean r) (hp : PermOK env) (s s' : St ℝ V) (hw : WF s)
    (hb : s.batched = false) (hall : s.active.length = s.M) (h : step env (cboInner env) s = .ok s') :
    ∃ c d, s'.cons = some c ∧ s'.drift = some d ∧ ∀ m < s.M, ∀ n < s.N,
      d.get m n = regFactor eps (Flt.sub (env.f (s.x.get m n)) (env.f (c.get m 0))) • (s.x.get m n - c.get m 0) := by
  obtain ⟨q, v, cm, q1, q2, q3, q4, q5, q6, q7, -, l1, l2, l3, q8, q9, q10, q11, q12, q13⟩ := heaviStep_split hr hp hw h
  obtain ⟨d, zr, zc, ur, uc, d1, d2, d3, -, -, -, -, -, -, -, -, d4, -⟩ := heaviMove_facts hg q1 (by rw [q2, q10]) q3 q4
  obtain ⟨e1, r1, r2, r3, r4⟩ := (preStep_pIdx env s hw).2.2 hb
  have hact : ∀ i < s.M, s.active.getD i 0 = i := by
    intro i hi
    rw [hw.act_full hall]
    simp [List.getD, hi]
  rw [← q9] at r2 r3 r4
  refine ⟨cm, d, by rw [q6, d2], by rw [q5, d1], ?_⟩
  intro m hm n hn
  have hd := d4 (by omega) (by omega) m (by omega) n (by omega)
  have hrm : q.pIdx.run m = m := by rw [r3 m (by omega), hact m hm]
  rw [hrm, r4, q8, q13 m n (by rw [← e1, ← q9]; exact ⟨m, by omega, n, by omega, hrm, r4 m n⟩)] at hd
  exact hd

/-- **C54, names.** The three documented names give the corrections above (`no_correction` leaves the drift alone), every other name and every value that is
neither a name nor callable is rejected. -/
theorem C54_names {V : Type} [AddCommGroup V] [Module ℝ V] (eps : ℝ) (name : String) :
    (setCorrection (V := V) (.name "heavi_side") eps = .ok (.heavi heaviG)) ∧
    (setCorrection (V := V) (.name "heavi_side_reg") eps = .ok (.heavi (heaviRegG eps))) ∧
    (∃ k, setCorrection (V := V) (.name "no_correction") eps = .ok k ∧ ∀ (env : Env ℝ V) d s, env.corr = k → correction env d s = .ok (d, s)) ∧
    (name ≠ "no_correction" → name ≠ "heavi_side" → name ≠ "heavi_side_reg" → setCorrection (V := V) (.name name) eps = .error .value) ∧
    setCorrection (V := V) .other eps = .error .value := by
  refine ⟨?_, ?_, ⟨.none, ?_, ?_⟩, ?_, rfl⟩
  · simp [setCorrection, getCorrection]
  · simp [setCorrection, getCorrection]
  · simp [setCorrection, getCorrection]
  · intro env d s h
    unfold correction
    rw [h]
    rfl
  · intro h1 h2 h3
    simp [setCorrection, getCorrection, h1, h2, h3]

/-- The example environment with the Heaviside correction of the code. -/
def Example.envHeavi : Env ℚ ℚ := { Example.env with corr := .heavi heaviG }

/-- C54: a step of two runs of three particles. Consensus of run 0 is 2 with energy 1/16; particle 1 (at 2, energy 1/16) is not above it and has drift 0,
particle 0 (at 1) keeps its drift -1. -/
example : (match step Example.envHeavi (cboInner Example.envHeavi) (Example.start [] none) with
    | .ok s => decide ((s.drift.map fun d => (d.get 0 0, d.get 0 1)) = some (-1, 0) ∧ (s.cons.map fun c => c.get 0 0) = some 2)
    | .error _ => false) = true := by decide +kernel

/-- C54: the raising cases happen: one stopped run; batches of two of three particles. -/
example : (match execAll { Example.envHeavi with custom := fun _ _ m => m = 0 } (cboInner Example.envHeavi) [.select]
      (Example.start [.custom 0] none) with
    | .ok s => decide (2 ≤ s.M ∧ s.active.length < s.M) && (match step Example.envHeavi (cboInner Example.envHeavi) s with
      | .ok _ => false
      | .error _ => true)
    | .error _ => false) = true ∧
    (Example.start [] (some 2)).batched = true ∧ (match step Example.envHeavi (cboInner Example.envHeavi) (Example.start [] (some 2)) with
      | .ok _ => false
      | .error _ => true) = true := by decide +kernel

end Verif
