import Verif.Proofs.FlMemory
import Verif.Proofs.FlExample
import Verif.Proofs.MemRun
import Verif.Proofs.PsoDiverge

/-! Property C89: the historical best positions of `CBOMemory` and `PSO` in floating point arithmetic. -/

set_option linter.unusedSectionVars false

namespace Verif

section
variable {K V : Type} [Zero K] [One K] [Neg K] [Add K] [Sub K] [Mul K] [Inv K] [Div K] [NatCast K] [Pow K ℕ] [LinearOrder K] [Add V] [Sub V] [SMul K V]

/-- **C89 (energies, any arithmetic).** Whatever the rounding, for both dynamics, with or without batches, after construction and any sequence of operations in which `step` is only called while a run is
active: `energy[m,n]` is the minimum of the objective over all evaluated positions of the particle, attained at a visited position `Y[m,n]`; and after at least one step `best_energy[m]` is the
minimum over all evaluations of run `m` and equals `energy[m, f_min_idx[m]]`. -/
theorem C89_energy (env : Env K V) (hpost : PostOK env) (lm sm : K) (pp : PsoPar K) (a : Args K V) (ha : a.aux1 = id) (hperm : PermOK env) (hb : a.batchSize ≠ some 0)
    (s₀ s : St K V) (ops : List Op) (h0 : memInit env a = .ok s₀)
    (h : (Live env (memStep env lm sm) ops s₀ ∧ execAllBy env (memStep env lm sm) ops s₀ = .ok s) ∨
      (Live env (psoStep env pp) ops s₀ ∧ execAllBy env (psoStep env pp) ops s₀ = .ok s)) (hn : NoNaN env.f s) :
    (∃ traj Y, HistBest env.f a.x0 (ops.count .step) { s with aux1 := Y } traj) ∧
    (Op.step ∈ ops → ∀ m < s.M, IsBest env.f s m (s.bestE m) ∧ s.fMinIdx m < s.N ∧ s.energy.get m (s.fMinIdx m) = s.bestE m) := by
  have hR : MaskNear K (fun _ : V => True) fun _ _ => True := ⟨fun _ => trivial, fun _ _ _ _ => trivial, fun _ _ _ _ _ _ => trivial⟩
  have key : MemNear env (fun _ => True) (fun _ _ => True) a.x0 (0 + ops.count .step) s := by
    rcases h with ⟨hl, h⟩ | ⟨hl, h⟩
    · exact memNear_execAll hR (fun _ _ w a h => mem_histStep hpost hperm w a h) hl (memNear_init hR hperm ha hb h0) h
    · exact memNear_execAll hR (fun _ _ w a h => pso_histStep hpost hperm w a h) hl (memNear_init hR hperm ha hb h0) h
  obtain ⟨traj, Y, h1, h2, -⟩ := key.hist hn fun _ _ _ => trivial
  have hY : HistBest env.f a.x0 (0 + ops.count .step) { s with aux1 := ⟨s.M, s.N, Y.get⟩ } traj := ⟨h1.start, h1.len, h1.shape, h1.evals, h1.least, h1.visited, h1.value⟩
  refine ⟨⟨traj, Y, by rw [Nat.zero_add] at h1; exact h1⟩, fun hk m hm => ?_⟩
  have hk' : 0 + ops.count .step ≠ 0 := by
    have := List.count_pos_iff.2 hk
    omega
  have w := key.shape
  obtain ⟨i1, i2, -⟩ := isBest_of (s := { s with aux1 := ⟨s.M, s.N, Y.get⟩ }) hk' ⟨w.xr, w.xc, w.er, w.ec, rfl, rfl, w.act, w.pool, w.pos⟩ hn hY ⟨h2.zero, h2.pos⟩ m hm
  exact ⟨i1, i2, (h2.pos hk' m hm).2.symm⟩

end

section
variable {φ : FloatFmt} {ι : Type}

/-- **C89 (bounds).** Full claim (C12): `y[m,n]` is a position visited by the particle and `f(y[m,n]) = energy[m,n]`. In floating point arithmetic with at least 3 bits it fails, see below, because a
position is replaced by adding the difference. What holds, for both dynamics, with or without batches, after construction and any sequence of operations in which `step` is only called while a run is active: if
no coordinate of an evaluated position exceeds `B`, then there are visited positions `Y[m,n]` that do attain the energies, which are the minima over all evaluations of the particle, and every
coordinate of `y[m,n]` differs from that of `Y[m,n]` by at most `4*u*B` with `u = 2^-p`, however many steps were made; `energy` itself is exact. -/
theorem C89_memory_partial (hp : 3 ≤ φ.p) (env : Env (Fl φ) (ι → Fl φ)) (hpost : PostOK env) (lm sm : Fl φ) (pp : PsoPar (Fl φ)) (a : Args (Fl φ) (ι → Fl φ)) (ha : a.aux1 = id)
    (hperm : PermOK env) (hb : a.batchSize ≠ some 0) (s₀ s : St (Fl φ) (ι → Fl φ)) (ops : List Op) (h0 : memInit env a = .ok s₀)
    (h : (Live env (memStep env lm sm) ops s₀ ∧ execAllBy env (memStep env lm sm) ops s₀ = .ok s) ∨
      (Live env (psoStep env pp) ops s₀ ∧ execAllBy env (psoStep env pp) ops s₀ = .ok s))
    (hn : NoNaN env.f s) (B : ℝ) (hB : ∀ m v, Evaluated s m v → ∀ i, |(v i).val| ≤ B) :
    ∃ traj Y, HistBest env.f a.x0 (ops.count .step) { s with aux1 := Y } traj ∧
      ∀ m < s.M, ∀ n < s.N, ∀ i, |(s.aux1.get m n i).val - (Y.get m n i).val| ≤ 4 * 2 ^ (-(φ.p : ℤ)) * B := by
  have hR := Fl.maskNear (ι := ι) hp B
  have key : MemNear env (fun v => ∀ i, |(v i).val| ≤ B) (fun y x => (∀ i, |(x i).val| ≤ B) → ∀ i, |(y i).val - (x i).val| ≤ 4 * Fl.unit φ * B) a.x0 (0 + ops.count .step) s := by
    rcases h with ⟨hl, h⟩ | ⟨hl, h⟩
    · exact memNear_execAll hR (fun _ _ w a h => mem_histStep hpost hperm w a h) hl (memNear_init hR hperm ha hb h0) h
    · exact memNear_execAll hR (fun _ _ w a h => pso_histStep hpost hperm w a h) hl (memNear_init hR hperm ha hb h0) h
  obtain ⟨traj, Y, h1, -, h3⟩ := key.hist hn hB
  rw [Nat.zero_add] at h1
  refine ⟨traj, Y, h1, fun m hm n hn' => h3 m hm n hn' ?_⟩
  obtain ⟨Z, hZ, e⟩ := h1.visited m hm n hn'
  have e : Y.get m n = Z.get m n := e
  refine hB m _ ?_
  exact (evaluated_iff h1 m _).2 ⟨Z, hZ, hm, n, hn', e⟩

end

section
variable {φ : FloatFmt}

/-- **C89 is false in general.** In every format and for every rule for ties, two steps of `CBOMemory` without noise lead to a particle whose historical best position is `0`, a position
that it visited and where the objective is `+inf`, although its stored energy is finite: the best position `2^-(p+2)` was lost when it was added as a difference to `1`. -/
theorem C89_memory_false (φ : FloatFmt) : ∃ s₀ s, memInit (Example.flMemEnv φ) (Example.flMemArgs φ) = .ok s₀ ∧
    Live (Example.flMemEnv φ) (memStep (Example.flMemEnv φ) 0 0) [.step, .step] s₀ ∧
    execAllBy (Example.flMemEnv φ) (memStep (Example.flMemEnv φ) 0 0) [.step, .step] s₀ = .ok s ∧ s.M = 1 ∧ s.N = 2 ∧ NoNaN (Example.flMemEnv φ).f s ∧
    (s.aux1.get 0 1 ()).val = 0 ∧ (s.x.get 0 1 ()).val = 2 ^ (-(φ.p : ℤ) - 2) ∧ (Example.flMemEnv φ).f (s.aux1.get 0 1) = .pinf ∧
    s.energy.get 0 1 = (Example.flMemEnv φ).f (s.x.get 0 1) ∧ (∃ e, s.energy.get 0 1 = .fin e) ∧
    ¬ ∃ traj, HistBest (Example.flMemEnv φ).f (Example.flMemArgs φ).x0 2 s traj := by
  obtain ⟨s₀, h0, w0, x0, y0, e0⟩ := flMem_init φ
  obtain ⟨s₁, h1, w1, x1, y1, e1⟩ := flMem_step w0
  obtain ⟨s₂, h2, w2, x2, y2, e2⟩ := flMem_step w1
  obtain ⟨r1, r2⟩ := flTiny_sub (φ := φ)
  have ht : 0 < (Example.flTiny φ).val := by show 0 < ((1 : ℤ) : ℝ) * 2 ^ (-(φ.p : ℤ) - 2); rw [Int.cast_one, one_mul]; exact two_zpow_pos _
  have ft : ∀ v : Unit → Fl φ, v () = Example.flTiny φ → (Example.flMemEnv φ).f v = .fin (Example.flTiny φ) := by
    intro v hv
    show (if 0 < v () then Flt.fin (v ()) else .pinf) = _
    rw [hv, if_pos (by rw [Fl.lt_iff, Fl.val_zero]; exact ht)]
  have fz : ∀ v : Unit → Fl φ, v () = 0 → (Example.flMemEnv φ).f v = .pinf := by
    intro v hv
    show (if 0 < v () then Flt.fin (v ()) else .pinf) = _
    rw [hv, if_neg (lt_irrefl _)]
  have f1 : ∀ v : Unit → Fl φ, v () = 1 → (Example.flMemEnv φ).f v = .fin 1 := by
    intro v hv
    show (if 0 < v () then Flt.fin (v ()) else .pinf) = _
    rw [hv, if_pos (by rw [Fl.lt_iff, Fl.val_zero, Fl.val_one]; exact one_pos)]
  have g1 : flGoes (Example.flTiny φ) (Example.flTiny φ) = Example.flTiny φ := Fl.ext (by
    show φ.rd (_ - φ.rd (_ - _)) = _
    rw [sub_self, φ.near.zero, sub_zero, Fl.rd_val])
  have g2 : flGoes (1 : Fl φ) (Example.flTiny φ) = 0 := Fl.ext (by
    show φ.rd (_ - φ.rd (_ - _)) = _
    rw [Fl.val_one, r1, sub_self, φ.near.zero, Fl.val_zero])
  have g3 : flGoes (0 : Fl φ) (Example.flTiny φ) = Example.flTiny φ := Fl.ext (by
    show φ.rd (_ - φ.rd (_ - _)) = _
    rw [Fl.val_zero, zero_sub, zero_sub, ← Fl.val_neg, Fl.rd_val, Fl.val_neg, neg_neg, Fl.rd_val])
  have a0 : s₀.x.get 0 0 () = Example.flTiny φ := by rw [x0]; rfl
  have a1 : s₀.x.get 0 1 () = 1 := by rw [x0]; rfl
  have b0 : s₁.x.get 0 0 () = Example.flTiny φ := by rw [x1 0 (by norm_num), y0]; show flGoes _ _ = _; rw [a0, g1]
  have b1 : s₁.x.get 0 1 () = 0 := by rw [x1 1 (by norm_num), y0]; show flGoes _ _ = _; rw [a0, a1, g2]
  have c0 : s₁.aux1.get 0 0 () = Example.flTiny φ := by
    rw [y1 0 (by norm_num), e0, ft _ a0, ft _ b0, y0, a0]
    simp [Flt.gt, Flt.lt]
  have c1 : s₁.aux1.get 0 1 () = 1 := by
    rw [y1 1 (by norm_num), e0, f1 _ a1, fz _ b1, y0, a1]
    simp [Flt.gt, Flt.lt]
  have d1 : s₁.energy.get 0 1 = .fin 1 := by
    rw [e1 1 (by norm_num), e0, f1 _ a1, fz _ b1]
    simp [Flt.minimum, Flt.lt, Flt.isNaN]
  have k1 : s₂.x.get 0 1 () = Example.flTiny φ := by rw [x2 1 (by norm_num)]; show flGoes _ _ = _; rw [b1, c0, g3]
  have lt : Example.flTiny φ < 1 := by
    rw [Fl.lt_iff, Fl.val_one]
    by_contra hc
    push Not at hc
    have := φ.near.mono (sub_nonneg.2 hc)
    rw [r2, φ.near.zero] at this
    linarith
  have k2 : s₂.aux1.get 0 1 () = 0 := by
    rw [y2 1 (by norm_num), d1, ft _ k1, c1, k1]
    rw [if_pos (by simp [Flt.gt, Flt.lt, lt])]
    refine Fl.ext ?_
    rw [Fl.val_add, Fl.val_sub, Fl.val_one, r2, Fl.val_zero, add_neg_cancel, φ.near.zero]
  have k3 : s₂.energy.get 0 1 = .fin (Example.flTiny φ) := by
    rw [e2 1 (by norm_num), d1, ft _ k1]
    simp [Flt.minimum, Flt.lt, lt, Flt.isNaN]
  have ha : ∀ {s : St (Fl φ) (Unit → Fl φ)}, FlMem s → s.active ≠ [] := by
    intro s w h
    have := w.full
    rw [h, w.M] at this
    simp at this
  refine ⟨s₀, s₂, h0, ?_, ?_, w2.M, w2.N, ?_, by rw [k2, Fl.val_zero], ?_, fz _ k2, by rw [k3, ft _ k1], ⟨_, k3⟩, ?_⟩
  · refine ⟨fun _ => ha w0, fun s' h => ⟨fun _ => ?_, fun _ _ => trivial⟩⟩
    have h : memStep (Example.flMemEnv φ) 0 0 s₀ = .ok s' := h
    rw [h1] at h
    injection h with h
    rw [← h]
    exact ha w1
  · show execBy _ _ _ _ >>= _ = _
    have e1 : execBy (Example.flMemEnv φ) (memStep (Example.flMemEnv φ) 0 0) .step s₀ = .ok s₁ := h1
    have e2 : execBy (Example.flMemEnv φ) (memStep (Example.flMemEnv φ) 0 0) .step s₁ = .ok s₂ := h2
    rw [e1]
    show execBy _ _ _ _ >>= _ = _
    rw [e2]
    rfl
  · intro m v _ hv
    have hv : (if 0 < v () then Flt.fin (v ()) else .pinf) = .nan := hv
    split_ifs at hv
  · rw [k1]
    show ((1 : ℤ) : ℝ) * 2 ^ (-(φ.p : ℤ) - 2) = _
    rw [Int.cast_one, one_mul]
  · rintro ⟨traj, h⟩
    have := h.value 0 (by rw [w2.M]; norm_num) 1 (by rw [w2.N]; norm_num)
    rw [fz _ k2, k3] at this
    cases this

/-- Non-vacuity: the two steps of the counterexample in double precision meet the hypotheses of `C89_memory_partial`, with some bound `B`. -/
example : ∃ s₀ s B, memInit (Example.flMemEnv Example.double) (Example.flMemArgs Example.double) = .ok s₀ ∧ PostOK (Example.flMemEnv Example.double) ∧
    PermOK (Example.flMemEnv Example.double) ∧ Live (Example.flMemEnv Example.double) (memStep (Example.flMemEnv Example.double) 0 0) [.step, .step] s₀ ∧
    execAllBy (Example.flMemEnv Example.double) (memStep (Example.flMemEnv Example.double) 0 0) [.step, .step] s₀ = .ok s ∧ NoNaN (Example.flMemEnv Example.double).f s ∧
    0 < s.M ∧ 0 < s.N ∧ ∀ m v, Evaluated s m v → ∀ i, |(v i).val| ≤ B := by
  obtain ⟨s₀, s, h0, hl, h, hM, hN, hn, -⟩ := C89_memory_false Example.double
  obtain ⟨B, hB⟩ := evaluated_bound s
  exact ⟨s₀, s, B, h0, (flMemEnv_ok _).postOK, fun _ _ _ _ h => h, hl, h, hn, by omega, by omega, hB⟩

end
end Verif
