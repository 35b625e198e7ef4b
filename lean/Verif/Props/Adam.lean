import Verif.Proofs.AdamUpdate

/-! C51: moments of `AdamCBO`. -/

set_option linter.unusedSectionVars false

namespace Verif

section module
variable {K V : Type} [Field K] [LinearOrder K] [AddCommGroup V] [Module K V]

/-- **C51, part 1**: after any sequence of steps, termination checks, scheduler updates and resets, both moments of every particle are the
exponentially weighted sums over exactly the drifts (squared drifts) this particle experienced in the steps that selected it. -/
theorem C51_moments (env : Env K V) (A : AdamOps V) (β1 β2 : K) (hmean : ∃ r, env.cons = .mean r) (hp : PermOK env)
    (hpost : PostOK env) (a : Args K V) (ha : a.aux1 = fun _ => 0) (hb : a.aux2 = fun _ => 0) (ops : List Op) (s₀ s : St K V)
    (h0 : init env a = .ok s₀) (h : execAll env (consThen env (adamMove env A β1 β2)) ops s₀ = .ok s) (m n : ℕ) :
    s.aux1.get m n = ema β1 (drifts env (consThen env (adamMove env A β1 β2)) m n ops s₀) ∧
      s.aux2.get m n = ema β2 ((drifts env (consThen env (adamMove env A β1 β2)) m n ops s₀).map A.sq) := by
  have key : ∀ (ops : List Op) (q : St K V) (l : List V), WF q → q.aux1.get m n = ema β1 l → q.aux2.get m n = ema β2 (l.map A.sq) →
      execAll env (consThen env (adamMove env A β1 β2)) ops q = .ok s →
      s.aux1.get m n = ema β1 (l ++ drifts env (consThen env (adamMove env A β1 β2)) m n ops q) ∧
        s.aux2.get m n = ema β2 ((l ++ drifts env (consThen env (adamMove env A β1 β2)) m n ops q).map A.sq) := by
    intro ops
    induction ops with
    | nil =>
      intro q l _ h1 h2 h
      simp only [execAll] at h
      injection h with h
      subst h
      simp only [drifts, List.append_nil]
      exact ⟨h1, h2⟩
    | cons o ops ih =>
      intro q l hw h1 h2 h
      simp only [execAll, bind_ok] at h
      obtain ⟨r, hr, hl⟩ := h
      have hwr := exec_wf (adamMove_ok env A β1 β2) hpost hp hw hr
      simp only [drifts, hr]
      by_cases ho : o = .step
      · subst ho
        have st := adamStep_facts hmean hp hw hr
        rw [if_pos rfl]
        rcases hd : driftAt r m n with _ | d
        · simp only [Option.toList_none, List.nil_append]
          obtain ⟨u1, u2⟩ := st.unsel m n hd
          exact ih r l hwr (by rw [u1, h1]) (by rw [u2, h2]) hl
        · simp only [Option.toList_some]
          obtain ⟨u1, u2⟩ := st.sel m n d hd
          rw [← List.append_assoc]
          refine ih r (l ++ [d]) hwr (by rw [u1, h1, ema_append]) ?_ hl
          rw [u2, h2, List.map_append, List.map_singleton, ema_append]
      · rw [if_neg ho, List.nil_append]
        obtain ⟨u1, u2⟩ := exec_aux hr ho
        exact ih r l hwr (by rw [u1, h1]) (by rw [u2, h2]) hl
  obtain ⟨i1, i2, -⟩ := init_aux h0
  have := key ops s₀ [] (init_wf hp h0) (by rw [i1, ha, ema_nil]; rfl) (by rw [i2, hb, List.map_nil, ema_nil]; rfl) h
  simpa using this

/-- **C51, part 2**: what counts as drift of a particle in a step is its position before the step minus the consensus point of its run. -/
theorem C51_drift (env : Env K V) (A : AdamOps V) (β1 β2 : K) (hmean : ∃ r, env.cons = .mean r) (hp : PermOK env)
    (hpost : PostOK env) (a : Args K V) (ops : List Op) (s₀ s s' : St K V) (h0 : init env a = .ok s₀)
    (h : execAll env (consThen env (adamMove env A β1 β2)) ops s₀ = .ok s)
    (hs : step env (consThen env (adamMove env A β1 β2)) s = .ok s') (m n : ℕ) :
    ((driftAt s' m n).isSome = true ↔ s'.pIdx.Sel m n) ∧
    ∀ d, driftAt s' m n = some d → ∃ c i, s'.cons = some c ∧ s.active.getD i 0 = m ∧ d = s.x.get m n - c.get i 0 := by
  obtain ⟨hw, -⟩ := execAll_induct (P := fun _ => True) (adamMove_ok env A β1 β2) hpost hp (fun _ _ _ _ _ _ => trivial) ops s₀ s
    (init_wf hp h0) trivial h
  have st := adamStep_facts hmean hp hw hs
  refine ⟨st.some_iff m n, fun d hd => ?_⟩
  obtain ⟨c, i, h1, -, h2, h3⟩ := st.drift m n d hd
  exact ⟨c, i, h1, h2, h3⟩

/-- **C51, part 3** (general form): if the particle was selected in every step since the counter was zero, the bias-corrected first moment
is a weighted mean of all its drifts: the weights sum to one. -/
theorem C51_mean (env : Env K V) (A : AdamOps V) (β1 β2 : K) (hmean : ∃ r, env.cons = .mean r) (hp : PermOK env)
    (hpost : PostOK env) (a : Args K V) (ha : a.aux1 = fun _ => 0) (hb : a.aux2 = fun _ => 0) (ops : List Op) (s₀ s : St K V)
    (h0 : init env a = .ok s₀) (h : execAll env (consThen env (adamMove env A β1 β2)) ops s₀ = .ok s) (m n : ℕ)
    (hsel : (drifts env (consThen env (adamMove env A β1 β2)) m n ops s₀).length = s.it) (hβ : β1 ^ s.it ≠ 1) :
    ∃ w : ℕ → K, ∑ i ∈ Finset.range s.it, w i = 1 ∧ (1 / (1 - β1 ^ s.it)) • s.aux1.get m n =
      ∑ i ∈ Finset.range s.it, w i • (drifts env (consThen env (adamMove env A β1 β2)) m n ops s₀).getD i 0 := by
  have hne : 1 - β1 ^ s.it ≠ 0 := fun h => hβ (sub_eq_zero.1 h).symm
  refine ⟨fun i => (1 / (1 - β1 ^ s.it)) * emaWeight β1 s.it i, ?_, ?_⟩
  · rw [← Finset.mul_sum, emaWeight_sum, one_div, inv_mul_cancel₀ hne]
  · rw [(C51_moments env A β1 β2 hmean hp hpost a ha hb ops s₀ s h0 h m n).1, ema, hsel, Finset.smul_sum]
    exact Finset.sum_congr rfl fun i _ => smul_smul _ _ _

/-- **C51, part 3**: a particle selected in every step with constant drift `d` has bias-corrected first moment exactly `d`. -/
theorem C51_constant (env : Env K V) (A : AdamOps V) (β1 β2 : K) (hmean : ∃ r, env.cons = .mean r) (hp : PermOK env)
    (hpost : PostOK env) (a : Args K V) (ha : a.aux1 = fun _ => 0) (hb : a.aux2 = fun _ => 0) (ops : List Op) (s₀ s : St K V)
    (h0 : init env a = .ok s₀) (h : execAll env (consThen env (adamMove env A β1 β2)) ops s₀ = .ok s) (m n : ℕ) (d : V)
    (hd : drifts env (consThen env (adamMove env A β1 β2)) m n ops s₀ = List.replicate s.it d) (hβ : β1 ^ s.it ≠ 1) :
    (1 / (1 - β1 ^ s.it)) • s.aux1.get m n = d := by
  obtain ⟨w, w1, w2⟩ := C51_mean env A β1 β2 hmean hp hpost a ha hb ops s₀ s h0 h m n (by rw [hd]; simp) hβ
  rw [w2, hd]
  have : ∀ i ∈ Finset.range s.it, w i • (List.replicate s.it d).getD i 0 = w i • d := by
    intro i hi
    have hi := Finset.mem_range.1 hi
    have : (List.replicate s.it d).getD i 0 = d := by simp [List.getD, hi]
    rw [this]
  rw [Finset.sum_congr rfl this, ← Finset.sum_smul, w1, one_smul]

/-- **C51, part 4**: without batches, and as long as only steps and scheduler updates happen, every particle is selected in every step
(so the hypothesis of part 3 holds). -/
theorem C51_selected (env : Env K V) (A : AdamOps V) (β1 β2 : K) (hmean : ∃ r, env.cons = .mean r) (hp : PermOK env)
    (hpost : PostOK env) (a : Args K V) (hba : a.batchSize = none) (ops : List Op) (hops : ∀ o ∈ ops, o = .step ∨ o = .sched)
    (s₀ s : St K V) (h0 : init env a = .ok s₀) (h : execAll env (consThen env (adamMove env A β1 β2)) ops s₀ = .ok s) (m n : ℕ)
    (hm : m < a.x0.rows) (hn : n < a.x0.cols) :
    (drifts env (consThen env (adamMove env A β1 β2)) m n ops s₀).length = s.it := by
  have key : ∀ (ops : List Op) (q : St K V), WF q → q.batched = false → q.active = List.range a.x0.rows → q.N = a.x0.cols →
      (∀ o ∈ ops, o = .step ∨ o = .sched) → execAll env (consThen env (adamMove env A β1 β2)) ops q = .ok s →
      q.it + (drifts env (consThen env (adamMove env A β1 β2)) m n ops q).length = s.it := by
    intro ops
    induction ops with
    | nil =>
      intro q _ _ _ _ _ h
      simp only [execAll] at h
      injection h with h
      subst h
      simp [drifts]
    | cons o ops ih =>
      intro q hw hb hac hN ho h
      simp only [execAll, bind_ok] at h
      obtain ⟨r, hr, hl⟩ := h
      have hwr := exec_wf (adamMove_ok env A β1 β2) hpost hp hw hr
      simp only [drifts, hr]
      rcases ho o List.mem_cons_self with rfl | rfl
      · have f := step_frame (consThen_frame (adamMove_ok env A β1 β2)) hr
        have st := adamStep_facts hmean hp hw hr
        have := ih r hwr (by rw [f.batched, hb]) (by rw [f.active, hac]) (by rw [f.N, hN])
          (fun o h => ho o (List.mem_cons_of_mem _ h)) hl
        have hsel : r.pIdx.Sel m n := by
          rw [f.pIdx, preStep_pSel hp hw]
          refine ⟨by rw [hac]; exact List.mem_range.2 hm, by omega, by simp [hb]⟩
        obtain ⟨d, hd⟩ := Option.isSome_iff_exists.1 ((st.some_iff m n).2 hsel)
        rw [if_pos rfl, hd]
        rw [← this, f.it]
        simp only [Option.toList_some, List.length_append, List.length_singleton]
        omega
      · have sf := sched_frame hr
        have := ih r hwr (by rw [sf]; exact hb) (by rw [sf]; exact hac) (by rw [sf]; exact hN)
          (fun o h => ho o (List.mem_cons_of_mem _ h)) hl
        rw [if_neg (by simp), List.nil_append, ← this]
        congr 1
        rw [sf]
  have e0 : s₀.batched = false ∧ s₀.active = List.range a.x0.rows ∧ s₀.N = a.x0.cols := by
    unfold init at h0
    split_ifs at h0
    all_goals
      injection h0 with h0
      subst h0
      refine ⟨?_, rfl, rfl⟩
      simp [initBatch, hba, batchSizeOf]
  have := key ops s₀ (init_wf hp h0) e0.1 e0.2.1 e0.2.2 hops h
  rw [(init_aux h0).2.2, Nat.zero_add] at this
  exact this

/-- **C51, part 6**: the update. One step from any reachable state leaves particles outside the batch where they are and moves a selected
particle by `-(lamda · mhat/(sqrt(vhat)+eps) - sigma · n)`, with the moments after the step, bias-corrected with the number of the step,
and one noise term drawn for this drift; then the post-processing is applied. The step size `dt` enters only through the noise. -/
theorem C51_update (env : Env K V) (A : AdamOps V) (β1 β2 : K) (hmean : ∃ r, env.cons = .mean r) (hn : NoiseShape env) (hp : PermOK env)
    (hpost : PostOK env) (a : Args K V) (ops : List Op) (s₀ s s' : St K V) (h0 : init env a = .ok s₀)
    (h : execAll env (consThen env (adamMove env A β1 β2)) ops s₀ = .ok s)
    (hs : step env (consThen env (adamMove env A β1 β2)) s = .ok s') :
    ∃ nz xm : Mat V, (∃ q, env.noise q = .ok nz ∧ q.drift = s'.drift ∧ q.draws = s.draws ∧ q.dt = s.dt) ∧
      (∃ q, q.x = xm ∧ env.post q = .ok s'.x) ∧ β1 ^ (s.it + 1) ≠ 1 ∧ β2 ^ (s.it + 1) ≠ 1 ∧
      (∀ m k, ¬ s'.pIdx.Sel m k → xm.get m k = s.x.get m k) ∧
      ∀ m k, s'.pIdx.Sel m k → ∃ i j, i < s.active.length ∧ j < s'.pIdx.cols ∧ s.active.getD i 0 = m ∧ s'.pIdx.par i j = k ∧
        xm.get m k = s.x.get m k - s.lamda • A.quot ((1 / (1 - β1 ^ (s.it + 1))) • s'.aux1.get m k)
          ((1 / (1 - β2 ^ (s.it + 1))) • s'.aux2.get m k) + s.sigma • nz.get i j := by
  obtain ⟨hw, -⟩ := execAll_induct (P := fun _ => True) (adamMove_ok env A β1 β2) hpost hp (fun _ _ _ _ _ _ => trivial) ops s₀ s
    (init_wf hp h0) trivial h
  obtain ⟨nz, xm, ⟨q, q1, q2, q3, q4, -, -⟩, -, b, f1, f2, c, d⟩ := adamStep_update hmean hn hp hw hs
  refine ⟨nz, xm, ⟨q, q1, q2, q3, q4⟩, b, fun e => f1 (by rw [e, sub_self]), fun e => f2 (by rw [e, sub_self]), c, fun m k hk => ?_⟩
  obtain ⟨i, hi, j, hj, e1, e2, e3⟩ := d m k hk
  refine ⟨i, j, hi, hj, e1, e2, ?_⟩
  rw [e3]
  module

end module

/-- **C51, part 5**: the second moment is never negative. -/
theorem C51_nonneg {ι : Type} (env : Env ℝ (ι → ℝ)) (eps β1 β2 : ℝ) (h2 : 0 ≤ β2) (h2' : β2 ≤ 1) (hmean : ∃ r, env.cons = .mean r)
    (hp : PermOK env) (hpost : PostOK env) (a : Args ℝ (ι → ℝ)) (ha : a.aux1 = fun _ => 0) (hb : a.aux2 = fun _ => 0) (ops : List Op)
    (s₀ s : St ℝ (ι → ℝ)) (h0 : init env a = .ok s₀)
    (h : execAll env (consThen env (adamMove env (adamReal ι eps) β1 β2)) ops s₀ = .ok s) (m n : ℕ) (i : ι) :
    0 ≤ s.aux2.get m n i := by
  rw [(C51_moments env _ β1 β2 hmean hp hpost a ha hb ops s₀ s h0 h m n).2, ema, Finset.sum_apply]
  refine Finset.sum_nonneg fun j _ => ?_
  rw [Pi.smul_apply, smul_eq_mul]
  refine mul_nonneg (mul_nonneg (by linarith) (pow_nonneg h2 _)) ?_
  generalize drifts env (consThen env (adamMove env (adamReal ι eps) β1 β2)) m n ops s₀ = l
  have : ∀ w ∈ l.map (adamReal ι eps).sq, 0 ≤ w i := by
    intro w hw
    obtain ⟨d, -, rfl⟩ := List.mem_map.1 hw
    exact sq_nonneg (d i)
  rcases lt_or_ge j (l.map (adamReal ι eps).sq).length with hj | hj
  · have e : (l.map (adamReal ι eps).sq).getD j 0 = (l.map (adamReal ι eps).sq)[j] := by
      rw [List.getD_eq_getElem?_getD, List.getElem?_eq_getElem hj, Option.getD_some]
    rw [e]
    exact this _ (List.getElem_mem hj)
  · rw [List.getD_eq_getElem?_getD, List.getElem?_eq_none hj]
    exact le_refl _

/-- The hypotheses of parts 1 and 2 are met on a run with batches in which particles are selected in some of the steps. -/
example : (∃ r, Example.env.cons = .mean r) ∧ PermOK Example.env ∧ PostOK Example.env ∧
    (match (do let s₀ ← init Example.env (Example.adamArgs (some 2))
               let s ← execAll Example.env Example.adamInner [.step, .sched, .step] s₀
               pure (s₀, s) : Except Err (St ℚ ℚ × St ℚ ℚ)) with
      | .ok (s₀, s) => decide ((drifts Example.env Example.adamInner 0 0 [.step, .sched, .step] s₀).length = 1 ∧
          (drifts Example.env Example.adamInner 0 1 [.step, .sched, .step] s₀).length = 2 ∧ s.aux1.get 0 1 ≠ 0)
      | .error _ => false) = true := by
  refine ⟨⟨_, rfl⟩, ?_, ?_, by decide +kernel⟩
  · intro N c m j hj
    simp only [Example.env, if_pos hj]
    exact Nat.mod_lt _ (by omega)
  · intro s x' h
    simp only [Example.env] at h
    injection h with h
    subst h
    exact ⟨rfl, rfl⟩

/-- The hypotheses of part 6 are met on a run with batches: `NoiseShape` holds for the example and a further step succeeds and moves a
particle. -/
example : NoiseShape Example.env ∧
    (match (do let s₀ ← init Example.env (Example.adamArgs (some 2))
               let s ← execAll Example.env Example.adamInner [.step, .sched] s₀
               let s' ← step Example.env Example.adamInner s
               pure (s, s') : Except Err (St ℚ ℚ × St ℚ ℚ)) with
      | .ok (s, s') => decide (s'.x.get 0 1 ≠ s.x.get 0 1 ∧ s.lamda ≠ 0 ∧ s.sigma ≠ 0)
      | .error _ => false) = true := by
  refine ⟨NoiseOK.shape fun s d hd => ?_, by decide +kernel⟩
  simp only [Example.env, hd]
  exact ⟨_, rfl, rfl, rfl⟩

/-- The hypotheses of part 3 are met: three steps with constant drift -1, bias-corrected moment -1. -/
example : (match (do let s₀ ← init Example.env (Example.adamFrozen none)
                     let s ← execAll Example.env Example.adamInner [.step, .sched, .step, .step] s₀
                     pure (s₀, s) : Except Err (St ℚ ℚ × St ℚ ℚ)) with
      | .ok (s₀, s) => decide (drifts Example.env Example.adamInner 0 0 [.step, .sched, .step, .step] s₀ = List.replicate 3 (-1) ∧
          s.it = 3 ∧ s.aux1.get 0 0 = -7 / 8)
      | .error _ => false) = true := by decide +kernel

/-- **C51, part 3 is false after `reset()`**: the counter restarts but the moments stay. Every drift of particle 0 of run 0 is -1, but
after `step; reset(); step` the bias-corrected first moment is -3/2. -/
theorem C51_reset_false : ∃ s₀ s, init Example.env (Example.adamFrozen none) = .ok s₀ ∧
    execAll Example.env Example.adamInner [.step, .reset, .step] s₀ = .ok s ∧
    (drifts Example.env Example.adamInner 0 0 [.step, .reset, .step] s₀ = [-1, -1] ∧ s.it = 1 ∧
      (1 / (1 - (1 / 2 : ℚ) ^ s.it)) • s.aux1.get 0 0 = -3 / 2) := by
  have h : (match (do let s₀ ← init Example.env (Example.adamFrozen none)
                      let s ← execAll Example.env Example.adamInner [.step, .reset, .step] s₀
                      pure (s₀, s) : Except Err (St ℚ ℚ × St ℚ ℚ)) with
      | .ok (s₀, s) => decide (drifts Example.env Example.adamInner 0 0 [.step, .reset, .step] s₀ = [-1, -1] ∧ s.it = 1 ∧
          (1 / (1 - (1 / 2 : ℚ) ^ s.it)) • s.aux1.get 0 0 = -3 / 2)
      | .error _ => false) = true := by decide +kernel
  split at h
  · next s₀ s hs =>
    simp only [bind_ok, pure_ok] at hs
    obtain ⟨a, ha, b, hb, e⟩ := hs
    cases e
    exact ⟨s₀, s, ha, hb, of_decide_eq_true h⟩
  · simp at h

/-- **C51, part 3 is false with batches**: a particle selected for the first time in the second step has drift `d`, but its bias-corrected
first moment is `2/3 · d` because the correction uses the global step counter. -/
theorem C51_batch_false : ∃ s₀ s d, init Example.env (Example.adamFrozen (some 2)) = .ok s₀ ∧
    execAll Example.env Example.adamInner [.step, .step] s₀ = .ok s ∧
    (drifts Example.env Example.adamInner 0 0 [.step, .step] s₀ = [d] ∧ d ≠ 0 ∧
      (1 / (1 - (1 / 2 : ℚ) ^ s.it)) • s.aux1.get 0 0 = 2 / 3 * d) := by
  have h : (match (do let s₀ ← init Example.env (Example.adamFrozen (some 2))
                      let s ← execAll Example.env Example.adamInner [.step, .step] s₀
                      pure (s₀, s) : Except Err (St ℚ ℚ × St ℚ ℚ)) with
      | .ok (s₀, s) => decide (drifts Example.env Example.adamInner 0 0 [.step, .step] s₀ = [-1 / 2] ∧ (-1 / 2 : ℚ) ≠ 0 ∧
          (1 / (1 - (1 / 2 : ℚ) ^ s.it)) • s.aux1.get 0 0 = 2 / 3 * (-1 / 2))
      | .error _ => false) = true := by decide +kernel
  split at h
  · next s₀ s hs =>
    simp only [bind_ok, pure_ok] at hs
    obtain ⟨a, ha, b, hb, e⟩ := hs
    cases e
    exact ⟨s₀, s, -1 / 2, ha, hb, of_decide_eq_true h⟩
  · simp at h

end Verif
