import Verif.Proofs.IndepEnds
import Verif.Props.AlmostSure
import Verif.Props.Constrained

/-! Property C107: the loop of the independent noise of `DriftConstrainedCBO` ends almost surely. -/

set_option linter.unusedSectionVars false

namespace Verif

open MeasureTheory ProbabilityTheory

variable {ι : Type} [Fintype ι] [Nonempty ι] {Ω : Type} [MeasurableSpace Ω] (P : Measure Ω) [IsProbabilityMeasure P]

/-- **C107, number of iterations.** With standard normal numbers, `sigma_indep > 0`, `dt > 0` and any threshold `eps_indep`, there is a number `q < 1`, the same for all states, such that the loop of
the independent noise makes more than `k` perturbations with probability at most `q^k`. -/
theorem C107_tail (env : Env ℝ (ι → ℝ)) (hroot : env.sqrtK = Real.sqrt) (p : IndepArgs ℝ (ι → ℝ)) (hsig : 0 < p.sigma) (hq : p.normSq = fun v => ∑ l, v l ^ 2) (hd : p.d0 = Fintype.card ι)
    (M N : ℕ) (hN : 0 < N) (dt : ℝ) (hdt : 0 < dt) (Z : ℕ → ℕ → Ω → Fin M × Fin N × ι → ℝ) (hZ : ∀ it, IidNormal P (Z it)) :
    ∃ q : ENNReal, q < 1 ∧ ∀ (s : St ℝ (ι → ℝ)) (c : Mat (ι → ℝ)), s.x.rows = M → s.x.cols = N → s.dt = dt → s.cons = some c → (c.rows = M ∨ c.rows = 1) → c.cols = 1 →
      ∀ k, P {ω | ¬ ∃ x', indepStep env p (fun it k => drawn M N (Z it k ω)) (k + 1) s = .ok (some x')} ≤ q ^ k := by
  have hd0 : 0 < p.d0 := by rw [hd]; exact_mod_cast Fintype.card_pos
  have ha : 0 < p.sigma * env.sqrtK dt := by rw [hroot]; exact mul_pos hsig (Real.sqrt_pos.2 hdt)
  refine ⟨stdNormal _ (upperBox (Fin M × Fin N × ι) (exitLevel p (env.sqrtK dt) N))ᶜ, upperBox_compl_lt _, ?_⟩
  rintro s c rfl rfl rfl hcons hr hc k
  rw [← upperBox_tail (hZ s.it)]
  refine measure_mono fun ω hω t ht hbox => hω ?_
  obtain ⟨r, h⟩ := indepLoop_total (p := p) (root := env.sqrtK s.dt) (z := fun k => drawn s.x.rows s.x.cols (Z s.it k ω)) hc (k + 1) 0 s.x hr
  unfold indepStep
  rw [if_pos hsig, hcons]
  simp only
  cases r with
  | some x' => exact ⟨x', h⟩
  | none =>
    refine absurd ?_ (indepLoop_large hq hd0 ha hc (k + 1) 0 s.x hr hN h t (by omega))
    rw [Nat.zero_add]
    exact upperBox_large hN hbox

/-- **C107, termination.** Almost surely the loop ends: with probability one the random numbers are such that, whatever the positions, the consensus points, the time step and the iteration number,
the loop ends after finitely many iterations without raising, and its result is then the same however many iterations are allowed. -/
theorem C107_ends (env : Env ℝ (ι → ℝ)) (hroot : env.sqrtK = Real.sqrt) (p : IndepArgs ℝ (ι → ℝ)) (hsig : 0 < p.sigma) (hq : p.normSq = fun v => ∑ l, v l ^ 2) (hd : p.d0 = Fintype.card ι)
    (M N : ℕ) (hN : 0 < N) (Z : ℕ → ℕ → Ω → Fin M × Fin N × ι → ℝ) (hZ : ∀ it, IidNormal P (Z it)) :
    ∀ᵐ ω ∂P, ∀ (s : St ℝ (ι → ℝ)) (c : Mat (ι → ℝ)), s.x.rows = M → s.x.cols = N → 0 < s.dt → s.cons = some c → (c.rows = M ∨ c.rows = 1) → c.cols = 1 →
      ∃ n x', ∀ fuel ≥ n, indepStep env p (fun it k => drawn M N (Z it k ω)) fuel s = .ok (some x') := by
  have hd0 : 0 < p.d0 := by rw [hd]; exact_mod_cast Fintype.card_pos
  have hae : ∀ᵐ ω ∂P, ∀ it, ∀ n : ℕ, ∃ t, Z it t ω ∈ upperBox _ (n : ℝ) := ae_all_iff.2 fun it => ae_all_iff.2 fun n => upperBox_ae (hZ it) _
  filter_upwards [hae] with ω hω
  rintro s c rfl rfl hdt hcons hr hc
  have ha : 0 < p.sigma * env.sqrtK s.dt := by rw [hroot]; exact mul_pos hsig (Real.sqrt_pos.2 hdt)
  obtain ⟨n, hn⟩ := exists_nat_ge (exitLevel p (env.sqrtK s.dt) s.x.cols)
  obtain ⟨t, hbox⟩ := hω s.it n
  obtain ⟨r, h⟩ := indepLoop_total (p := p) (root := env.sqrtK s.dt) (z := fun k => drawn s.x.rows s.x.cols (Z s.it k ω)) hc (t + 2) 0 s.x hr
  unfold indepStep
  simp only [if_pos hsig, hcons]
  cases r with
  | some x' => exact ⟨t + 2, x', fun fuel hf => indepLoop_mono _ _ _ _ h fuel hf⟩
  | none =>
    refine absurd ?_ (indepLoop_large hq hd0 ha hc (t + 2) 0 s.x hr hN h t (by omega))
    rw [Nat.zero_add]
    intro i hi l
    exact hn.trans (upperBox_large hN hbox i hi l)

/-- **C107, whole executions.** Almost surely `DriftConstrainedCBO` is never caught in the loop: whatever the initial ensemble and the arguments are, in every state reached by steps and calls of the
scheduler with `dt > 0` the loop of the next step ends; and what was reached is reached in the same way if more iterations of the loop are allowed. -/
theorem C107_run (env : Env ℝ (ι → ℝ)) (hmean : ∃ r, env.cons = .mean r) (hpost : PostOK env) (hp : PermOK env) (hroot : env.sqrtK = Real.sqrt) (G : ConOps ℝ (ι → ℝ)) (eps : ℝ)
    (p : IndepArgs ℝ (ι → ℝ)) (hq : p.normSq = fun v => ∑ l, v l ^ 2) (hd : p.d0 = Fintype.card ι)
    (M N : ℕ) (hN : 0 < N) (Z : ℕ → ℕ → Ω → Fin M × Fin N × ι → ℝ) (hZ : ∀ it, IidNormal P (Z it)) :
    ∀ᵐ ω ∂P, ∀ (a : Args ℝ (ι → ℝ)) (s₀ s : St ℝ (ι → ℝ)) (ops : List Op) (fuel : ℕ), a.x0.rows = M → a.x0.cols = N → init env a = .ok s₀ → (∀ o ∈ ops, o = .step ∨ o = .sched) →
      execAll env (indepInner env G eps p (fun it k => drawn M N (Z it k ω)) fuel) ops s₀ = .ok s → 0 < s.dt →
        (∀ fuel' ≥ fuel, execAll env (indepInner env G eps p (fun it k => drawn M N (Z it k ω)) fuel') ops s₀ = .ok s) ∧
        ∃ n x', ∀ fuel' ≥ n, indepStep env p (fun it k => drawn M N (Z it k ω)) fuel' (preStep env s) = .ok (some x') := by
  by_cases hsig : 0 < p.sigma
  · filter_upwards [C107_ends P env hroot p hsig hq hd M N hN Z hZ] with ω hω
    intro a s₀ s ops fuel h1 h2 h0 ho h hdt
    refine ⟨fun fuel' hf => indepExec_mono hf ops s₀ s h, ?_⟩
    have i0 : IndepInv M N s₀ := by
      have hw := init_wf hp h0
      have e : s₀.M = a.x0.rows ∧ s₀.N = a.x0.cols ∧ s₀.active = List.range a.x0.rows ∧ s₀.cons = none := by
        unfold init at h0
        split_ifs at h0 <;> (injection h0 with h0; rw [← h0]; exact ⟨rfl, rfl, rfl, rfl⟩)
      exact ⟨hw, e.1.trans h1, e.2.1.trans h2, by rw [e.2.2.1, List.length_range, h1], fun c hc => by rw [e.2.2.2] at hc; cases hc⟩
    have i := IndepInv.exec hmean hpost hp ops s₀ s ho i0 h
    have e1 : (preStep env s).x = s.x := by rw [preStep_frame]
    have e2 : (preStep env s).cons = s.cons := by rw [preStep_frame]
    have e3 : (preStep env s).dt = s.dt := by rw [preStep_frame]
    cases hc : s.cons with
    | none =>
      refine ⟨0, s.x, fun fuel' _ => ?_⟩
      unfold indepStep
      rw [if_pos hsig, e2, hc, e1]
    | some c =>
      obtain ⟨c1, c2⟩ := i.cons c hc
      exact hω (preStep env s) c (by rw [e1, i.wf.xr, i.eM]) (by rw [e1, i.wf.xc, i.eN]) (by rw [e3]; exact hdt) (by rw [e2, hc]) (.inl c1) c2
  · refine Filter.Eventually.of_forall fun ω a s₀ s ops fuel h1 h2 h0 ho h hdt => ⟨fun fuel' hf => indepExec_mono hf ops s₀ s h, ?_⟩
    refine ⟨0, (preStep env s).x, fun fuel' _ => ?_⟩
    unfold indepStep
    rw [if_neg hsig]

namespace Example

/-- Independent noise in the plane: `sigma_indep = 1`, `eps_indep = 4`. -/
noncomputable def indepPlane : IndepArgs ℝ (Fin 2 → ℝ) := { sigma := 1, eps := 4, normSq := fun v => ∑ l, v l ^ 2, d0 := 2 }

end Example

/-- C107: two runs of four particles in the plane. The random numbers of all steps and iterations are independent standard normal numbers, a first step can be made (also with only one iteration allowed),
and the state given second is collapsed, so that its loop does not end at once; all hypotheses of the three theorems are met. -/
example : ∃ (P : Measure (ℕ → Fin 2 × Fin 4 × Fin 2 → ℝ)) (Z : ℕ → ℕ → (ℕ → Fin 2 × Fin 4 × Fin 2 → ℝ) → Fin 2 × Fin 4 × Fin 2 → ℝ), IsProbabilityMeasure P ∧ (∀ it, IidNormal P (Z it)) ∧
    let env := { Example.realEnv (rowNoise isoRule Example.smp) with post := fun s => .ok s.x }
    (∃ r, env.cons = .mean r) ∧ PostOK env ∧ PermOK env ∧ env.sqrtK = Real.sqrt ∧ 0 < Example.indepPlane.sigma ∧ Example.indepPlane.d0 = Fintype.card (Fin 2) ∧
    ∃ s₀ : St ℝ (Fin 2 → ℝ), init env (Example.realArgs (fun m n => ![n, m]) 3 none) = .ok s₀ ∧
      (∀ ω, ∃ s, execAll env (indepInner env noCon 1 Example.indepPlane (fun it k => drawn 2 4 (Z it k ω)) 1) [.step] s₀ = .ok s ∧ 0 < s.dt) ∧
      let s := { s₀ with x := ⟨2, 4, fun m n => ![n, m]⟩, cons := some ⟨2, 1, fun m _ => ![1, m]⟩ }
      0 < s.dt ∧ ∀ ω, indepStep env Example.indepPlane (fun it k => drawn 2 4 (Z it k ω)) 1 s = .ok none := by
  obtain ⟨P, hP, hZ⟩ := iidNormal_exists (Fin 2 × Fin 4 × Fin 2)
  refine ⟨P, fun it k ω => ω (Nat.pair it k), hP, fun it => ⟨fun k => hZ.meas _, fun k => hZ.law _, ?_⟩, ?_⟩
  · exact hZ.indep.precomp (g := fun k => Nat.pair it k) fun a b e => (Nat.pair_eq_pair.1 e).2
  intro env
  have hp : PermOK env := Example.perm_ok (rowNoise isoRule Example.smp)
  have hpm : PostMap env id := fun _ => rfl
  have h0 : ∃ s₀, init env (Example.realArgs (fun m n => ![n, m]) 3 none) = .ok s₀ ∧ s₀.active.length = 2 ∧ s₀.M = 2 ∧ s₀.dt = 1 / 10 ∧ s₀.saveInt ≠ 0 ∧ s₀.cons = none := by
    unfold init
    rw [if_neg (by simp [Example.realArgs])]
    exact ⟨_, rfl, rfl, rfl, rfl, show (2 : ℕ) ≠ 0 by omega, rfl⟩
  obtain ⟨s₀, h0, c1, c2, c3, c4, c5⟩ := h0
  have hw := init_wf hp h0
  refine ⟨⟨_, rfl⟩, hpm.ok, hp, rfl, by norm_num [Example.indepPlane], by norm_num [Example.indepPlane], s₀, h0, fun ω => ?_, ?_⟩
  · have hn : NoiseOK env := by
      intro q d hd
      exact (rowNoise_rows (env := env) rfl).ok q d hd
    obtain ⟨⟨s, hs⟩, -⟩ := C18_all_active_total_partial env noCon ⟨fun _ v => v, fun v => v, fun _ _ _ v => v⟩ 1 _ rfl hn hp (fun s => ⟨_, rfl, rfl, rfl⟩) one_ne_zero (fun _ _ _ => ⟨_, rfl⟩) (fun _ _ _ => ⟨_, rfl⟩) s₀ hw
      (by rw [c2]; norm_num) (by rw [c1, c2]) c4 (fun h => by cases h)
    have hx : ∀ z, indepStep env Example.indepPlane z 1 (preStep env s₀) = .ok (some (preStep env s₀).x) := by
      intro z
      have e : (preStep env s₀).cons = none := by rw [preStep_frame]; exact c5
      unfold indepStep
      rw [if_pos (by norm_num [Example.indepPlane]), e]
    obtain ⟨v, hv, hs'⟩ := step_split.1 hs
    refine ⟨s, ?_, ?_⟩
    · have : step env (indepInner env noCon 1 Example.indepPlane (fun it k => drawn 2 4 (ω (Nat.pair it k))) 1) s₀ = .ok s := step_split.2 ⟨v, indepInner_ok.2 ⟨_, hx _, hv⟩, hs'⟩
      simp only [execAll, exec, bind, Except.bind, this]
    · have fr := step_frame (consThen_frame (dcMove_full env noCon 1).ok) hs
      rw [fr.dt, c3]; norm_num
  · refine ⟨by simp only [c3]; norm_num, fun ω => ?_⟩
    unfold indepStep
    rw [if_pos (by norm_num [Example.indepPlane])]
    have hr : (⟨2, 1, fun m _ => ![1, m]⟩ : Mat (Fin 2 → ℝ)).rows = (⟨2, 4, fun m n => ![n, m]⟩ : Mat (Fin 2 → ℝ)).rows ∨ (⟨2, 1, fun m _ => ![1, m]⟩ : Mat (Fin 2 → ℝ)).rows = 1 := .inl rfl
    obtain ⟨v, hv⟩ := indepVar_total (p := Example.indepPlane) hr rfl
    have hm := indepIdx_mem hr rfl hv
    have h0m : 0 ∈ indepIdx Example.indepPlane v := (hm 0).2 ⟨by norm_num, by
      simp only [Collapsed, variance, Example.indepPlane]
      norm_num [List.range_succ, Fin.sum_univ_two, Mat.bpos]⟩
    obtain ⟨y, hy⟩ := indepPerturb_total (p := Example.indepPlane) (root := env.sqrtK s₀.dt) (B := indepIdx Example.indepPlane v) (z := drawn 2 4 (ω (Nat.pair s₀.it 0)))
      (x := ⟨2, 4, fun m n => ![n, m]⟩) fun m h => ((hm m).1 h).1
    simp only [indepLoop, bind, Except.bind, hv, if_neg (List.ne_nil_of_mem h0m), hy]

end Verif
