import Verif.Proofs.Stable
import Mathlib.Tactic.IntervalCases
import Mathlib.Analysis.SpecialFunctions.Trigonometric.Basic

/-! Property C108: errors in the objective values. -/

set_option linter.unusedSectionVars false

namespace Verif

section
variable {V : Type} [NormedAddCommGroup V] [NormedSpace ℝ V]

/-- **C108 (consensus point).** CBO, any noise, any batches. Two dynamics which draw the same batches make a step from the same reachable state, with objectives `f` and `g` that differ by at most `δ` at
the particles of run `m`. If no two particles of the run are further apart than `D` then the recorded consensus points of the run differ by at most `(1 - exp(-2*alpha*δ)) * D`. -/
theorem C108_consensus (env env' : Env ℝ V) (f g : V → ℝ) (ν ν' : ℕ → ℝ → ℕ → ℕ → V → V) (p p' : V → V) (hE : Standard env f ν p) (hE' : Standard env' g ν' p')
    (hperm : env'.perm = env.perm) (a : Args ℝ V) (hb : a.batchSize ≠ some 0) (s₀ s s' t' : St ℝ V) (ops : List Op) (h0 : init env a = .ok s₀)
    (h : execAll env (cboInner env) ops s₀ = .ok s) (hs : step env (cboInner env) s = .ok s') (ht : step env' (cboInner env') s = .ok t') (m : ℕ) (hm : m ∈ s.active)
    (ha : 0 ≤ s.alpha m) (δ D : ℝ) (hδ : ∀ n < s.N, |f (s.x.get m n) - g (s.x.get m n)| ≤ δ) (hD : ∀ n < s.N, ∀ n' < s.N, ‖s.x.get m n - s.x.get m n'‖ ≤ D) :
    ∃ i cm cm', s.active.getD i 0 = m ∧ s'.cons = some cm ∧ t'.cons = some cm' ∧ ‖cm.get i 0 - cm'.get i 0‖ ≤ (1 - Real.exp (-(2 * s.alpha m * δ))) * D := by
  obtain ⟨hw, hbs⟩ := std_reach hE hb h0 h
  obtain ⟨i, c, r⟩ := runStep hE hw hbs hs m hm
  obtain ⟨i', c', r'⟩ := runStep hE' hw hbs ht m hm
  have hi : i' = i := getD_inj hw.nodup r'.pos r.pos (r'.act.trans r.act.symm)
  subst hi
  obtain ⟨cm, h1, h2⟩ := r.cons
  obtain ⟨cm', h1', h2'⟩ := r'.cons
  have fr := step_frame (by rw [cboInner_eq]; exact consThen_frame (cboMove_ok env)) hs
  have fr' := step_frame (by rw [cboInner_eq]; exact consThen_frame (cboMove_ok env')) ht
  have hidx : t'.cIdx = s'.cIdx := by rw [fr.cIdx, fr'.cIdx, preStep_perm_congr hperm]
  refine ⟨i', cm, cm', r.act, h1, h1', ?_⟩
  have hmem : ∀ j ∈ List.range s'.cIdx.cols, ∃ n < s.N, s.x.get (s'.cIdx.run i') (s'.cIdx.par i' j) = s.x.get m n := fun j hj => by
    obtain ⟨n, hn, e⟩ := r.mem _ (List.mem_map_of_mem hj)
    exact ⟨n, hn, (Prod.mk.inj e).2⟩
  have hne : List.range s'.cIdx.cols ≠ [] := fun h0 => r.ne (by unfold batchPairs; rw [h0]; rfl)
  rw [h2, h2', r.pairs, r'.pairs]
  unfold batchPairs
  rw [hidx]
  have := gibbs_shift (List.range s'.cIdx.cols) hne (fun j => f (s.x.get (s'.cIdx.run i') (s'.cIdx.par i' j))) (fun j => g (s.x.get (s'.cIdx.run i') (s'.cIdx.par i' j)))
    (fun j => s.x.get (s'.cIdx.run i') (s'.cIdx.par i' j)) (fun j => s.x.get (s'.cIdx.run i') (s'.cIdx.par i' j)) (η := δ) (ε := 0) (D := D) ha
    (fun j hj => by obtain ⟨n, hn, e⟩ := hmem j hj; simp only [e]; exact hδ n hn) (fun j _ => by simp)
    (fun j hj j' hj' => by
      obtain ⟨n, hn, e⟩ := hmem j hj
      obtain ⟨n', hn', e'⟩ := hmem j' hj'
      simp only [e, e']
      exact hD n hn n' hn')
  rwa [zero_add] at this

/-- **C108 (runs).** CBO without noise (`sigma = 0`, `0 ≤ lamda*dt ≤ 1`) and batches. Two dynamics with objectives `f` and `g` and the same parameters, each in a reachable state; run `m` is active in both, its particles lie in a
convex set `S` on which post processing does nothing, `f` is `L`-Lipschitz on `S`, `f` and `g` differ by at most `δ` on `S`. If corresponding particles are at most `ε` apart and the particles of the first ensemble at
most `D` from each other, then after `k` further steps corresponding particles are at most `exp(2*alpha*L*D*A) * (ε + 2*alpha*D*δ*A)` apart, `A = 1 - (1 - lamda*dt)^k`. -/
theorem C108_run (env env' : Env ℝ V) (f g : V → ℝ) (ν ν' : ℕ → ℝ → ℕ → ℕ → V → V) (p p' : V → V) (hE : Standard env f ν p) (hE' : Standard env' g ν' p')
    (a a' : Args ℝ V) (hb : a.batchSize ≠ some 0) (hb' : a'.batchSize ≠ some 0) (s₀ s s' t₀ t t' : St ℝ V) (ops ops' : List Op) (k : ℕ)
    (h0 : init env a = .ok s₀) (h : execAll env (cboInner env) ops s₀ = .ok s) (hs : execAll env (cboInner env) (List.replicate k .step) s = .ok s')
    (h0' : init env' a' = .ok t₀) (h' : execAll env' (cboInner env') ops' t₀ = .ok t) (ht : execAll env' (cboInner env') (List.replicate k .step) t = .ok t')
    (hn : NoiseFree s.sigma s.lamda s.dt) (m : ℕ) (hpar : t.sigma = s.sigma ∧ t.lamda = s.lamda ∧ t.dt = s.dt ∧ t.alpha m = s.alpha m ∧ t.N = s.N) (ha : 0 ≤ s.alpha m)
    (hnb : s.batched = false ∧ t.batched = false) (hm : m ∈ s.active ∧ m ∈ t.active) (S : Set V) (hS : Convex ℝ S) (hpS : ∀ v ∈ S, p v = v ∧ p' v = v)
    (hxS : ∀ n < s.N, s.x.get m n ∈ S ∧ t.x.get m n ∈ S) (L δ ε D : ℝ) (hL0 : 0 ≤ L) (hL : ∀ u ∈ S, ∀ v ∈ S, |f u - f v| ≤ L * ‖u - v‖) (hδ : ∀ u ∈ S, |f u - g u| ≤ δ)
    (hε : ∀ n < s.N, ‖s.x.get m n - t.x.get m n‖ ≤ ε) (hD : ∀ n < s.N, ∀ n' < s.N, ‖s.x.get m n - s.x.get m n'‖ ≤ D) :
    ∀ n < s.N, ‖s'.x.get m n - t'.x.get m n‖ ≤
      Real.exp (2 * s.alpha m * L * D * (1 - (1 - s.lamda * s.dt) ^ k)) * (ε + 2 * s.alpha m * D * δ * (1 - (1 - s.lamda * s.dt) ^ k)) := by
  obtain ⟨hw, hbs⟩ := std_reach hE hb h0 h
  obtain ⟨hw', hbs'⟩ := std_reach hE' hb' h0' h'
  obtain ⟨p1, p2, p3, p4, p5⟩ := hpar
  have hδ0 : 0 ≤ δ := (abs_nonneg _).trans (hδ _ (hxS 0 hw.pos).1)
  exact stable_steps hE hE' hS (fun v hv => (hpS v hv).1) (fun v hv => (hpS v hv).2) hL0 hδ0 hL hδ k hw hw' hbs hbs' hn p1 p2 p3 p4 ha p5 hnb.1 hnb.2 hm.1 hm.2
    (fun n hn => (hxS n hn).1) (fun n hn => (hxS n hn).2) hε hD hs ht

/-- **C108 (uniform in time).** Under the same conditions: however many steps are made, corresponding particles stay at most `exp(2*alpha*L*D) * (ε + 2*alpha*D*δ)` apart. -/
theorem C108_uniform (env env' : Env ℝ V) (f g : V → ℝ) (ν ν' : ℕ → ℝ → ℕ → ℕ → V → V) (p p' : V → V) (hE : Standard env f ν p) (hE' : Standard env' g ν' p')
    (a a' : Args ℝ V) (hb : a.batchSize ≠ some 0) (hb' : a'.batchSize ≠ some 0) (s₀ s s' t₀ t t' : St ℝ V) (ops ops' : List Op) (k : ℕ)
    (h0 : init env a = .ok s₀) (h : execAll env (cboInner env) ops s₀ = .ok s) (hs : execAll env (cboInner env) (List.replicate k .step) s = .ok s')
    (h0' : init env' a' = .ok t₀) (h' : execAll env' (cboInner env') ops' t₀ = .ok t) (ht : execAll env' (cboInner env') (List.replicate k .step) t = .ok t')
    (hn : NoiseFree s.sigma s.lamda s.dt) (m : ℕ) (hpar : t.sigma = s.sigma ∧ t.lamda = s.lamda ∧ t.dt = s.dt ∧ t.alpha m = s.alpha m ∧ t.N = s.N) (ha : 0 ≤ s.alpha m)
    (hnb : s.batched = false ∧ t.batched = false) (hm : m ∈ s.active ∧ m ∈ t.active) (S : Set V) (hS : Convex ℝ S) (hpS : ∀ v ∈ S, p v = v ∧ p' v = v)
    (hxS : ∀ n < s.N, s.x.get m n ∈ S ∧ t.x.get m n ∈ S) (L δ ε D : ℝ) (hL0 : 0 ≤ L) (hL : ∀ u ∈ S, ∀ v ∈ S, |f u - f v| ≤ L * ‖u - v‖) (hδ : ∀ u ∈ S, |f u - g u| ≤ δ)
    (hε : ∀ n < s.N, ‖s.x.get m n - t.x.get m n‖ ≤ ε) (hD : ∀ n < s.N, ∀ n' < s.N, ‖s.x.get m n - s.x.get m n'‖ ≤ D) :
    ∀ n < s.N, ‖s'.x.get m n - t'.x.get m n‖ ≤ Real.exp (2 * s.alpha m * L * D) * (ε + 2 * s.alpha m * D * δ) := by
  intro n hn'
  refine (C108_run env env' f g ν ν' p p' hE hE' a a' hb hb' s₀ s s' t₀ t t' ops ops' k h0 h hs h0' h' ht hn m hpar ha hnb hm S hS hpS hxS L δ ε D hL0 hL hδ hε hD n hn').trans ?_
  have hε0 : 0 ≤ ε := (norm_nonneg _).trans (hε n hn')
  have hD0 : 0 ≤ D := (norm_nonneg _).trans (hD n hn' n hn')
  have hδ0 : 0 ≤ δ := (abs_nonneg _).trans (hδ _ (hxS n hn').1)
  have h1 : 0 ≤ 1 - s.lamda * s.dt := by linarith [hn.2.2]
  have hA : 1 - (1 - s.lamda * s.dt) ^ k ≤ 1 := by linarith [pow_nonneg h1 k]
  have hA0 : 0 ≤ 1 - (1 - s.lamda * s.dt) ^ k := by linarith [pow_le_one₀ h1 (by linarith [hn.2.1] : 1 - s.lamda * s.dt ≤ 1) (n := k)]
  refine mul_le_mul (Real.exp_le_exp.2 (mul_le_of_le_one_right (by positivity) hA)) ?_ (by positivity) (Real.exp_pos _).le
  have := mul_le_of_le_one_right (by positivity : 0 ≤ 2 * s.alpha m * D * δ) hA
  linarith

end

/-- The dynamic of the examples with the objective `|v|² + cos(v_0)/100`. -/
noncomputable def Example.cosEnv : Env ℝ (Fin 2 → ℝ) := { Example.realEnv (rowNoise isoRule Example.smp) with f := fun v => .fin (v 0 ^ 2 + v 1 ^ 2 + Real.cos (v 0) / 100) }

theorem Example.cosEnv_standard : Standard Example.cosEnv (fun v => v 0 ^ 2 + v 1 ^ 2 + Real.cos (v 0) / 100)
    (fun c dt i j d => Real.sqrt dt • isoRule d (Example.smp c i j)) (clipVec 100) :=
  let h := Example.realEnv_standard isoRule
  ⟨rfl, rfl, h.noise, h.post, h.perm, fun _ => rfl⟩

theorem Example.cosEnv_runs (x : ℕ → ℕ → Fin 2 → ℝ) (sigma : ℝ) (b : Option ℕ) :
    ∃ s₀, init Example.cosEnv (Example.realArgs x sigma b) = .ok s₀ ∧ ∀ ops : List Op, ∃ s, execAll Example.cosEnv (cboInner Example.cosEnv) ops s₀ = .ok s := by
  obtain ⟨s₀, h0, h1⟩ := C19_never_raises_partial Example.cosEnv
    ⟨rfl, ⟨_, rfl⟩, Example.cosEnv_standard.noise.ok, fun s => ⟨_, rfl, rfl, rfl⟩, fun s => ⟨_, rfl⟩⟩ Example.cosEnv_standard.perm
    (Example.realArgs x sigma b) (by simp [Example.realArgs]) (by simp [Example.realArgs]) (by
      intro tm ht
      simp only [Example.realArgs, List.mem_cons, List.not_mem_nil, or_false] at ht
      rcases ht with rfl | rfl <;> trivial) (fun h => by cases h)
  exact ⟨s₀, h0, fun ops => let ⟨s, h, _⟩ := h1 ops (fun h => by cases h); ⟨s, h⟩⟩

theorem Example.cos_close (u : Fin 2 → ℝ) : |(u 0 ^ 2 + u 1 ^ 2) - (u 0 ^ 2 + u 1 ^ 2 + Real.cos (u 0) / 100)| ≤ 1 / 100 := by
  rw [abs_le]
  constructor <;> linarith [Real.cos_le_one (u 0), Real.neg_one_le_cos (u 0)]

theorem Example.unit_diam (u v : Fin 2 → ℝ) (hu : u ∈ Set.Icc (0 : Fin 2 → ℝ) 1) (hv : v ∈ Set.Icc (0 : Fin 2 → ℝ) 1) : ‖u - v‖ ≤ 1 := by
  refine (pi_norm_le_iff_of_nonneg zero_le_one).2 fun i => ?_
  have h1 := hu.1 i
  have h2 := hu.2 i
  have h3 := hv.1 i
  have h4 := hv.2 i
  simp only [Pi.zero_apply, Pi.one_apply] at h1 h2 h3 h4
  rw [Real.norm_eq_abs, Pi.sub_apply, abs_le]
  constructor <;> linarith

theorem Example.square_lip (u v : Fin 2 → ℝ) (hu : u ∈ Set.Icc (0 : Fin 2 → ℝ) 1) (hv : v ∈ Set.Icc (0 : Fin 2 → ℝ) 1) :
    |(u 0 ^ 2 + u 1 ^ 2) - (v 0 ^ 2 + v 1 ^ 2)| ≤ 4 * ‖u - v‖ := by
  have key : ∀ i, |u i ^ 2 - v i ^ 2| ≤ 2 * ‖u - v‖ := fun i => by
    have h1 := hu.1 i
    have h2 := hu.2 i
    have h3 := hv.1 i
    have h4 := hv.2 i
    simp only [Pi.zero_apply, Pi.one_apply] at h1 h2 h3 h4
    have h5 : |u i - v i| ≤ ‖u - v‖ := norm_le_pi_norm (u - v) i
    have e : u i ^ 2 - v i ^ 2 = (u i + v i) * (u i - v i) := by ring
    rw [e, abs_mul, abs_of_nonneg (by linarith : 0 ≤ u i + v i)]
    exact mul_le_mul (by linarith) h5 (abs_nonneg _) (by norm_num)
  have e : (u 0 ^ 2 + u 1 ^ 2) - (v 0 ^ 2 + v 1 ^ 2) = (u 0 ^ 2 - v 0 ^ 2) + (u 1 ^ 2 - v 1 ^ 2) := by ring
  rw [e]
  exact (abs_add_le _ _).trans (by linarith [key 0, key 1])

theorem Example.start_unit (m n : ℕ) : (![1 / ((n : ℝ) + m + 1), 1 / (n + 1)] : Fin 2 → ℝ) ∈ Set.Icc (0 : Fin 2 → ℝ) 1 := by
  have h3 : (1 : ℝ) ≤ n + m + 1 := by have := Nat.cast_nonneg (α := ℝ) n; have := Nat.cast_nonneg (α := ℝ) m; linarith
  have h4 : (1 : ℝ) ≤ n + 1 := by have := Nat.cast_nonneg (α := ℝ) n; linarith
  constructor <;> intro i <;> fin_cases i <;> simp
  · positivity
  · positivity
  · exact inv_le_one_of_one_le₀ h3
  · exact inv_le_one_of_one_le₀ h4

/-- C108 (runs): the objectives `|v|²` and `|v|² + cos(v_0)/100`, two runs of four particles in the unit square, no noise: all steps succeed and corresponding particles stay within `exp(24) * 6/100`. -/
example (k : ℕ) :
    let env := Example.realEnv (rowNoise isoRule Example.smp)
    let a := Example.realArgs (fun m n => ![1 / (n + m + 1), 1 / (n + 1)]) 0 none
    ∃ s₀ s t₀ t, init env a = .ok s₀ ∧ execAll env (cboInner env) (List.replicate k .step) s₀ = .ok s ∧ init Example.cosEnv a = .ok t₀ ∧
      execAll Example.cosEnv (cboInner Example.cosEnv) (List.replicate k .step) t₀ = .ok t ∧ ∀ n < 4, ‖s.x.get 1 n - t.x.get 1 n‖ ≤ Real.exp 24 * (6 / 100) := by
  intro env a
  obtain ⟨s₀, h0, h1⟩ := Example.realEnv_runs isoRule (fun m n => ![1 / ((n : ℝ) + m + 1), 1 / (n + 1)]) 0 none
  obtain ⟨t₀, h0', h1'⟩ := Example.cosEnv_runs (fun m n => ![1 / ((n : ℝ) + m + 1), 1 / (n + 1)]) 0 none
  obtain ⟨s, hs⟩ := h1 (List.replicate k .step)
  obtain ⟨t, ht⟩ := h1' (List.replicate k .step)
  refine ⟨s₀, s, t₀, t, h0, hs, h0', ht, ?_⟩
  have e : ∀ {env : Env ℝ (Fin 2 → ℝ)} {s : St ℝ (Fin 2 → ℝ)}, init env a = .ok s → s.x = a.x0 ∧ s.N = 4 ∧ s.sigma = 0 ∧ s.lamda = 1 ∧ s.dt = 1 / 10 ∧ s.alpha 1 = 3 ∧
      s.batched = false ∧ s.active = [0, 1] := by
    intro env s h
    unfold init at h
    split_ifs at h
    all_goals
      injection h with h
      subst h
      exact ⟨rfl, rfl, rfl, rfl, rfl, rfl, rfl, rfl⟩
  obtain ⟨a1, a2, a3, a4, a5, a6, a7, a8⟩ := e h0
  obtain ⟨b1, b2, b3, b4, b5, b6, b7, b8⟩ := e h0'
  have hbox : ∀ v ∈ Set.Icc (0 : Fin 2 → ℝ) 1, clipVec 100 v = v := by
    intro v hv
    refine clipVec_id 100 v fun i => ⟨?_, ?_⟩
    · have := hv.1 i; simp only [Pi.zero_apply] at this; linarith
    · have := hv.2 i; simp only [Pi.one_apply] at this; linarith
  have hst : ∀ n, a.x0.get 1 n ∈ Set.Icc (0 : Fin 2 → ℝ) 1 := fun n => Example.start_unit 1 n
  have key := C108_uniform env Example.cosEnv _ _ _ _ _ _ (Example.realEnv_standard isoRule) Example.cosEnv_standard a a (by simp [a, Example.realArgs])
    (by simp [a, Example.realArgs]) s₀ s₀ s t₀ t₀ t [] [] k h0 rfl hs h0' rfl ht (by rw [a3, a4, a5]; exact ⟨rfl, by norm_num, by norm_num⟩) 1
    (by rw [a2, a3, a4, a5, a6, b2, b3, b4, b5, b6]; exact ⟨rfl, rfl, rfl, rfl, rfl⟩) (by rw [a6]; norm_num) ⟨a7, b7⟩ (by rw [a8, b8]; simp) (Set.Icc 0 1) (convex_Icc 0 1)
    (fun v hv => ⟨hbox v hv, hbox v hv⟩) (fun n _ => by rw [a1, b1]; exact ⟨hst n, hst n⟩) 4 (1 / 100) 0 1 (by norm_num) (fun u hu v hv => Example.square_lip u v hu hv)
    (fun u _ => Example.cos_close u) (fun n _ => by rw [a1, b1]; simp) (fun n _ n' _ => by rw [a1]; exact Example.unit_diam _ _ (hst n) (hst n'))
  rw [a2, a6] at key
  intro n hn
  refine (key n hn).trans (le_of_eq ?_)
  norm_num

/-- C108 (consensus point): the same two objectives with noise and batches of three of the four particles, one step. -/
example :
    let env := Example.realEnv (rowNoise isoRule Example.smp)
    let a := Example.realArgs (fun m n => ![1 / (n + m + 1), 1 / (n + 1)]) 3 (some 3)
    ∃ s₀ s t i cm cm', init env a = .ok s₀ ∧ step env (cboInner env) s₀ = .ok s ∧ step Example.cosEnv (cboInner Example.cosEnv) s₀ = .ok t ∧ s₀.active.getD i 0 = 1 ∧
      s.cons = some cm ∧ t.cons = some cm' ∧ ‖cm.get i 0 - cm'.get i 0‖ ≤ 1 - Real.exp (-(6 / 100)) := by
  intro env a
  obtain ⟨s₀, h0, h1⟩ := Example.realEnv_runs isoRule (fun m n => ![1 / ((n : ℝ) + m + 1), 1 / (n + 1)]) 3 (some 3)
  obtain ⟨s, hs⟩ := h1 [.step]
  have e : ∀ {env : Env ℝ (Fin 2 → ℝ)} {s : St ℝ (Fin 2 → ℝ)}, init env a = .ok s → s.x = a.x0 ∧ s.N = 4 ∧ s.alpha 1 = 3 ∧ s.active = [0, 1] ∧ s.saveInt = 2 := by
    intro env s h
    unfold init at h
    split_ifs at h
    all_goals
      injection h with h
      subst h
      exact ⟨rfl, rfl, rfl, rfl, rfl⟩
  obtain ⟨a1, a2, a3, a4, a5⟩ := e h0
  have hs' : step env (cboInner env) s₀ = .ok s := by simpa [execAll, exec, bind_ok] using hs
  have ht' : ∃ t, step Example.cosEnv (cboInner Example.cosEnv) s₀ = .ok t :=
    cboStep_total ⟨rfl, ⟨_, rfl⟩, Example.cosEnv_standard.noise.ok, fun s => ⟨_, rfl, rfl, rfl⟩, fun s => ⟨_, rfl⟩⟩ Example.cosEnv_standard.perm
      (std_reach (Example.realEnv_standard isoRule) (by simp [Example.realArgs]) h0 (ops := []) rfl).1 (by rw [a5]; decide) (fun h => by cases h)
  obtain ⟨t, ht⟩ := ht'
  have hst : ∀ n, a.x0.get 1 n ∈ Set.Icc (0 : Fin 2 → ℝ) 1 := fun n => Example.start_unit 1 n
  obtain ⟨i, cm, cm', k1, k2, k3, k4⟩ := C108_consensus env Example.cosEnv _ _ _ _ _ _ (Example.realEnv_standard isoRule) Example.cosEnv_standard rfl a
    (by simp [a, Example.realArgs]) s₀ s₀ s t [] h0 rfl hs' ht 1 (by rw [a4]; simp) (by rw [a3]; norm_num) (1 / 100) 1 (fun n _ => Example.cos_close _)
    (fun n _ n' _ => by rw [a1]; exact Example.unit_diam _ _ (hst n) (hst n'))
  refine ⟨s₀, s, t, i, cm, cm', h0, hs', ht, k1, k2, k3, k4.trans (le_of_eq ?_)⟩
  rw [a3]
  norm_num

end Verif
