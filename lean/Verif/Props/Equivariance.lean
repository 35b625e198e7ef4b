import Verif.Proofs.Equivariance
import Verif.Spec.ExampleReal
import Verif.Props.Hull
import Verif.Model.Correction

/-! # C25: CBO commutes with translations and scalings of the space -/

set_option linter.unusedSectionVars false

namespace Verif

section
variable {ι : Type} [Fintype ι]

/-- The dynamic with the objective moved by `b`: `v ↦ f (v - b)`. -/
def movedEnv (env : Env ℝ (ι → ℝ)) (b : ι → ℝ) : Env ℝ (ι → ℝ) := { env with f := fun v => env.f (v - b) }

/-- The dynamic with the argument of the objective scaled by `c` and a given post processing: `v ↦ f (v / c)`. -/
noncomputable def scaledEnv (env : Env ℝ (ι → ℝ)) (c : ℝ) (p : (ι → ℝ) → ι → ℝ) : Env ℝ (ι → ℝ) :=
  { env with f := fun v => env.f (c⁻¹ • v), post := fun s => .ok (s.x.map p) }

/-- **C25 (translations), partial.** A CBO dynamic with the default consensus rule, a finite objective, any of the row-wise noise models (isotropic, anisotropic, constant: `rule`) with any random
numbers, started at an ensemble and, with the same random numbers, at the ensemble and the objective moved by `b`: after every sequence of operations both have raised the same exception, or the
second state is the first moved by `b` — ensemble, consensus, best particles and recorded positions are moved, while energies, drifts, parameters, running sets, counters and stopping reasons
are the same. All drift corrections that can be selected by name are allowed (`C25_corrections`). Missing: post processing has to commute with the translation (`hpb`); the default clips at `±max_thresh` and does not, see `C25_clip_false` and `C25_inside_partial`. Custom criteria and the
parameter schedule must not look at absolute positions. -/
theorem C25_translation_partial (env : Env ℝ (ι → ℝ)) (rule : (ι → ℝ) → (ι → ℝ) → ι → ℝ) (smp : ℕ → ℕ → ℕ → ι → ℝ) (f : (ι → ℝ) → ℝ) (p : (ι → ℝ) → ι → ℝ) (b : ι → ℝ)
    (hcons : env.cons = .mean consDefault) (hcorr : CorrSym (· + b) id id env.corr) (hnoise : env.noise = rowNoise rule smp) (hf : ∀ v, env.f v = .fin (f v)) (hperm : PermOK env)
    (hpost : PostMap env p) (hpb : ∀ v, p (v + b) = p v + b) (hnorm : ∀ l, env.normDiff (l.map fun q => (q.1 + b, q.2 + b)) = env.normDiff l)
    (hcustom : ∀ i s t, Image (· + b) id id s t → env.custom i t = env.custom i s) (hsched : ∀ s t, Image (· + b) id id s t → env.sched t = env.sched s)
    (a : Args ℝ (ι → ℝ)) (hb : a.batchSize ≠ some 0) (ops : List Op) :
    ExRel (Image (· + b) id id) (do let s ← init env a; execAll env (cboInner env) ops s)
      (do let s ← init (movedEnv env b) { a with x0 := a.x0.map (· + b) }; execAll (movedEnv env b) (cboInner (movedEnv env b)) ops s) := by
  have hsym : EnvSym (· + b) id id env (movedEnv env b) :=
    { sub := fun u v => by simp
      add := fun v u => by simp only [id]; abel
      upd := fun _ _ _ _ => rfl
      f := fun v => by simp [movedEnv]
      cons := ⟨_, _, hcons, hcons, fun l hl hlf => consDefault_shift b l hl fun q hq => by
        obtain ⟨v, hv⟩ := hlf q hq
        exact ⟨f v, by rw [hv, hf]⟩⟩
      noise := by
        intro s t h
        have e : (movedEnv env b).noise = rowNoise rule smp := hnoise
        rw [hnoise, e]
        unfold rowNoise
        rw [h.drift]
        cases s.drift with
        | none => rfl
        | some d =>
          simp only [Option.map_some, h.params.2.2.2, h.count.2.2.2.2.2]
          rfl
      corr := ⟨rfl, hcorr⟩
      post := by
        intro s t h
        have e : (movedEnv env b).post t = .ok (t.x.map p) := hpost t
        rw [hpost, e, h.x]
        simp only [ExRel, map_map_mat, hpb]
      norm := hnorm
      inf := rfl
      lt := fun _ _ => rfl
      sqrtK := rfl
      empty := rfl
      perm := rfl
      custom := hcustom
      sched := hsched }
  have hid : a.terms.map (Term.image id) = a.terms := by
    have : (Term.image id : Term ℝ → Term ℝ) = id := by
      funext t
      cases t <;> rfl
    rw [this, List.map_id]
  refine run_image hsym ?_ hperm a _ ?_ hb ops
  · intro s x' hx
    rw [hpost] at hx
    injection hx with hx
    subst hx
    exact ⟨rfl, rfl⟩
  · rw [hid]

/-- **C25 (scalings).** Scaling the ensemble and the argument of the objective by `c ≠ 0`, the clipping bound and the tolerances of the update norm by `|c|`, scales every later state by `c`, for every noise rule with
`rule (c d) z = c (rule d z)`, all random numbers and all sequences of operations. Post processing has to be scaled too (`hpc`), as the default clipping is by scaling its bound. -/
theorem C25_scaling (env : Env ℝ (ι → ℝ)) (rule : (ι → ℝ) → (ι → ℝ) → ι → ℝ) (smp : ℕ → ℕ → ℕ → ι → ℝ) (p p' : (ι → ℝ) → ι → ℝ) (c : ℝ) (hc : c ≠ 0)
    (hrule : ∀ d z, rule (c • d) z = c • rule d z)
    (hcons : env.cons = .mean consDefault) (hcorr : CorrSym (c • ·) (c • ·) (Flt.mul (.fin |c|)) env.corr) (hnoise : env.noise = rowNoise rule smp) (hperm : PermOK env)
    (hpost : PostMap env p) (hpc : ∀ v, p' (c • v) = c • p v) (hnorm : ∀ l, env.normDiff (l.map fun q => (c • q.1, c • q.2)) = Flt.mul (.fin |c|) (env.normDiff l))
    (hcustom : ∀ i s t, Image (c • ·) (c • ·) (Flt.mul (.fin |c|)) s t → env.custom i t = env.custom i s)
    (hsched : ∀ s t, Image (c • ·) (c • ·) (Flt.mul (.fin |c|)) s t → env.sched t = env.sched s)
    (a : Args ℝ (ι → ℝ)) (hb : a.batchSize ≠ some 0) (ops : List Op) :
    ExRel (Image (c • ·) (c • ·) (Flt.mul (.fin |c|))) (do let s ← init env a; execAll env (cboInner env) ops s)
      (do
        let s ← init (scaledEnv env c p') { a with x0 := a.x0.map (c • ·), terms := a.terms.map (Term.image (Flt.mul (.fin |c|))) }
        execAll (scaledEnv env c p') (cboInner (scaledEnv env c p')) ops s) := by
  have hcp : 0 < |c| := abs_pos.2 hc
  have hsym : EnvSym (c • ·) (c • ·) (Flt.mul (.fin |c|)) env (scaledEnv env c p') :=
    { sub := fun u v => (smul_sub c u v).symm
      add := fun v u => smul_add c v u
      upd := fun x y d n => by simp only [smul_add, smul_comm c]
      f := fun v => by simp [scaledEnv, smul_smul, inv_mul_cancel₀ hc]
      cons := ⟨_, _, hcons, hcons, fun l _ _ => consDefault_scale c l⟩
      noise := by
        intro s t h
        have e : (scaledEnv env c p').noise = rowNoise rule smp := hnoise
        rw [hnoise, e]
        unfold rowNoise
        rw [h.drift]
        cases s.drift with
        | none => rfl
        | some d =>
          simp only [Option.map_some, h.params.2.2.2, h.count.2.2.2.2.2, ExRel, Mat.map, hrule]
          simp only [smul_comm c]
      corr := ⟨rfl, hcorr⟩
      post := by
        intro s t h
        have e : (scaledEnv env c p').post t = .ok (t.x.map p') := rfl
        rw [hpost, e, h.x]
        simp only [ExRel, map_map_mat, hpc]
      norm := hnorm
      inf := by simp [Flt.mul, Flt.infTimes, hcp]
      lt := by
        intro u tol
        cases u <;> cases tol <;> simp [Flt.mul, Flt.infTimes, Flt.neg, Flt.lt, hcp]
      sqrtK := rfl
      empty := rfl
      perm := rfl
      custom := hcustom
      sched := hsched }
  refine run_image hsym ?_ hperm a _ rfl hb ops
  intro s x' hx
  rw [hpost] at hx
  injection hx with hx
  subst hx
  exact ⟨rfl, rfl⟩

/-- All the drift corrections one can select by name commute with translations and scalings. -/
theorem C25_corrections (name : String) (eps : ℝ) (corr : Corr ℝ (ι → ℝ)) (h : getCorrection name eps = .ok corr) (κ : Flt ℝ → Flt ℝ) :
    (∀ b, CorrSym (· + b) id κ corr) ∧ ∀ c : ℝ, CorrSym (c • ·) (c • ·) κ corr := by
  unfold getCorrection at h
  split_ifs at h <;> injection h with h <;> subst h
  · exact ⟨fun _ => trivial, fun _ => trivial⟩
  · exact ⟨fun _ _ _ => rfl, fun c z v => smul_comm _ c v⟩
  · exact ⟨fun _ _ _ => rfl, fun c z v => smul_comm _ c v⟩

/-- The anisotropic rule commutes with every scaling, the isotropic one with positive scalings. -/
theorem C25_rules (c : ℝ) (d z : ι → ℝ) : anisoRule (c • d) z = c • anisoRule d z ∧ (0 ≤ c → isoRule (c • d) z = c • isoRule d z) := by
  constructor
  · funext i
    simp [anisoRule]
    ring
  · intro hc
    funext i
    simp only [isoRule, euclid, Pi.smul_apply, smul_eq_mul, mul_pow, ← Finset.mul_sum]
    rw [Real.sqrt_mul (sq_nonneg c), Real.sqrt_sq hc]
    ring

/-- **C25 (scalings, defaults).** The default post processing: scaling ensemble, objective argument and `max_thresh` by `c` scales every later state; `c ≠ 0` for anisotropic noise. -/
theorem C25_scaling_anisotropic (env : Env ℝ (ι → ℝ)) (smp : ℕ → ℕ → ℕ → ι → ℝ) (T c : ℝ) (hT : 0 ≤ T) (hc : c ≠ 0)
    (hcons : env.cons = .mean consDefault) (hcorr : ∃ name eps, getCorrection name eps = .ok env.corr) (hnoise : env.noise = rowNoise anisoRule smp) (hperm : PermOK env)
    (hpost : env.post = postFinite T) (hnorm : ∀ l, env.normDiff (l.map fun q => (c • q.1, c • q.2)) = Flt.mul (.fin |c|) (env.normDiff l))
    (hcustom : ∀ i s t, Image (c • ·) (c • ·) (Flt.mul (.fin |c|)) s t → env.custom i t = env.custom i s)
    (hsched : ∀ s t, Image (c • ·) (c • ·) (Flt.mul (.fin |c|)) s t → env.sched t = env.sched s)
    (a : Args ℝ (ι → ℝ)) (hb : a.batchSize ≠ some 0) (ops : List Op) :
    ExRel (Image (c • ·) (c • ·) (Flt.mul (.fin |c|))) (do let s ← init env a; execAll env (cboInner env) ops s)
      (do
        let s ← init (scaledEnv env c (clipVec (|c| * T))) { a with x0 := a.x0.map (c • ·), terms := a.terms.map (Term.image (Flt.mul (.fin |c|))) }
        execAll (scaledEnv env c (clipVec (|c| * T))) (cboInner (scaledEnv env c (clipVec (|c| * T)))) ops s) :=
  C25_scaling env anisoRule smp (clipVec T) (clipVec (|c| * T)) c hc (fun d z => (C25_rules c d z).1) hcons (hcorr.elim fun n he => he.elim fun e he => (C25_corrections n e _ he _).2 c) hnoise hperm (fun s => by rw [hpost]; rfl)
    (clip_scale c T hT) hnorm hcustom hsched a hb ops

/-- The same for isotropic noise and `c > 0`. -/
theorem C25_scaling_isotropic (env : Env ℝ (ι → ℝ)) (smp : ℕ → ℕ → ℕ → ι → ℝ) (T c : ℝ) (hT : 0 ≤ T) (hc : 0 < c)
    (hcons : env.cons = .mean consDefault) (hcorr : ∃ name eps, getCorrection name eps = .ok env.corr) (hnoise : env.noise = rowNoise isoRule smp) (hperm : PermOK env)
    (hpost : env.post = postFinite T) (hnorm : ∀ l, env.normDiff (l.map fun q => (c • q.1, c • q.2)) = Flt.mul (.fin |c|) (env.normDiff l))
    (hcustom : ∀ i s t, Image (c • ·) (c • ·) (Flt.mul (.fin |c|)) s t → env.custom i t = env.custom i s)
    (hsched : ∀ s t, Image (c • ·) (c • ·) (Flt.mul (.fin |c|)) s t → env.sched t = env.sched s)
    (a : Args ℝ (ι → ℝ)) (hb : a.batchSize ≠ some 0) (ops : List Op) :
    ExRel (Image (c • ·) (c • ·) (Flt.mul (.fin |c|))) (do let s ← init env a; execAll env (cboInner env) ops s)
      (do
        let s ← init (scaledEnv env c (clipVec (|c| * T))) { a with x0 := a.x0.map (c • ·), terms := a.terms.map (Term.image (Flt.mul (.fin |c|))) }
        execAll (scaledEnv env c (clipVec (|c| * T))) (cboInner (scaledEnv env c (clipVec (|c| * T)))) ops s) :=
  C25_scaling env isoRule smp (clipVec T) (clipVec (|c| * T)) c hc.ne' (fun d z => (C25_rules c d z).2 hc.le) hcons (hcorr.elim fun n he => he.elim fun e he => (C25_corrections n e _ he _).2 c) hnoise hperm (fun s => by rw [hpost]; rfl)
    (clip_scale c T hT) hnorm hcustom hsched a hb ops

/-- **C25 (translations, default post processing), partial.** With the default clipping at `±T`: as long as all particles, in their original and in their moved positions, stay strictly inside the clipping bounds after every operation,
the moved dynamic performs the moved execution. (`hpad` concerns the model's values outside the shape of the array, which NumPy does not have.) -/
theorem C25_inside_partial (env : Env ℝ (ι → ℝ)) (rule : (ι → ℝ) → (ι → ℝ) → ι → ℝ) (smp : ℕ → ℕ → ℕ → ι → ℝ) (f : (ι → ℝ) → ℝ) (T : ℝ) (b : ι → ℝ)
    (hcons : env.cons = .mean consDefault) (hcorr : CorrSym (· + b) id id env.corr) (hnoise : env.noise = rowNoise rule smp) (hf : ∀ v, env.f v = .fin (f v)) (hperm : PermOK env)
    (hpost : env.post = postFinite T) (hnorm : ∀ l, env.normDiff (l.map fun q => (q.1 + b, q.2 + b)) = env.normDiff l)
    (hcustom : ∀ i s t, Image (· + b) id id s t → env.custom i t = env.custom i s) (hsched : ∀ s t, Image (· + b) id id s t → env.sched t = env.sched s)
    (a : Args ℝ (ι → ℝ)) (hb : a.batchSize ≠ some 0) (ops : List Op) (s₀ s : St ℝ (ι → ℝ)) (h₀ : init env a = .ok s₀) (hs : execAll env (cboInner env) ops s₀ = .ok s)
    (hin' : ∀ l, l <+: ops → ∀ q, execAll env (cboInner env) l s₀ = .ok q → ∀ i < q.M, ∀ j < q.N, ∀ k, |q.x.get i j k| < T ∧ |q.x.get i j k + b k| < T)
    (hpad : ∀ i j, ¬ (i < a.x0.rows ∧ j < a.x0.cols) → ∀ k, |a.x0.get i j k| < T ∧ |a.x0.get i j k + b k| < T) :
    ∃ t₀ t, init (movedEnv env b) { a with x0 := a.x0.map (· + b) } = .ok t₀ ∧ execAll (movedEnv env b) (cboInner (movedEnv env b)) ops t₀ = .ok t ∧
      Image (· + b) id id s₀ t₀ ∧ Image (· + b) id id s t := by
  have e0 : s₀.x = a.x0 ∧ s₀.M = a.x0.rows ∧ s₀.N = a.x0.cols := by
    have h0' := h₀
    unfold init at h0'
    split_ifs at h0'
    all_goals
      injection h0' with h0'
      subst h0'
      exact ⟨rfl, rfl, rfl⟩
  have hpm : PostMap env (clipVec T) := fun s => by rw [hpost]; rfl
  have hin : ∀ l, l <+: ops → ∀ q, execAll env (cboInner env) l s₀ = .ok q → ∀ i j k, |q.x.get i j k| < T ∧ |q.x.get i j k + b k| < T := by
    intro l hl q hq i j k
    have hMN : q.M = s₀.M ∧ q.N = s₀.N := by
      have hq' := hq
      rw [cboInner_eq] at hq'
      refine (execAll_induct (cboMove_ok env) hpm.ok hperm (P := fun q => q.M = s₀.M ∧ q.N = s₀.N) ?_ l s₀ q (init_wf hperm h₀) ⟨rfl, rfl⟩ hq').2
      rintro o q q' _ ⟨h1, h2⟩ he
      obtain ⟨-, e1, e2⟩ := exec_bs (consThen_frame (cboMove_ok env)) he
      exact ⟨by rw [e1, h1], by rw [e2, h2]⟩
    by_cases hij : i < s₀.M ∧ j < s₀.N
    · exact hin' l hl q hq i (by rw [hMN.1]; exact hij.1) j (by rw [hMN.2]; exact hij.2) k
    · have hpd := hpad i j (by rw [← e0.2.1, ← e0.2.2]; exact hij)
      rw [pad_const hpm hperm (init_wf hperm h₀) hq hij (by rw [e0.1]; exact clip_inside fun k => (hpd k).1), e0.1]
      exact hpd k
  -- the same dynamic without clipping
  have hfree : ∀ l, l <+: ops → ∀ q, execAll env (cboInner env) l s₀ = .ok q →
      execAll { env with post := fun s => .ok s.x } (cboInner { env with post := fun s => .ok s.x }) l s₀ = .ok q := by
    intro l hl q hq
    refine execAll_swap_post l hq ?_
    intro l' o hl' q' hq' v hv
    rw [hpost] at hv
    simp only [postFinite] at hv
    injection hv with hv
    have hbd := hin _ (hl'.trans hl) q' hq'
    rw [← hv]
    congr 1
    have e : (v.x.map (clipVec T)) = v.x := by
      have : ∀ i j, clipVec T (v.x.get i j) = v.x.get i j := by
        intro i j
        apply clip_fixed
        intro k
        have := (hbd i j k).1
        rw [← hv] at this
        exact this
      unfold Mat.map
      simp only [this]
    rw [e]
  have htr : ∀ l, l <+: ops → ExRel (Image (· + b) id id) (do let s ← init env a; execAll { env with post := fun s => .ok s.x } (cboInner { env with post := fun s => .ok s.x }) l s)
      (do let s ← init (movedEnv env b) { a with x0 := a.x0.map (· + b) }
          execAll (movedEnv { env with post := fun s => .ok s.x } b) (cboInner (movedEnv { env with post := fun s => .ok s.x } b)) l s) := by
    intro l hl
    exact C25_translation_partial { env with post := fun s => .ok s.x } rule smp f id b hcons hcorr hnoise hf hperm (fun _ => rfl) (fun _ => rfl) hnorm hcustom hsched a hb l
  have hnil := htr [] (List.nil_prefix)
  rw [h₀] at hnil
  cases ht : init (movedEnv env b) { a with x0 := a.x0.map (· + b) } with
  | error e => rw [ht] at hnil; exact hnil.elim
  | ok t₀ =>
    rw [ht] at hnil
    have hall := htr ops (List.prefix_refl _)
    rw [h₀, ht] at hall
    simp only [bind, Except.bind] at hall
    rw [hfree ops (List.prefix_refl _) s hs] at hall
    cases hm : execAll (movedEnv { env with post := fun s => .ok s.x } b) (cboInner (movedEnv { env with post := fun s => .ok s.x } b)) ops t₀ with
    | error e => rw [hm] at hall; exact hall.elim
    | ok t =>
      rw [hm] at hall
      refine ⟨t₀, t, rfl, ?_, hnil, hall⟩
      have hsw := execAll_swap_post (env := movedEnv { env with post := fun s => .ok s.x } b) (P := env.post) ops hm ?_
      · exact hsw
      · intro l o hl q hq v hv
        have hv' : v.x = q.x := by
          injection hv
        obtain ⟨r, hr⟩ := hl
        obtain ⟨qs, hqs, -⟩ := execAll_prefix (l ++ [o]) r (hr ▸ hs)
        have hrel := htr (l ++ [o]) ⟨r, hr⟩
        rw [h₀, ht] at hrel
        simp only [bind, Except.bind] at hrel
        rw [hfree _ ⟨r, hr⟩ qs hqs, hq] at hrel
        have hx : q.x = qs.x.map (· + b) := hrel.x
        rw [hpost]
        simp only [postFinite]
        congr 1
        rw [hv', hx]
        have : ∀ i j, clipVec T (qs.x.get i j + b) = qs.x.get i j + b := by
          intro i j
          apply clip_inside
          intro k
          exact (hin _ ⟨r, hr⟩ qs hqs i j k).2
        unfold Mat.map
        simp only [this]

end

/-- C25 (translations): the plane, default consensus rule, isotropic noise, no post processing, batches of 3 of 4 particles. Both executions succeed for every sequence of operations. -/
example (ops : List Op) (b : Fin 2 → ℝ) :
    let env := { Example.realEnv (rowNoise isoRule Example.smp) with post := fun s => .ok s.x }
    let a := Example.realArgs (fun m n => ![n + m, 2 - n]) 3 (some 3)
    ∃ s t, (do let s ← init env a; execAll env (cboInner env) ops s) = .ok s ∧
      (do let s ← init (movedEnv env b) { a with x0 := a.x0.map (· + b) }; execAll (movedEnv env b) (cboInner (movedEnv env b)) ops s) = .ok t ∧ t.x = s.x.map (· + b) := by
  intro env a
  have hperm : PermOK env := Example.perm_ok (rowNoise isoRule Example.smp)
  obtain ⟨s₀, h0, h1⟩ := C19_never_raises_partial env
    ⟨rfl, ⟨_, rfl⟩, (Example.realEnv_standard isoRule).noise.ok, fun s => ⟨_, rfl, rfl, rfl⟩, fun s => ⟨_, rfl⟩⟩ hperm
    a (by simp [a, Example.realArgs]) (by simp [a, Example.realArgs]) (by
      intro tm ht
      simp only [a, Example.realArgs, List.mem_cons, List.not_mem_nil, or_false] at ht
      rcases ht with rfl | rfl <;> trivial) (fun h => by cases h)
  obtain ⟨s, hs, -⟩ := h1 ops (fun h => by cases h)
  have key := C25_translation_partial env isoRule Example.smp (fun v => v 0 ^ 2 + v 1 ^ 2) id b rfl trivial rfl (fun _ => rfl) hperm (fun _ => rfl) (fun _ => rfl)
    (fun l => by
      simp only [env, Example.realEnv, List.map_map, List.length_map]
      congr 4
      funext q
      simp) (fun _ _ _ _ => rfl)
    (fun s t h => by simp only [env, Example.realEnv, h.params.1, h.params.2.1, h.params.2.2.1, h.params.2.2.2]) a (by simp [a, Example.realArgs]) ops
  have hrun : (do let s ← init env a; execAll env (cboInner env) ops s) = .ok s := by
    simp only [bind, Except.bind, h0]
    exact hs
  rw [hrun] at key
  cases ht : (do let s ← init (movedEnv env b) { a with x0 := a.x0.map (· + b) }; execAll (movedEnv env b) (cboInner (movedEnv env b)) ops s) with
  | error e => rw [ht] at key; exact key.elim
  | ok t =>
    rw [ht] at key
    exact ⟨s, t, hrun, rfl, key.x⟩

/-- C25 (scalings): the same with default post processing. -/
example (ops : List Op) :
    let env := Example.realEnv (rowNoise anisoRule Example.smp)
    let env' := scaledEnv env (-3) (clipVec (|(-3)| * 100))
    let a := Example.realArgs (fun m n => ![n + m, 2 - n]) 3 (some 3)
    ∃ s t, (do let s ← init env a; execAll env (cboInner env) ops s) = .ok s ∧
      (do let s ← init env' { a with x0 := a.x0.map ((-3 : ℝ) • ·) }; execAll env' (cboInner env') ops s) = .ok t ∧ t.x = s.x.map ((-3 : ℝ) • ·) := by
  intro env env' a
  obtain ⟨s₀, h0, h1⟩ := Example.realEnv_runs anisoRule (fun m n => ![(n : ℝ) + m, 2 - n]) 3 (some 3)
  obtain ⟨s, hs⟩ := h1 ops
  have heu : ∀ v : Fin 2 → ℝ, euclid ((-3 : ℝ) • v) = 3 * euclid v := by
    intro v
    unfold euclid
    rw [show (∑ i, ((-3 : ℝ) • v) i ^ 2) = 3 ^ 2 * ∑ i, v i ^ 2 by simp only [Pi.smul_apply, smul_eq_mul, Finset.mul_sum]; congr 1; funext i; ring,
      Real.sqrt_mul (by norm_num), Real.sqrt_sq (by norm_num)]
  have key := C25_scaling_anisotropic env Example.smp 100 (-3) (by norm_num) (by norm_num) rfl ⟨"no_correction", 0, rfl⟩ rfl (Example.perm_ok _) rfl
    (fun l => by
      simp only [env, Example.realEnv, List.map_map, List.length_map, Flt.mul, Function.comp_def, ← smul_sub, heu]
      rw [List.sum_map_mul_left, abs_of_neg (by norm_num : (-3 : ℝ) < 0), neg_neg, mul_div_assoc]) (fun _ _ _ _ => rfl)
    (fun s t h => by simp only [env, Example.realEnv, h.params.1, h.params.2.1, h.params.2.2.1, h.params.2.2.2]) a (by simp [a, Example.realArgs]) ops
  have hrun : (do let s ← init env a; execAll env (cboInner env) ops s) = .ok s := by
    simp only [bind, Except.bind, env, a, h0]
    exact hs
  have hterms : a.terms.map (Term.image (Flt.mul (.fin |(-3 : ℝ)|))) = a.terms := rfl
  rw [hrun, hterms] at key
  cases ht : (do let s ← init env' { a with x0 := a.x0.map ((-3 : ℝ) • ·) }; execAll env' (cboInner env') ops s) with
  | error e =>
    have ht' := ht
    simp only [env'] at ht'
    rw [ht'] at key
    exact key.elim
  | ok t =>
    have ht' := ht
    simp only [env'] at ht'
    rw [ht'] at key
    exact ⟨s, t, hrun, rfl, key.x⟩

/-- C25 (translations, default post processing): an ensemble in the unit square, moved by `(7, -20)`; the noise is switched off (`sigma = 0`) so that the bounds are known. -/
example (ops : List Op) :
    let env := Example.realEnv (rowNoise isoRule Example.smp)
    let a := Example.realArgs (fun m n => ![1 / (n + m + 1), 1 / (n + 1)]) 0 (some 3)
    let b : Fin 2 → ℝ := ![7, -20]
    ∃ s₀ s t₀ t, init env a = .ok s₀ ∧ execAll env (cboInner env) ops s₀ = .ok s ∧ init (movedEnv env b) { a with x0 := a.x0.map (· + b) } = .ok t₀ ∧
      execAll (movedEnv env b) (cboInner (movedEnv env b)) ops t₀ = .ok t ∧ t.x = s.x.map (· + b) := by
  intro env a b
  obtain ⟨s₀, h0, h1⟩ := Example.realEnv_runs isoRule (fun m n => ![1 / ((n : ℝ) + m + 1), 1 / (n + 1)]) 0 (some 3)
  obtain ⟨s, hs⟩ := h1 ops
  have hclip : ∀ v ∈ Set.Icc (0 : Fin 2 → ℝ) 1, clipVec 100 v = v := by
    intro v hv
    refine clipVec_id 100 v fun i => ⟨?_, ?_⟩
    · have := hv.1 i; simp only [Pi.zero_apply] at this; linarith
    · have := hv.2 i; simp only [Pi.one_apply] at this; linarith
  have hx0 : ∀ m n, a.x0.get m n ∈ Set.Icc (0 : Fin 2 → ℝ) 1 := by
    intro m n
    have h1 : (0 : ℝ) < n + m + 1 := by positivity
    have h2 : (0 : ℝ) < n + 1 := by positivity
    have h3 : (1 : ℝ) ≤ n + m + 1 := by have := Nat.cast_nonneg (α := ℝ) n; have := Nat.cast_nonneg (α := ℝ) m; linarith
    have h4 : (1 : ℝ) ≤ n + 1 := by have := Nat.cast_nonneg (α := ℝ) n; linarith
    constructor
    · intro i
      fin_cases i <;> simp [a, Example.realArgs] <;> positivity
    · intro i
      fin_cases i
      · simpa [a, Example.realArgs] using inv_le_one_of_one_le₀ h3
      · simpa [a, Example.realArgs] using inv_le_one_of_one_le₀ h4
  have hbd : ∀ v ∈ Set.Icc (0 : Fin 2 → ℝ) 1, ∀ k, |v k| < 100 ∧ |v k + b k| < 100 := by
    intro v hv k
    have l := hv.1 k
    have u := hv.2 k
    simp only [Pi.zero_apply, Pi.one_apply] at l u
    rw [abs_lt, abs_lt]
    fin_cases k <;> simp [b] at l u ⊢ <;> constructor <;> constructor <;> linarith
  have hmn : s₀.M = 2 ∧ s₀.N = 4 := by
    have h0' := h0
    unfold init at h0'
    split_ifs at h0'
    all_goals
      injection h0' with h0'
      subst h0'
      exact ⟨rfl, rfl⟩
  obtain ⟨t₀, t, g1, g2, -, g4⟩ := C25_inside_partial env isoRule Example.smp (fun v => v 0 ^ 2 + v 1 ^ 2) 100 b rfl trivial rfl (fun _ => rfl) (Example.perm_ok _) rfl
    (fun l => by
      simp only [env, Example.realEnv, List.map_map, List.length_map]
      congr 4
      funext q
      simp) (fun _ _ _ _ => rfl)
    (fun s t h => by simp only [env, Example.realEnv, h.params.1, h.params.2.1, h.params.2.2.1, h.params.2.2.2]) a (by simp [a, Example.realArgs]) ops s₀ s h0 hs (by
      intro l _ q hq i _ j hj k
      have hN : q.N = 4 := by
        have hq' := hq
        rw [cboInner_eq] at hq'
        rw [← hmn.2]
        refine (execAll_induct (cboMove_ok env) (Example.realEnv_standard isoRule).post.ok (Example.perm_ok _) (P := fun q => q.N = s₀.N) ?_ l s₀ q (init_wf (Example.perm_ok _) h0) rfl hq').2
        intro o q q' _ h1 he
        rw [(exec_bs (consThen_frame (cboMove_ok env)) he).2.2, h1]
      refine hbd _ (C24_hull env _ _ _ (Example.realEnv_standard isoRule) a (by simp [a, Example.realArgs]) s₀ q l h0
        ⟨rfl, by simp [a, Example.realArgs], by simp only [a, Example.realArgs]; norm_num⟩ ?_ hq (Set.Icc 0 1) (convex_Icc 0 1)
        (fun v hv => by rw [hclip v hv]; exact hv) i (fun n _ => hx0 i n) j (by rw [hN] at hj; exact hj)) k
      intro q r hq hr
      simp only [env, Example.realEnv] at hr
      injection hr with hr
      subst hr
      exact hq) (fun i j _ k => hbd _ (hx0 i j) k)
  exact ⟨s₀, s, t₀, t, h0, hs, g1, g2, g4.x⟩

namespace Example

/-- Run 0 after one step of the dynamic on the line with objective `f`, noise `g drift z` and the ensemble mapped by `φ`. -/
def lineRun (f : ℚ → ℚ) (g : ℚ → ℚ → ℚ) (φ : ℚ → ℚ) : Option (List ℚ) :=
  let e : Env ℚ ℚ := { env with
    f := fun v => .fin (f v)
    noise := fun s => match s.drift with
      | some d => .ok ⟨d.rows, d.cols, fun i j => g (d.get i j) (i + j + 1)⟩
      | none => .error .attribute }
  match (do let s ← init e { args [] none with x0 := (args [] none).x0.map φ }; execAll e (cboInner e) [.step] s) with
  | .ok s => some (s.x.row 0)
  | .error _ => none

end Example

/-- C25, disagreement: the default clipping (here at ±100) does not commute with translations. -/
theorem C25_clip_false : ∃ l l', Example.lineRun (fun v => v * v) (fun d z => d * z) id = some l ∧
    Example.lineRun (fun v => (v - 99) * (v - 99)) (fun d z => d * z) (· + 99) = some l' ∧ l' ≠ l.map (· + 99) :=
  ⟨_, _, rfl, rfl, by decide +kernel⟩

/-- C25, disagreement: with isotropic noise (`z * |drift|`) and the same random numbers a reflection of the line does not reflect the ensemble; with anisotropic noise it does. -/
theorem C25_reflect_false :
    (∃ l l', Example.lineRun (fun v => v * v) (fun d z => z * |d|) id = some l ∧ Example.lineRun (fun v => v * v) (fun d z => z * |d|) (fun v => -v) = some l' ∧ l' ≠ l.map fun v => -v) ∧
    ∃ l l', Example.lineRun (fun v => v * v) (fun d z => z * d) id = some l ∧ Example.lineRun (fun v => v * v) (fun d z => z * d) (fun v => -v) = some l' ∧ l' = l.map fun v => -v :=
  ⟨⟨_, _, rfl, rfl, by decide +kernel⟩, _, _, rfl, rfl, by decide +kernel⟩

/-- C25, disagreement: constant noise does not commute with scalings. -/
theorem C25_constant_false : ∃ l l', Example.lineRun (fun v => v * v) (fun _ z => z) id = some l ∧ Example.lineRun (fun v => v / 2 * (v / 2)) (fun _ z => z) (2 * ·) = some l' ∧
    l' ≠ l.map (2 * ·) := ⟨_, _, rfl, rfl, by decide +kernel⟩

end Verif
