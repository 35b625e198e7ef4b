import Verif.Props.Noise
import Verif.Model.Cbs
import Verif.Spec.Cbs

/-! Helper lemmas for consensus-based sampling. -/

set_option linter.unusedSectionVars false

namespace Verif

theorem trackInit_eq {K V : Type} (s : St K V) : trackInit s = fun t => if t = Track.x then [Entry.x s.x] else [] := by
  funext t
  cases t <;> rfl

section
variable {ι : Type} [Fintype ι] [DecidableEq ι]

/-- A step with covariance noise succeeds from every well-formed unbatched state with all runs active. -/
theorem covStep_total {env : Env ℝ (ι → ℝ)} {f : (ι → ℝ) → ℝ} {p : (ι → ℝ) → ι → ℝ}
    {eigh : Matrix ι ι ℝ → (ι → ℝ) × Matrix ι ι ℝ} {b : Bool} {smp : ℕ → ℕ → ℕ → ι → ℝ}
    (hcorr : env.corr = .none) (hcons : env.cons = .mean consDefault) (hf : ∀ v, env.f v = .fin (f v))
    (hnoise : env.noise = covNoise eigh b smp) (hpm : PostMap env p) (hp : PermOK env) {s : St ℝ (ι → ℝ)} (hw : WF s)
    (hact : s.active = List.range s.M) (hbat : s.batched = false) (hM : 0 < s.M) (hsi : s.saveInt ≠ 0) :
    ∃ s', step env (cboInner env) s = .ok s' := by
  refine cboStep_total_of hcorr ⟨_, hcons⟩ (fun s => ⟨_, hpm s, rfl, rfl⟩) hp hw hsi (hw.full hM hact hbat) ?_
  intro q d q2 d1 d2 q9 e1 e2 hen
  obtain ⟨pc, pr, pcol, prun, ppar⟩ := (preStep_pIdx env s hw).2.2 hbat
  have hl : s.active.length = s.M := by rw [hact, List.length_range]
  rw [hnoise]
  obtain ⟨n, n1, n2, n3, -⟩ := covNoise_full (eigh := eigh) (smp := smp) (b := b) q2 (by rw [e2]; exact hw.pos)
    (by rw [d1, q9, hl]) (by rw [d2, e2, pcol]) (by rw [e1, q9]) (fun m n => f (s.x.get m n))
    (by
      intro m hm n hn
      rw [q9] at hm
      rw [e2] at hn
      rw [hen m n, hf]
      rw [← pc]
      exact ⟨m, by omega, n, by omega, by rw [prun m (by omega), hact, range_getD hm], ppar m n⟩)
  exact ⟨n, n1, n2, n3⟩

/-- The invariant of the loop of `CBS.run`. -/
structure CbsInv (M : ℕ) (terms : List (Term ℝ)) (s : St ℝ (ι → ℝ)) : Prop where
  wf : WF s
  M : s.M = M
  terms : s.terms = terms
  bat : s.batched = false
  si : s.saveInt ≠ 0

theorem select_all_or_none {env : Env ℝ (ι → ℝ)} {s a : St ℝ (ι → ℝ)} (hst : ∀ tm ∈ s.terms, Stateless tm)
    (hu : s.M = 1 ∨ ∀ tm ∈ s.terms, RunBlind tm) (hw : WF a) (h : selectActive env s = .ok a) (hne : ¬ a.active.length = 0) :
    a.active = List.range a.M := by
  obtain ⟨a', h1, ea, hact, -⟩ := select_stateless (env := env) hst
  rw [h] at h1
  injection h1 with h1
  subst h1
  have hM : a.M = s.M := by rw [ea]
  obtain ⟨m₀, hm₀⟩ : ∃ m, m ∈ a.active := List.exists_mem_of_length_pos (by omega)
  have hsub := hw.act
  have hall : ∀ m < a.M, m ∈ a.active := by
    intro m hm
    rcases hu with h1 | hu
    · have := ((hact m₀).1 hm₀).1
      rw [show m = m₀ by omega]
      exact hm₀
    · rw [hact]
      refine ⟨by omega, fun tm htm hf => ((hact m₀).1 hm₀).2 tm htm ?_⟩
      have := hu tm htm
      cases tm <;> first | exact hf | exact absurd this id
  have hn := hsub.nodup List.nodup_range
  have := hsub.eq_of_length_le (by
    rw [List.length_range]
    have := (List.nodup_range (n := a.M)).subperm (fun m hm => hall m (List.mem_range.1 hm)) |>.length_le
    simpa using this)
  exact this

theorem cbsRun_not_raised {env : Env ℝ (ι → ℝ)} {f : (ι → ℝ) → ℝ} {p : (ι → ℝ) → ι → ℝ}
    {eigh : Matrix ι ι ℝ → (ι → ℝ) × Matrix ι ι ℝ} {b : Bool} {smp : ℕ → ℕ → ℕ → ι → ℝ}
    (hcorr : env.corr = .none) (hcons : env.cons = .mean consDefault) (hf : ∀ v, env.f v = .fin (f v))
    (hnoise : env.noise = covNoise eigh b smp) (hpm : PostMap env p) (hp : PermOK env) (hs : ∀ s, ∃ q, env.sched s = .ok q)
    {M : ℕ} {terms : List (Term ℝ)} (hst : ∀ tm ∈ terms, Stateless tm) (hu : M = 1 ∨ ∀ tm ∈ terms, RunBlind tm) :
    ∀ (fuel : ℕ) (s : St ℝ (ι → ℝ)), CbsInv M terms s → ∀ e, cbsRun env fuel s ≠ .raised e := by
  intro fuel
  induction fuel with
  | zero => intro s _ e; simp [cbsRun, optimize]
  | succ fuel ih =>
    intro s I e
    simp only [cbsRun, optimize]
    obtain ⟨a, h1, ea, -⟩ := select_stateless (env := env) (s := s) (by rw [I.terms]; exact hst)
    simp only [h1]
    have hwa := select_wf I.wf h1
    split_ifs with h0
    · simp
    · have hact := select_all_or_none (by rw [I.terms]; exact hst) (by rw [I.M, I.terms]; exact hu) hwa h1 h0
      obtain ⟨c, h2⟩ := covStep_total hcorr hcons hf hnoise hpm hp hwa hact (by rw [ea]; exact I.bat) (by have := congrArg List.length hact; rw [List.length_range] at this; omega) (by rw [ea]; exact I.si)
      simp only [h2]
      have fr := step_frame (by rw [cboInner_eq]; exact consThen_frame (cboMove_ok env)) h2
      have hwc := step_wf (cboMove_ok env) hpm.ok hp hwa (by rw [← cboInner_eq]; exact h2)
      obtain ⟨q, hq⟩ := hs c
      have h3 : schedUpdate env c = .ok { c with alpha := q.alpha, lamda := q.lamda, sigma := q.sigma, dt := q.dt } := by
        simp only [schedUpdate, hq, bind, Except.bind, pure, Except.pure]
      simp only [h3]
      refine ih _ ⟨sched_wf hwc h3, ?_, ?_, ?_, ?_⟩ e
      · show c.M = M
        rw [fr.M, ea]; exact I.M
      · show c.terms = terms
        rw [fr.terms, ea]; exact I.terms
      · show c.batched = false
        rw [fr.batched, ea]; exact I.bat
      · show c.saveInt ≠ 0
        rw [fr.saveInt, ea]; exact I.si

end

end Verif
