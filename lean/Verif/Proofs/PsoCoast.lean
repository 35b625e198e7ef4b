import Verif.Proofs.PsoDiverge
import Mathlib.Algebra.BigOperators.Group.Finset.Basic
import Mathlib.Algebra.BigOperators.GroupWithZero.Action

/-! Helper lemmas for property C125: a `PSO` without forces. -/

set_option linter.unusedSectionVars false

namespace Verif

variable {K V : Type} [Field K] [LinearOrder K] [IsStrictOrderedRing K] [AddCommGroup V] [Module K V]

/-- The particles of `s'` have made `k` steps of size `dt` since `s`, with velocities multiplied by `q` in every step (`pso.py:125-135`). -/
structure Coasted (q dt : K) (s : St K V) (k : ℕ) (s' : St K V) : Prop where
  M : s'.M = s.M
  N : s'.N = s.N
  v : ∀ m < s.M, ∀ n < s.N, s'.aux2.get m n = q ^ k • s.aux2.get m n
  x : ∀ m < s.M, ∀ n < s.N, s'.x.get m n = s.x.get m n + (dt * ∑ i ∈ Finset.range k, q ^ (i + 1)) • s.aux2.get m n

/-- One step. -/
theorem pso_coast_step {env : Env K V} (hcorr : env.corr = .none) {g : List (K × Flt K × V) → V} (hg : env.cons = .mean g)
    {ν : ℕ → K → ℕ → ℕ → V → V} (hν : NoiseRows env ν) (hpm : PostMap env id) {p : PsoPar K} (hl0 : p.lm = 0) (hs0 : p.sm = 0)
    {s s' : St K V} (w : MemPlain s) (hvs : VShape s) (ha : s.active ≠ []) (hlam : s.lamda = 0) (hsg : s.sigma = 0) (h : psoStep env p s = .ok s') :
    ∀ m < s.M, ∀ n < s.N, s'.aux2.get m n = (p.m * s.dt / (p.m + p.gamma * s.dt)) • s.aux2.get m n ∧ s'.x.get m n = s.x.get m n + s.dt • s'.aux2.get m n := by
  obtain ⟨-, r⟩ := psoStep_runs hcorr hg hν hpm w hvs ha h
  intro m hm n hn
  have hn' : n < s'.N := by rw [r.frame.N]; exact hn
  have hv : s'.aux2.get m n = (p.m * s.dt / (p.m + p.gamma * s.dt)) • s.aux2.get m n := by
    rw [(r.runs m hm).v n hn']
    simp only [RunPar.psoNext, RunPar.remember, RunPar.psoVel, St.runPar, St.memRun, hl0, hs0, hsg, hlam, zero_mul, zero_smul, add_zero, smul_smul]
    rw [div_eq_inv_mul]
  refine ⟨hv, ?_⟩
  rw [(r.runs m hm).x n hn', (r.runs m hm).v n hn']
  rfl

theorem coast_next {q dt : K} {s r r' : St K V} {k : ℕ} (h : Coasted q dt s k r) (hM : r'.M = r.M) (hN : r'.N = r.N)
    (hs : ∀ m < r.M, ∀ n < r.N, r'.aux2.get m n = q • r.aux2.get m n ∧ r'.x.get m n = r.x.get m n + dt • r'.aux2.get m n) : Coasted q dt s (k + 1) r' := by
  have hv : ∀ m < s.M, ∀ n < s.N, r'.aux2.get m n = q ^ (k + 1) • s.aux2.get m n := by
    intro m hm n hn
    rw [(hs m (by rw [h.M]; exact hm) n (by rw [h.N]; exact hn)).1, h.v m hm n hn, smul_smul, pow_succ']
  refine ⟨hM.trans h.M, hN.trans h.N, hv, fun m hm n hn => ?_⟩
  rw [(hs m (by rw [h.M]; exact hm) n (by rw [h.N]; exact hn)).2, hv m hm n hn, h.x m hm n hn, Finset.sum_range_succ, smul_smul, mul_add, add_smul, add_assoc]

/-- The loop. -/
theorem pso_coast {env : Env K V} (hcorr : env.corr = .none) {g : List (K × Flt K × V) → V} (hg : env.cons = .mean g)
    {ν : ℕ → K → ℕ → ℕ → V → V} (hν : NoiseRows env ν) (hpm : PostMap env id) {ga gl gs : K → K} (hsched : SchedLocal env ga gl gs id) (hgl : gl 0 = 0) (hgs : gs 0 = 0)
    {p : PsoPar K} (hl0 : p.lm = 0) (hs0 : p.sm = 0) {dt : K} {o : St K V} :
    ∀ (fuel : ℕ) (s s' : St K V) (k : ℕ), MemPlain s → VShape s → s.lamda = 0 → s.dt = dt → s.sigma = 0 →
      Coasted (p.m * dt / (p.m + p.gamma * dt)) dt o k s → s.it = o.it + k → optimizeBy env (psoStep env p) fuel s = .done s' →
      ∃ k', s'.it = o.it + k' ∧ Coasted (p.m * dt / (p.m + p.gamma * dt)) dt o k' s' := by
  intro fuel
  induction fuel with
  | zero => intro s s' _ _ _ _ _ _ _ _ h; exact nomatch h
  | succ fuel ih =>
    intro s s' k w hv e1 e2 e3 h0 hit h
    simp only [optimizeBy] at h
    cases h1 : selectActive env s with
    | error e => simp [h1] at h
    | ok q =>
      simp only [h1] at h
      have wq := memPlain_select w h1
      have fq := select_frame h1
      have hq : Coasted (p.m * dt / (p.m + p.gamma * dt)) dt o k q := by rw [fq]; exact ⟨h0.M, h0.N, h0.v, h0.x⟩
      have vq : VShape q := by rw [fq]; exact hv
      have q0 : q.it = o.it + k := by rw [fq]; exact hit
      have q1 : q.lamda = 0 := by rw [fq]; exact e1
      have q2 : q.dt = dt := by rw [fq]; exact e2
      have q3 : q.sigma = 0 := by rw [fq]; exact e3
      by_cases hz : q.active.length = 0
      · rw [if_pos hz] at h
        injection h with h
        subst h
        exact ⟨k, q0, hq⟩
      · rw [if_neg hz] at h
        cases h2 : psoStep env p q with
        | error e => simp [h2] at h
        | ok r =>
          simp only [h2] at h
          cases h3 : schedUpdate env r with
          | error e => simp [h3] at h
          | ok c =>
            simp only [h3] at h
            have hne : q.active ≠ [] := fun hc => hz (by rw [hc]; rfl)
            obtain ⟨-, f⟩ := psoStep_runs hcorr hg hν hpm wq vq hne h2
            have fr := f.frame
            have hr := coast_next hq fr.M fr.N (by
              have := pso_coast_step hcorr hg hν hpm hl0 hs0 wq vq hne q1 q3 h2
              rwa [q2] at this)
            have wc := memPlain_sched f.shape h3
            simp only [schedUpdate, hsched r, bind_ok, pure_ok] at h3
            obtain ⟨_, hz', rfl⟩ := h3
            injection hz' with hz'
            subst hz'
            exact ih _ s' (k + 1) wc (f.vshape vq) (by show gl r.lamda = 0; rw [fr.lamda, q1, hgl]) (by rw [← q2]; exact fr.dt) (by show gs r.sigma = 0; rw [fr.sigma, q3, hgs])
              ⟨hr.M, hr.N, hr.v, hr.x⟩ (by show r.it = _; rw [fr.it, q0]; rfl) h

end Verif
