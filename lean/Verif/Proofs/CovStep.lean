import Verif.Proofs.Noise
import Verif.Proofs.Hull

/-! One step with covariance noise. -/

set_option linter.unusedSectionVars false

namespace Verif

open Matrix

variable {ι : Type} [Fintype ι] [DecidableEq ι]

/-- Positions and consensus points after one step with covariance noise. -/
theorem cov_explicit {env : Env ℝ (ι → ℝ)} {f : (ι → ℝ) → ℝ} {p : (ι → ℝ) → ι → ℝ}
    {eigh : Matrix ι ι ℝ → (ι → ℝ) × Matrix ι ι ℝ} {b : Bool} {smp : ℕ → ℕ → ℕ → ι → ℝ}
    (hcorr : env.corr = .none) (hcons : env.cons = .mean consDefault) (hf : ∀ v, env.f v = .fin (f v))
    (hnoise : env.noise = covNoise eigh b smp) (hpm : PostMap env p) (hp : PermOK env) {s s' : St ℝ (ι → ℝ)} (hw : WF s)
    (hact : s.active = List.range s.M) (hbat : s.batched = false) (hs : step env (cboInner env) s = .ok s') :
    ∃ c : Mat (ι → ℝ), s'.cons = some c ∧
      (∀ m < s.M, c.get m 0 = consDefault (sampleOf env { s with cIdx := (preStep env s).cIdx } m)) ∧
      ∀ m < s.M, ∀ n < s.N, s'.x.get m n =
        p (s.x.get m n - (s.lamda * s.dt) • (s.x.get m n - c.get m 0) + s.sigma •
          ((Real.sqrt (2 * s.dt * (if b then 1 + s.alpha m else 1)) • matSqrt eigh
            (weightedCov (s.alpha m) s.N (fun n => f (s.x.get m n)) (s.x.get m) (c.get m 0))) *ᵥ smp s.draws m n)) := by
  obtain ⟨c, d, n, xm, cs⟩ := cboStep_facts hcorr (covNoise_shape hnoise) hcons hp hw hs
  have fr := step_frame (by rw [cboInner_eq]; exact consThen_frame (cboMove_ok env)) hs
  have hix := preStep_idx env hp hw
  obtain ⟨pc, pr, pcol, prun, ppar⟩ := (preStep_pIdx env s hw).2.2 hbat
  rw [← fr.pIdx] at pc pr pcol prun ppar
  rw [← fr.cIdx] at pc
  have hl : s.active.length = s.M := by rw [hact, List.length_range]
  have hrun : ∀ i < s.M, s'.pIdx.run i = i := by
    intro i hi
    rw [prun i (by omega), hact, range_getD hi]
  have sm := step_sum (cboMove_ok env) hpm.ok (by rw [← cboInner_eq]; exact hs)
  have hsel : ∀ m < s.M, ∀ n < s.N, s'.pIdx.Sel m n := fun m hm n hn =>
    ⟨m, by omega, n, by omega, hrun m hm, ppar m n⟩
  have hen : ∀ m < s.M, ∀ n < s.N, s'.energy.get m n = .fin (f (s.x.get m n)) := by
    intro m hm n hn
    rw [sm.fresh m n (by rw [← pc]; exact hsel m hm n hn), hf]
  obtain ⟨q, q1, q2, q3, q4, q5, q6, q7, q8, q9⟩ := cs.noise
  have hw' := step_wf (cboMove_ok env) hpm.ok hp hw (by rw [← cboInner_eq]; exact hs)
  have hec : s'.energy.cols = s.N := by rw [hw'.ec, fr.N]
  have her : s'.energy.rows = s.M := by rw [hw'.er, fr.M]
  have hN : 0 < s.N := hw.pos
  obtain ⟨n', n1, n2, n3, n4⟩ := covNoise_full (eigh := eigh) (smp := smp) (b := b) q2 (by rw [q8, hec]; exact hN)
    (by rw [cs.dr, q9, hl]) (by rw [cs.dc, q8, hec, pcol]) (by rw [q8, q9, her]) (fun m n => f (s.x.get m n))
    (by rw [q8, q9, hec]; exact hen)
  rw [hnoise, n1] at q1
  injection q1 with q1
  subst q1
  rw [q5, q6, q3, cs.dr, cs.dc, pcol, hl] at n4
  have hcov : ∀ m < s.M, weightedCov (s.alpha m) s.N (fun n => f (s.x.get m n)) (d.get m) 0 =
      weightedCov (s.alpha m) s.N (fun n => f (s.x.get m n)) (s.x.get m) (c.get m 0) := by
    intro m hm
    ext i j
    simp only [weightedCov, Matrix.of_apply]
    refine Finset.sum_congr rfl fun k hk => ?_
    have hk := Finset.mem_range.1 hk
    rw [cs.dget m (by omega) k (by omega), hrun m hm, ppar]
    simp
  refine ⟨c, cs.cons, ?_, ?_⟩
  · intro m hm
    rw [cs.cget m (by omega), fr.cIdx]
  · intro m hm k hk
    obtain ⟨q, hq1, hq2⟩ := cs.post
    rw [hpm q, hq1] at hq2
    injection hq2 with hq2
    rw [← hq2]
    simp only [Mat.map]
    congr 1
    obtain ⟨i, hi, j, hj, e1, e2, e3⟩ := cs.sel m k (hsel m hm k hk)
    rw [hrun i (by omega)] at e1
    rw [ppar] at e2
    subst e1 e2
    rw [e3, n4 i hm j hk, hcov i hm, cs.dget i hi j hj, hrun i hm, ppar, smul_mulVec]
    simp only [cboUpdate]
    module

end Verif
