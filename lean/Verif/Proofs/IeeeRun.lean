import Verif.Proofs.IeeeCons
import Verif.Proofs.FltConsensus
import Verif.Proofs.Total
import Verif.Proofs.Local
import Verif.Proofs.Hull
import Verif.Props.Post

/-! Dynamics in IEEE arithmetic. -/

set_option linter.unusedSectionVars false

namespace Verif

variable {φ : IeeeFmt} {v η : ℝ} {A : FltArith} {ι : Type}

theorem ieeePost_map {env : Env ℝ (ι → IeeeVal A)} {big T : ℝ} (hpost : env.post = ieeePost A big T) : PostMap env fun x i => (postCoord false big T (x i) : Flt ℝ) :=
  fun q => by rw [hpost]; rfl

theorem post_fltBox (big : ℝ) {T : ℝ} (T0 : 0 ≤ T) (x : ι → IeeeVal A) : FltBox (A := A) T fun i => (postCoord false big T (x i) : Flt ℝ) := fun k => by
  obtain ⟨a, h1, h2, h3⟩ := C38_bounded big T T0 (x k)
  exact ⟨a, h1, abs_le.2 ⟨h2, h3⟩⟩

/-- The consensus rule on a non-empty sample with a common `alpha`. -/
theorem ieeeCons_finite (H : IeeeArith φ v η A) (t t' : ∀ n, SumTree (Fin (n + 1))) (ht : ∀ n, (t n).Covers) (ht' : ∀ n, (t' n).Covers) {T : ℝ} (T0 : 0 ≤ T) (hTr : IsIeee φ.p φ.emin T) {N : ℕ}
    (hN : N * (1 + φ.u) ^ N * T ≤ φ.top) {F amax : ℝ} (hov : amax * F ≤ φ.top) {a : ℝ} (a0 : 0 < a) (ha : a ≤ amax) (l : List (ℝ × Flt ℝ × (ι → IeeeVal A))) (hl : l ≠ [])
    (hlN : l.length ≤ N) (h : ∀ q ∈ l, q.1 = a ∧ (∃ y, q.2.1 = .fin y ∧ |y| ≤ F) ∧ FltBox T q.2.2) :
    FltBox (N * (1 + φ.u) ^ N * T) (ieeeConsDefault A t t' l) := by
  intro k
  cases l with
  | nil => exact absurd rfl hl
  | cons q l =>
    have hu := φ.u_pos
    have hle : (((l.length + 1 : ℕ) : ℝ)) * (1 + φ.u) ^ (l.length + 1) * T ≤ N * (1 + φ.u) ^ N * T := by
      refine mul_le_mul_of_nonneg_right (mul_le_mul (by exact_mod_cast hlN) (pow_le_pow_right₀ (by linarith) hlN) (by positivity) (by positivity)) T0
    have hq := (h q (List.mem_cons_self ..)).1
    have hb : ∀ y, |y| ≤ F → |φ.rd (-q.1 * y)| ≤ φ.top := by
      intro y hy
      refine IeeeFmt.rd_top ?_
      rw [neg_mul, abs_neg, abs_mul, hq, abs_of_pos a0]
      refine le_trans ?_ hov
      exact mul_le_mul ha hy (abs_nonneg _) (a0.le.trans ha)
    have hmem : ∀ j, (q :: l).get j ∈ q :: l := fun j => List.get_mem ..
    have hok : WeightsOK φ q.1 (fun j => ((q :: l).get j).2.1) := by
      constructor
      · intro i
        obtain ⟨-, ⟨y, h1, h2⟩, -⟩ := h _ (hmem i)
        exact .inr ⟨y, h1, (le_abs_self _).trans (hb y h2)⟩
      · obtain ⟨-, ⟨y, h1, h2⟩, -⟩ := h _ (hmem ⟨0, by simp⟩)
        exact ⟨⟨0, by simp⟩, y, h1, hb y h2⟩
    obtain ⟨c, h1, -, h3⟩ := H.consensus_good (n := l.length + 1) (t l.length) (t' l.length) (ht _) (ht' _) q.1 _ (fun j => ((q :: l).get j).2.2 k)
      (H.weights_good (by rw [hq]; exact a0) hok) T (fun i => (h _ (hmem i)).2.2 k) hTr (hle.trans hN)
    exact ⟨c, h1, h3.trans hle⟩

/-- What is preserved by every operation. -/
structure IeeeInv (φ : IeeeFmt) (T amax : ℝ) (N : ℕ) (s : St ℝ (ι → IeeeVal A)) : Prop where
  box : ∀ m < s.M, ∀ n < s.N, FltBox T (s.x.get m n)
  hN : s.N = N
  bs : s.batchSize ≠ 0
  bsN : s.batchSize ≤ N
  alpha : ∀ m, 0 < s.alpha m ∧ s.alpha m ≤ amax
  cons : ∀ c, s.cons = some c → ∀ i < c.rows, FltBox (N * (1 + φ.u) ^ N * T) (c.get i 0)

theorem ieee_run (H : IeeeArith φ v η A) (t t' : ∀ n, SumTree (Fin (n + 1))) (ht : ∀ n, (t n).Covers) (ht' : ∀ n, (t' n).Covers) {T : ℝ} (T0 : 0 ≤ T) (hTr : IsIeee φ.p φ.emin T) {N : ℕ}
    (hN : N * (1 + φ.u) ^ N * T ≤ φ.top) {F amax : ℝ} (hov : amax * F ≤ φ.top) (env : Env ℝ (ι → IeeeVal A)) (hcorr : env.corr = .none) (hn : NoiseShape env) (hp : PermOK env)
    (hcons : env.cons = .mean (ieeeConsDefault A t t')) (big : ℝ) (hpost : env.post = ieeePost A big T)
    (hf : ∀ x, FltBox T x → ∃ y, env.f x = .fin y ∧ |y| ≤ F)
    (hsched : ∀ q r, (∀ m, 0 < q.alpha m ∧ q.alpha m ≤ amax) → env.sched q = .ok r → ∀ m, 0 < r.alpha m ∧ r.alpha m ≤ amax)
    (ops : List Op) (s s' : St ℝ (ι → IeeeVal A)) (hw : WF s) (hs : IeeeInv φ T amax N s) (h : execAll env (cboInner env) ops s = .ok s') : IeeeInv φ T amax N s' := by
  have hpm := ieeePost_map hpost
  rw [cboInner_eq] at h
  refine (execAll_induct (cboMove_ok env) hpm.ok hp ?_ ops s s' hw hs h).2
  clear h hs hw s s' ops
  intro o s s' hw hs h
  cases o with
  | select => have f := select_frame h; rw [f]; exact ⟨hs.box, hs.hN, hs.bs, hs.bsN, hs.alpha, hs.cons⟩
  | sched =>
    simp only [exec, schedUpdate, bind_ok, pure_ok] at h
    obtain ⟨r, hr, rfl⟩ := h
    exact ⟨hs.box, hs.hN, hs.bs, hs.bsN, hsched s r hs.alpha hr, hs.cons⟩
  | reset =>
    simp only [exec] at h
    injection h with h
    subst h
    exact ⟨hs.box, hs.hN, hs.bs, hs.bsN, hs.alpha, hs.cons⟩
  | step =>
    have f := step_frame (consThen_frame (cboMove_ok env)) h
    obtain ⟨c, d, nz, xm, hc⟩ := cboStep_facts hcorr hn hcons hp hw h
    have hix := preStep_idx env hp hw
    have hcc : s'.cIdx.cols = s.batchSize := by rw [f.cIdx, hix.cCols]
    have hcr : s'.cIdx.rows = s.active.length := by rw [f.cIdx, hix.cRows]
    refine ⟨fun m _ n _ => ?_, by rw [f.N]; exact hs.hN, by rw [f.batchSize]; exact hs.bs, by rw [f.batchSize]; exact hs.bsN, by rw [f.alpha]; exact hs.alpha, ?_⟩
    · obtain ⟨x, hx⟩ := step_image hpm h m n
      rw [hx]
      exact post_fltBox big T0 x
    · intro c' hc'
      rw [hc.cons] at hc'
      injection hc' with hc'
      subst hc'
      intro i hi
      rw [hc.crows] at hi
      rw [hc.cget i hi]
      have hcrun : s'.cIdx.run i = s.active.getD i 0 := by rw [f.cIdx, hix.cRun i hi]
      refine ieeeCons_finite H t t' ht ht' T0 hTr hN hov (hs.alpha (s.active.getD i 0)).1 (hs.alpha _).2 _ (fun q => hs.bs ?_) ?_ ?_
      · simp only [sampleOf, List.map_eq_nil_iff, List.range_eq_nil] at q
        rw [← hcc]; exact q
      · simp only [sampleOf, List.length_map, List.length_range]
        rw [hcc]
        exact hs.bsN
      · intro q hq
        obtain ⟨j, hj, rfl⟩ := List.mem_map.1 hq
        have hj' : j < s'.cIdx.cols := List.mem_range.1 hj
        have hin := hix.cIn i (by rw [hix.cRows]; exact hi) j (by rw [← f.cIdx]; exact hj')
        rw [← f.cIdx] at hin
        have hb := hs.box _ hin.1 _ hin.2
        exact ⟨rfl, hf _ hb, hb⟩

end Verif
