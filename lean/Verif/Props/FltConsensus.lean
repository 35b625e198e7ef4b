import Verif.Proofs.FltConsensus
import Verif.Props.Consensus
import Verif.Props.Post
import Verif.Props.Frozen

/-! Property C74: the consensus when the objective is infinite or NaN somewhere. -/

set_option linter.unusedSectionVars false

namespace Verif

variable {ι : Type}

/-- A sample as the rule receives it: common `alpha`, energies possibly not finite, finite particles. -/
def fltSample (a : ℝ) (l : List (Flt ℝ × (ι → ℝ))) : List (ℝ × Flt ℝ × (ι → Flt ℝ)) :=
  l.map fun p => (a, p.1, fun k => .fin (p.2 k))

/-- **C74, infinite energies.** `alpha > 0`, no energy NaN or `-inf`, at least one finite: the consensus point computed in IEEE
values is finite and is the textbook quotient over the particles with finite energy; particles with energy `+inf` do not
contribute. -/
theorem C74_infinite_partial (a : ℝ) (ha : 0 < a) (l : List (Flt ℝ × (ι → ℝ))) (hu : Usable l) (k : ι) :
    consFlt (fltSample a l) k = .fin (gibbs a (finitePart l) k) := by
  have hl : ∀ p ∈ fltSample a l, p.1 = a := fun p hp => by
    obtain ⟨q, -, rfl⟩ := List.mem_map.1 hp
    rfl
  have hu' : Usable ((fltSample a l).map fun p => p.2) := by
    obtain ⟨h1, q, hq, e, he⟩ := hu
    constructor
    · intro p hp
      obtain ⟨r, hr, rfl⟩ := List.mem_map.1 hp
      obtain ⟨z, hz, rfl⟩ := List.mem_map.1 hr
      exact h1 z hz
    · exact ⟨_, List.mem_map.2 ⟨_, List.mem_map.2 ⟨q, hq, rfl⟩, rfl⟩, e, he⟩
  obtain ⟨g1, g2⟩ := good_of_usable ha hl hu'
  have hx : ∀ p ∈ fltSample a l, ∀ k, p.2.2 k = .fin (finVal (p.2.2 k)) := by
    intro p hp k
    obtain ⟨q, -, rfl⟩ := List.mem_map.1 hp
    rfl
  rw [consFlt_good g1 g2 (fun v k => finVal (v k)) hx k]
  have e1 := finitePart_sum ha l (fun v => v k) hu.1
  have e2 := finitePart_sum ha l (fun _ => 1) hu.1
  simp only [mul_one] at e2
  simp only [fltSample, List.map_map, Function.comp_def, fltWeight, finVal]
  rw [e1, e2, gibbs, div_eq_inv_mul]
  congr 1
  rw [Pi.smul_apply, smul_eq_mul]
  congr 1
  induction finitePart l with
  | nil => rfl
  | cons p l ih =>
    rw [List.map_cons, List.sum_cons, List.map_cons, List.sum_cons, ih]
    rfl

/-- **C74, refinement.** On usable energies the IEEE rule gives exactly the value of the real-valued rule `consDefault` that the
other theorems are about. -/
theorem C74_refines (a : ℝ) (ha : 0 < a) (l : List (Flt ℝ × (ι → ℝ))) (hu : Usable l) :
    consFlt (fltSample a l) = fun k => .fin (consDefault (l.map fun p => (a, p.1, p.2)) k) := by
  funext k
  rw [C74_infinite_partial a ha l hu k, consDefault_finitePart]

/-- **C74, consequence.** In the situation of `C74_infinite_partial` every coordinate of the consensus point lies between the
coordinates of the particles with finite energy. -/
theorem C74_between (a : ℝ) (ha : 0 < a) (l : List (Flt ℝ × (ι → ℝ))) (hu : Usable l) (k : ι) (lo hi : ℝ)
    (h : ∀ p ∈ l, (∃ e, p.1 = .fin e) → lo ≤ p.2 k ∧ p.2 k ≤ hi) :
    ∃ c, consFlt (fltSample a l) k = .fin c ∧ lo ≤ c ∧ c ≤ hi := by
  refine ⟨_, C74_infinite_partial a ha l hu k, ?_⟩
  have key : ∀ l : List (Flt ℝ × (ι → ℝ)), ∀ q ∈ finitePart l, (.fin q.1, q.2) ∈ l := by
    intro l
    induction l with
    | nil => intro q hq; cases hq
    | cons p l ih =>
      intro q hq
      obtain ⟨f, v⟩ := p
      cases f with
      | fin e =>
        rw [finitePart] at hq
        rcases List.mem_cons.1 hq with rfl | hq
        · exact List.mem_cons_self ..
        · exact List.mem_cons_of_mem _ (ih q hq)
      | nan => exact List.mem_cons_of_mem _ (ih q hq)
      | ninf => exact List.mem_cons_of_mem _ (ih q hq)
      | pinf => exact List.mem_cons_of_mem _ (ih q hq)
  have hne : finitePart l ≠ [] := by
    obtain ⟨-, q, hq, e, he⟩ := hu
    clear h
    induction l with
    | nil => cases hq
    | cons p l ih =>
      obtain ⟨f, v⟩ := p
      cases f with
      | fin e => exact List.cons_ne_nil _ _
      | nan => rcases List.mem_cons.1 hq with rfl | hq; · cases he
               exact ih hq
      | ninf => rcases List.mem_cons.1 hq with rfl | hq; · cases he
                exact ih hq
      | pinf => rcases List.mem_cons.1 hq with rfl | hq; · cases he
                exact ih hq
  rw [← consDefault_fin]
  exact C20_coordinates a (finitePart l) hne k lo hi fun q hq => h _ (key l q hq) ⟨_, rfl⟩

/-- **C74 fails for NaN, `-inf`, or no finite energy.** If some energy of the sample is NaN or `-inf`, or none is finite, every
coordinate of the consensus point is NaN, wherever the particles are and however good the other energies are. -/
theorem C74_nan_false (a : ℝ) (ha : 0 < a) (l : List (Flt ℝ × (ι → Flt ℝ))) (hl : l ≠ []) (hu : ¬ Usable l) (k : ι) :
    consFlt (l.map fun p => (a, p)) k = .nan := by
  refine consFlt_bad (by simpa using hl) (bad_of_not_usable ha (fun p hp => ?_) ?_) k
  · obtain ⟨q, -, rfl⟩ := List.mem_map.1 hp
    rfl
  · rw [List.map_map]
    simpa using hu

/-- **C74, exactly when.** For `alpha > 0` and finite particles the consensus point is a number exactly if the energies are
usable. -/
theorem C74_iff (a : ℝ) (ha : 0 < a) (l : List (Flt ℝ × (ι → ℝ))) (hl : l ≠ []) (k : ι) :
    (∃ c, consFlt (fltSample a l) k = .fin c) ↔ Usable l := by
  constructor
  · rintro ⟨c, hc⟩
    by_contra hu
    have hu' : ¬ Usable (l.map fun p => (p.1, fun k => (.fin (p.2 k) : Flt ℝ))) := by
      rintro ⟨h1, q, hq, e, he⟩
      obtain ⟨p, hp, rfl⟩ := List.mem_map.1 hq
      exact hu ⟨fun r hr => h1 _ (List.mem_map.2 ⟨r, hr, rfl⟩), p, hp, e, he⟩
    have := C74_nan_false a ha _ (by simpa using hl) hu' k
    rw [List.map_map] at this
    have e : (l.map ((fun p => (a, p)) ∘ fun p => (p.1, fun k => (.fin (p.2 k) : Flt ℝ)))) = fltSample a l := rfl
    rw [e, hc] at this
    cases this
  · exact fun hu => ⟨_, C74_infinite_partial a ha l hu k⟩

/-- **C74, rescaled variant.** The rule of `HyperSurfaceCBO` gives the same point on usable energies. -/
theorem C74_rescale_partial (a : ℝ) (ha : 0 < a) (l : List (Flt ℝ × (ι → ℝ))) (hu : Usable l) (k : ι) :
    consRescaleFlt (fltSample a l) k = .fin (gibbs a (finitePart l) k) := by
  have hu' : Usable ((fltSample a l).map fun p => p.2) := by
    obtain ⟨h1, q, hq, e, he⟩ := hu
    constructor
    · intro p hp
      obtain ⟨r, hr, rfl⟩ := List.mem_map.1 hp
      obtain ⟨z, hz, rfl⟩ := List.mem_map.1 hr
      exact h1 z hz
    · exact ⟨_, List.mem_map.2 ⟨_, List.mem_map.2 ⟨q, hq, rfl⟩, rfl⟩, e, he⟩
  obtain ⟨m, hm⟩ := rowEMin_usable hu'
  have e : ((fltSample a l).map fun p => (p.1, Flt.sub p.2.1 (rowEMin (fltSample a l)), p.2.2)) =
      fltSample a (l.map fun p => (Flt.sub p.1 (.fin m), p.2)) := by
    rw [hm]
    simp only [fltSample, List.map_map]
    rfl
  rw [consRescaleFlt, e, C74_infinite_partial a ha _ (usable_shift m hu), finitePart_shift, ← consDefault_fin, C21_shift,
    consDefault_fin]

/-- **C74 fails in the same cases for the rescaled rule.** -/
theorem C74_rescale_nan_false (a : ℝ) (ha : 0 < a) (l : List (Flt ℝ × (ι → Flt ℝ))) (hl : l ≠ []) (hu : ¬ Usable l) (k : ι) :
    consRescaleFlt (l.map fun p => (a, p)) k = .nan := by
  have h := C74_nan_false a ha (l.map fun p => (Flt.sub p.1 (rowEMin (l.map fun p => (a, p))), p.2)) (by simpa using hl)
    (fun q => hu (usable_of_sub _ q)) k
  rw [List.map_map] at h
  rw [consRescaleFlt, List.map_map]
  exact h

/-- **C74 fails for `alpha = 0`.** A single particle with energy `+inf` makes the consensus point NaN (`0 * inf`), although for
every positive `alpha` it is ignored. -/
theorem C74_alpha_zero_false (l : List (Flt ℝ × (ι → Flt ℝ))) (p : Flt ℝ × (ι → Flt ℝ)) (hp : p ∈ l) (he : p.1 = .pinf) (k : ι) :
    consFlt (l.map fun p => ((0 : ℝ), p)) k = .nan := by
  refine consFlt_bad (fun q => ?_) (.inl (List.mem_map.2 ⟨(0, p), List.mem_map.2 ⟨p, hp, rfl⟩, ?_⟩)) k
  · rw [List.map_eq_nil_iff] at q
    rw [q] at hp
    cases hp
  · rw [fltWeight, he]
    show Flt.infTimes (-0 : ℝ) = _
    rw [Flt.infTimes, neg_zero, if_neg (lt_irrefl _), if_neg (lt_irrefl _)]

/-- **C74, the optional check.** `compute_consensus_default(check_coeffs=True)` never raises for a non-empty sample, and hence
returns NaN exactly where the unchecked rule does: the coefficients sum to 1 or to NaN, and NaN passes the comparison. -/
theorem C74_check_useless (l : List (ℝ × Flt ℝ × (ι → Flt ℝ))) (hl : l ≠ []) : consChecked l = .ok (consFlt l) := by
  have h : checkCoeffs l = .ok () := by
    rcases weights_cases (l.map fltWeight) with h | ⟨g1, g2⟩
    · obtain ⟨p, hp, e⟩ := fltCoeff_bad hl h
      have : Flt.sum (l.map (fltCoeff l)) = .nan := Flt.sum_nan_r (List.mem_map.2 ⟨p, hp, e⟩)
      rw [checkCoeffs, this]
      rfl
    · rw [checkCoeffs, sum_coeff_good g1 g2]
      have : Flt.gt (Flt.abs (Flt.sub (.fin (1 : ℝ)) (.fin 1))) (.fin (1 / 10)) = false := by
        show decide ((1 / 10 : ℝ) < |1 + -1|) = false
        rw [add_neg_cancel, abs_zero]
        exact decide_eq_false (by norm_num)
      rw [this]
      rfl
  rw [consChecked, h]

/-- The corner of the box that the default post processing clips to. -/
def corner (t : ℝ) : ι → Flt ℝ := fun _ => .fin t

/-- **C74 in the dynamic, one step.** CBO with the default consensus rule and the default post processing, `alpha > 0`. If the
energies that run `m` evaluates in this step (its batch) are not usable, every particle of the run that the step moves ends at
the corner `(max_thresh, ..., max_thresh)`, whatever the noise, the positions and the other energies. -/
theorem C74_step_false (env : Env ℝ (ι → Flt ℝ)) (hcorr : env.corr = .none) (hn : NoiseShape env)
    (hcons : env.cons = .mean consFlt) (hp : PermOK env) (big t : ℝ) (ht : 0 ≤ t) (hb : t ≤ big)
    (hpost : env.post = postDefault false big t) (s s' : St ℝ (ι → Flt ℝ)) (hw : WF s) (hs : s.batchSize ≠ 0)
    (h : step env (cboInner env) s = .ok s') (m : ℕ) (ha : 0 < s.alpha m)
    (hbad : (∃ n, s'.cIdx.Sel m n ∧ (env.f (s.x.get m n) = .nan ∨ env.f (s.x.get m n) = .ninf)) ∨
      ∀ n, s'.cIdx.Sel m n → ∀ e, env.f (s.x.get m n) ≠ .fin e) :
    ∀ n, s'.pIdx.Sel m n → s'.x.get m n = corner t := by
  obtain ⟨c, d, nz, xm, hc⟩ := cboStep_facts hcorr hn hcons hp hw h
  have f := step_frame (consThen_frame (cboMove_ok env)) (by rw [← cboInner_eq]; exact h)
  have hix := preStep_idx env hp hw
  intro n hsel
  obtain ⟨i, hi, j, hj, e1, e2, e3⟩ := hc.sel m n hsel
  have hrun : s.active.getD i 0 = m := by rw [← e1, f.pIdx, hix.pRun i hi]
  have hcrun : s'.cIdx.run i = m := by rw [f.cIdx, hix.cRun i hi, hrun]
  have hcc : s'.cIdx.cols = s.batchSize := by rw [f.cIdx, hix.cCols]
  have hcr : s'.cIdx.rows = s.active.length := by rw [f.cIdx, hix.cRows]
  have hnan : ∀ k, c.get i 0 k = .nan := by
    intro k
    rw [hc.cget i hi]
    refine consFlt_bad (fun q => hs ?_) (bad_of_not_usable ha (fun p hp => ?_) ?_) k
    · simp only [sampleOf, List.map_eq_nil_iff, List.range_eq_nil] at q
      rw [← hcc]; exact q
    · obtain ⟨j, -, rfl⟩ := List.mem_map.1 hp
      simp only
      rw [hrun]
    · simp only [sampleOf, List.map_map]
      rintro ⟨h1, q, hq, e, he⟩
      rcases hbad with ⟨n', ⟨i', hi', j', hj', q1, q2⟩, hv⟩ | hall
      · have hii : i' = i := by
          refine getD_inj hw.nodup (hcr ▸ hi') hi ?_
          rw [hrun, ← q1, f.cIdx, hix.cRun i' (hcr ▸ hi')]
        subst hii
        have := h1 _ (List.mem_map.2 ⟨j', List.mem_range.2 hj', rfl⟩)
        simp only [Function.comp_def, hcrun, q2] at this
        rcases hv with hv | hv
        · exact this.1 hv
        · exact this.2 hv
      · obtain ⟨j', hj', rfl⟩ := List.mem_map.1 hq
        simp only [Function.comp_def, hcrun] at he
        exact hall _ ⟨i, hcr ▸ hi, j', List.mem_range.1 hj', hcrun, rfl⟩ e he
  obtain ⟨q, hq, hpo⟩ := hc.post
  rw [hpost] at hpo
  injection hpo with hpo
  funext k
  have hx : xm.get m n k = .nan := by
    rw [e3, hc.dget i hi j hj]
    show Flt.add _ (Flt.add (Flt.mul _ (Flt.add _ (Flt.neg (c.get i 0 k)))) _) = _
    rw [hnan k]
    show Flt.add _ (Flt.add (Flt.mul _ (Flt.add _ .nan)) _) = _
    rw [Flt.add_nan_r, Flt.mul_nan]
    show Flt.add _ .nan = _
    rw [Flt.add_nan_r]
  have : s'.x.get m n k = postCoord false big t (xm.get m n k) := by rw [← hpo, ← hq]; rfl
  rw [this, hx, (C38_values big t hb ht).1]
  rfl

/-- **C74 in the dynamic, for ever.** Isotropic or anisotropic noise (no noise where the drift vanishes), objective finite at
the corner. Once all particles of run `m` are at the corner, they stay there through every further sequence of steps, checks,
resets and scheduler updates. -/
theorem C74_stuck_false (env : Env ℝ (ι → Flt ℝ)) (hcorr : env.corr = .none) (ν : ℕ → ℝ → ℕ → ℕ → (ι → Flt ℝ) → ι → Flt ℝ)
    (hn : NoiseRows env ν) (hz : ∀ c dt i j, ν c dt i j (fun _ => .fin 0) = fun _ => .fin 0)
    (hcons : env.cons = .mean consFlt) (hp : PermOK env) (big t : ℝ) (ht : 0 ≤ t) (hb : t ≤ big)
    (hpost : env.post = postDefault false big t) (e : ℝ) (hf : env.f (corner t) = .fin e)
    (s s' : St ℝ (ι → Flt ℝ)) (hw : WF s) (hs : s.batchSize ≠ 0) (m : ℕ) (hm : ∀ n < s.N, s.x.get m n = corner t)
    (ops : List Op) (h : execAll env (cboInner env) ops s = .ok s') : ∀ n < s'.N, s'.x.get m n = corner t := by
  have hpm : PostMap env fun v i => postCoord false big t (v i) := fun q => by rw [hpost]; rfl
  have hfix : (fun i => postCoord false big t (corner t i : Flt ℝ)) = (corner t : ι → Flt ℝ) := by
    funext k
    exact C38_unchanged false big t t (by linarith) le_rfl
  rw [cboInner_eq] at h
  refine (execAll_induct (cboMove_ok env) hpm.ok hp
    (P := fun s => s.batchSize ≠ 0 ∧ ∀ n < s.N, s.x.get m n = corner t) ?_ ops s s' hw ⟨hs, hm⟩ h).2.2
  clear h hm hs hw s s' ops
  intro o s s' hw ⟨hs, hm⟩ h
  cases o with
  | select => have f := select_frame h; rw [f]; exact ⟨hs, hm⟩
  | sched => have f := sched_frame h; rw [f]; exact ⟨hs, hm⟩
  | reset =>
    simp only [exec] at h
    injection h with h
    subst h
    exact ⟨hs, hm⟩
  | step =>
    have f := step_frame (consThen_frame (cboMove_ok env)) h
    refine ⟨by rw [f.batchSize]; exact hs, fun n hnN => ?_⟩
    rw [f.N] at hnN
    obtain ⟨c, d, nz, xm, hc⟩ := cboStep_facts hcorr hn.ok.shape hcons hp hw h
    have hix := preStep_idx env hp hw
    obtain ⟨q, hq, hpo⟩ := hc.post
    rw [hpm q] at hpo
    injection hpo with hpo
    have hx : xm.get m n = corner t := by
      by_cases hsel : s'.pIdx.Sel m n
      · obtain ⟨i, hi, j, hj, e1, e2, e3⟩ := hc.sel m n hsel
        have hrun : s.active.getD i 0 = m := by rw [← e1, f.pIdx, hix.pRun i hi]
        have hcrun : s'.cIdx.run i = m := by rw [f.cIdx, hix.cRun i hi, hrun]
        have hcc : s'.cIdx.cols = s.batchSize := by rw [f.cIdx, hix.cCols]
        have hcr : s'.cIdx.rows = s.active.length := by rw [f.cIdx, hix.cRows]
        have hcg : c.get i 0 = corner t := by
          funext k
          rw [hc.cget i hi]
          refine consFlt_const (fun q => hs ?_) t e (fun p hp => ?_) k
          · simp only [sampleOf, List.map_eq_nil_iff, List.range_eq_nil] at q
            rw [← hcc]; exact q
          · obtain ⟨j', hj', rfl⟩ := List.mem_map.1 hp
            have hlt : s'.cIdx.par i j' < s.N := by
              rw [f.cIdx] at hj' ⊢
              exact (hix.cIn i (by rw [hix.cRows]; exact hi) j' (List.mem_range.1 hj')).2
            have : s.x.get (s'.cIdx.run i) (s'.cIdx.par i j') = corner t := by rw [hcrun]; exact hm _ hlt
            simp only [this, hf]
            exact ⟨trivial, rfl⟩
        have hd : d.get i j = fun _ => .fin 0 := by
          rw [hc.dget i hi j hj, e1, e2, hm n hnN, hcg]
          funext k
          show Flt.fin (t + -t) = _
          rw [add_neg_cancel]
        have hz' : nz.get i j = fun _ => .fin 0 := by
          obtain ⟨q, q1, q2, -⟩ := hc.noise
          obtain ⟨n', n1, -, -, n2⟩ := hn q d q2
          rw [q1] at n1
          injection n1 with n1
          rw [n1, n2, hd, hz]
        rw [e3, hd, hz', hm n hnN]
        funext k
        show Flt.fin (t + (_ * 0 + _ * 0)) = _
        rw [mul_zero, mul_zero, add_zero, add_zero]
        rfl
      · rw [hc.unsel m n hsel, hm n hnN]
    rw [← hpo, hq]
    show (fun i => postCoord false big t (xm.get m n i)) = _
    rw [hx, hfix]

/-- **C74 fails over whole executions.** CBO without batching, default consensus rule and post processing, noise that vanishes
with the drift, `alpha > 0`. If in one step the objective is NaN or `-inf` at one particle of an active run, all particles of this
run are at the corner after every further sequence of operations, provided the objective is finite there. -/
theorem C74_lost_false (env : Env ℝ (ι → Flt ℝ)) (hcorr : env.corr = .none) (ν : ℕ → ℝ → ℕ → ℕ → (ι → Flt ℝ) → ι → Flt ℝ)
    (hn : NoiseRows env ν) (hz : ∀ c dt i j, ν c dt i j (fun _ => .fin 0) = fun _ => .fin 0)
    (hcons : env.cons = .mean consFlt) (hp : PermOK env) (big t : ℝ) (ht : 0 ≤ t) (hb : t ≤ big)
    (hpost : env.post = postDefault false big t) (e : ℝ) (hf : env.f (corner t) = .fin e)
    (s s₁ s₂ : St ℝ (ι → Flt ℝ)) (hw : WF s) (hbat : s.batched = false) (m n : ℕ) (hm : m ∈ s.active) (hnN : n < s.N)
    (ha : 0 < s.alpha m) (hbad : env.f (s.x.get m n) = .nan ∨ env.f (s.x.get m n) = .ninf)
    (h1 : step env (cboInner env) s = .ok s₁) (ops : List Op) (h2 : execAll env (cboInner env) ops s₁ = .ok s₂) :
    ∀ k < s₂.N, s₂.x.get m k = corner t := by
  have hpm : PostMap env fun v i => postCoord false big t (v i) := fun q => by rw [hpost]; rfl
  have hbs : s.batchSize ≠ 0 := by rw [hw.unb hbat]; have := hw.pos; omega
  have h1' := h1
  rw [cboInner_eq] at h1'
  have f := step_frame (consThen_frame (cboMove_ok env)) h1'
  have hsel : ∀ k < s.N, s₁.cIdx.Sel m k := fun k hk => by
    rw [f.cIdx]; exact (preStep_cSel_unbatched hp hw hbat m k).2 ⟨hm, hk⟩
  refine C74_stuck_false env hcorr ν hn hz hcons hp big t ht hb hpost e hf s₁ s₂
    (exec_wf (o := .step) (cboMove_ok env) hpm.ok hp hw h1') (by rw [f.batchSize]; exact hbs) m (fun k hk => ?_) ops h2
  refine C74_step_false env hcorr hn.ok.shape hcons hp big t ht hb hpost s s₁ hw hbs h1 m ha (.inl ⟨n, hsel n hnN, hbad⟩) k ?_
  rw [f.pIdx, preStep_pSel hp hw]
  rw [f.N] at hk
  exact ⟨hm, hk, fun q => by rw [hbat] at q; cases q⟩

/-- C74: a dynamic on the line with an objective like `np.sqrt` (NaN for negative arguments), anisotropic noise, and two
particles at -1 and 1. The hypotheses of `C74_lost_false` hold, the operations succeed, and both particles are at `max_thresh`
after the first step and for ever. -/
example :
    let env : Env ℝ (Unit → Flt ℝ) :=
      { f := fun v => match v () with | .fin a => if a < 0 then .nan else .fin (Real.sqrt a) | _ => .nan
        cons := .mean consFlt
        noise := fun s => match s.drift with
          | some d => .ok (d.map fun v => fun k => Flt.mul (.fin (3 * Real.sqrt s.dt)) (v k))
          | none => .error .attribute
        corr := .none, post := postDefault false 1000 100, normDiff := fun _ => .fin 0, sqrtK := Real.sqrt
        perm := fun _ _ _ j => j, sampler := fun _ _ _ _ => .fin 1, custom := fun _ _ _ => false
        sched := fun s => .ok ⟨s.alpha, s.lamda, s.sigma, s.dt⟩ }
    let a : Args ℝ (Unit → Flt ℝ) :=
      { x0 := ⟨1, 2, fun _ j _ => .fin (2 * j - 1)⟩, alpha := 1, lamda := 1, sigma := 1, dt := 1, terms := []
        tracks := [], saveInt := 1, batchSize := none, batchPartial := true, batchConcat := false, checkF := false }
    ∃ s₀, init env a = .ok s₀ ∧ ∀ ops, ∃ s, execAll env (cboInner env) (.step :: ops) s₀ = .ok s ∧
      s.x.get 0 0 = corner 100 ∧ s.x.get 0 1 = corner 100 := by
  intro env a
  have hN : NoiseRows env fun _ dt _ _ v k => Flt.mul (.fin (3 * Real.sqrt dt)) (v k) := by
    intro s d hd
    refine ⟨d.map fun v => fun k => Flt.mul (.fin (3 * Real.sqrt s.dt)) (v k), ?_, rfl, rfl, fun _ _ => rfl⟩
    simp only [env, hd]
  have hp : PermOK env := fun N c m j hj => hj
  obtain ⟨s₀, h0, h1⟩ := C19_never_raises_partial env
    ⟨rfl, ⟨_, rfl⟩, hN.ok, fun s => ⟨_, rfl, rfl, rfl⟩, fun s => ⟨_, rfl⟩⟩ hp a (by simp [a]) (by simp [a])
    (by intro tm ht; simp [a] at ht) (fun h => by cases h)
  refine ⟨s₀, h0, fun ops => ?_⟩
  obtain ⟨s, hs, -, hc, -⟩ := h1 (.step :: ops) (fun h => by cases h)
  refine ⟨s, hs, ?_⟩
  have e0 : s₀.active = [0] ∧ s₀.N = 2 ∧ s₀.alpha 0 = 1 ∧ s₀.batched = false ∧ s₀.x.get 0 0 = fun _ => .fin (2 * (0 : ℕ) - 1) := by
    simp [init, a, initBatch, initHistory, baseSt, batchSizeOf] at h0
    subst h0
    exact ⟨rfl, rfl, rfl, rfl, rfl⟩
  simp only [execAll, bind_ok] at hs
  obtain ⟨s₁, g1, g2⟩ := hs
  have hw := init_wf hp h0
  have hpm : PostMap env fun v i => postCoord false 1000 100 (v i) := fun q => rfl
  have hfin : s.N = 2 := by
    have hw2 := (execAll_induct (cboMove_ok env) hpm.ok hp (P := fun _ => True) (fun _ _ _ _ _ _ => trivial) ops s₁ s
      (exec_wf (o := .step) (cboMove_ok env) hpm.ok hp hw g1) trivial g2).1
    rw [← hw2.xc, hc]
  have key := C74_lost_false env rfl _ hN (fun c dt i j => by
      funext k
      show Flt.fin (_ * 0) = _
      rw [mul_zero]) rfl hp 1000 100 (by norm_num) (by norm_num) rfl 10 (by
      show (if (100 : ℝ) < 0 then Flt.nan else .fin (Real.sqrt 100)) = _
      rw [if_neg (by norm_num), show (100 : ℝ) = 10 ^ 2 by norm_num, Real.sqrt_sq (by norm_num)]) s₀ s₁ s hw e0.2.2.2.1 0 0
    (by rw [e0.1]; simp) (by rw [e0.2.1]; norm_num) (by rw [e0.2.2.1]; norm_num) (.inl (by
      rw [e0.2.2.2.2]
      show (if (2 * ((0 : ℕ) : ℝ) - 1 : ℝ) < 0 then Flt.nan else _) = _
      rw [if_pos (by norm_num)])) g1 ops g2
  exact ⟨key 0 (by omega), key 1 (by omega)⟩

/-- C74: three particles on the line with energies 0, `+inf`, 0 at -1, 50, 1: consensus point 0. -/
example : Usable ([(.fin 0, fun _ => -1), (.pinf, fun _ => 50), (.fin 0, fun _ => 1)] : List (Flt ℝ × (Unit → ℝ))) ∧
    consFlt (fltSample 2 ([(.fin 0, fun _ => -1), (.pinf, fun _ => 50), (.fin 0, fun _ => 1)] : List (Flt ℝ × (Unit → ℝ)))) () =
      .fin 0 := by
  have hu : Usable ([(.fin 0, fun _ => -1), (.pinf, fun _ => 50), (.fin 0, fun _ => 1)] : List (Flt ℝ × (Unit → ℝ))) := by
    refine ⟨fun p hp => ?_, _, List.mem_cons_self .., 0, rfl⟩
    simp only [List.mem_cons, List.not_mem_nil, or_false] at hp
    rcases hp with rfl | rfl | rfl <;> exact ⟨(nomatch ·), (nomatch ·)⟩
  refine ⟨hu, ?_⟩
  rw [C74_infinite_partial 2 (by norm_num) _ hu]
  simp [finitePart, gibbs]

/-- C74: one NaN among good energies, and a row of `+inf`, are not usable. -/
example : ¬ Usable ([(.fin 0, ()), (.nan, ()), (.fin 1, ())] : List (Flt ℝ × Unit)) ∧
    ¬ Usable ([(.pinf, ()), (.pinf, ())] : List (Flt ℝ × Unit)) := by
  constructor
  · rintro ⟨h, -⟩
    exact (h (.nan, ()) (by simp)).1 rfl
  · rintro ⟨-, p, hp, e, he⟩
    simp only [List.mem_cons, List.not_mem_nil, or_false] at hp
    rcases hp with rfl | rfl <;> cases he

end Verif
