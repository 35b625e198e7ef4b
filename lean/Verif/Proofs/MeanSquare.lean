import Verif.Spec.MeanSquare
import Verif.Proofs.Normal
import Verif.Props.Hull
import Mathlib.Analysis.SpecificLimits.Basic

/-! Lemmas for C76. -/

set_option linter.unusedSectionVars false

namespace Verif

open MeasureTheory
open scoped ENNReal

variable {ι : Type} [Fintype ι]

/-! Geometry -/

theorem spread_nonneg (x : Mat (ι → ℝ)) (N m : ℕ) : 0 ≤ spread x N m :=
  Finset.sum_nonneg fun _ _ => Finset.sum_nonneg fun _ _ => Finset.sum_nonneg fun _ _ => sq_nonneg _

theorem distTo_nonneg (x : Mat (ι → ℝ)) (N m : ℕ) (c : ι → ℝ) : 0 ≤ distTo x N m c :=
  Finset.sum_nonneg fun _ _ => Finset.sum_nonneg fun _ _ => sq_nonneg _

/-- Squared distances to one of the particles are at most half of the spread. -/
theorem distTo_particle (x : Mat (ι → ℝ)) (N m k : ℕ) (hk : k < N) : distTo x N m (x.get m k) ≤ spread x N m / 2 := by
  set g : ℕ → ℕ → ℝ := fun n k => ∑ l, (x.get m n l - x.get m k l) ^ 2 with hg
  have g0 : ∀ n k, 0 ≤ g n k := fun n k => Finset.sum_nonneg fun _ _ => sq_nonneg _
  have gs : ∀ n k, g n k = g k n := fun n k => Finset.sum_congr rfl fun l _ => by ring
  have gd : g k k = 0 := Finset.sum_eq_zero fun l _ => by ring
  have hD : spread x N m = ∑ n ∈ Finset.range N, ∑ k ∈ Finset.range N, g n k := rfl
  have hR : distTo x N m (x.get m k) = ∑ n ∈ Finset.range N, g n k := rfl
  have hk' : k ∈ Finset.range N := Finset.mem_range.2 hk
  have h1 : ∑ n ∈ Finset.range N, ∑ k ∈ Finset.range N, g n k = ∑ j ∈ Finset.range N, g k j + ∑ n ∈ (Finset.range N).erase k, ∑ j ∈ Finset.range N, g n j :=
    (Finset.add_sum_erase _ _ hk').symm
  have h2 : ∑ n ∈ (Finset.range N).erase k, g n k ≤ ∑ n ∈ (Finset.range N).erase k, ∑ j ∈ Finset.range N, g n j :=
    Finset.sum_le_sum fun n _ => Finset.single_le_sum (f := fun j => g n j) (fun j _ => g0 n j) hk'
  have h3 : ∑ n ∈ Finset.range N, g n k = g k k + ∑ n ∈ (Finset.range N).erase k, g n k := (Finset.add_sum_erase _ _ hk').symm
  have h4 : ∑ j ∈ Finset.range N, g k j = ∑ n ∈ Finset.range N, g n k := Finset.sum_congr rfl fun j _ => gs k j
  rw [hR, hD, h1, h4]
  rw [gd, zero_add] at h3
  linarith

/-- The same for every point in the convex hull of the particles. -/
theorem distTo_le (x : Mat (ι → ℝ)) (N m : ℕ) (c : ι → ℝ)
    (hc : ∀ S : Set (ι → ℝ), Convex ℝ S → (∀ n < N, x.get m n ∈ S) → c ∈ S) : distTo x N m c ≤ spread x N m / 2 := by
  refine hc {c | distTo x N m c ≤ spread x N m / 2} ?_ fun n hn => distTo_particle x N m n hn
  intro u hu v hv s t hs ht hst
  have hu : distTo x N m u ≤ spread x N m / 2 := hu
  have hv : distTo x N m v ≤ spread x N m / 2 := hv
  show distTo x N m (s • u + t • v) ≤ spread x N m / 2
  have h : distTo x N m (s • u + t • v) ≤ s * distTo x N m u + t * distTo x N m v := by
    unfold distTo
    rw [Finset.mul_sum, Finset.mul_sum, ← Finset.sum_add_distrib]
    refine Finset.sum_le_sum fun n _ => ?_
    rw [Finset.mul_sum, Finset.mul_sum, ← Finset.sum_add_distrib]
    refine Finset.sum_le_sum fun l _ => ?_
    have e : (s • u + t • v) l = s * u l + t * v l := rfl
    rw [e]
    have ht' : t = 1 - s := by linarith
    subst ht'
    nlinarith [mul_nonneg (mul_nonneg hs ht) (sq_nonneg (u l - v l))]
  calc _ ≤ _ := h
    _ ≤ s * (spread x N m / 2) + t * (spread x N m / 2) := add_le_add (mul_le_mul_of_nonneg_left hu hs) (mul_le_mul_of_nonneg_left hv ht)
    _ = _ := by rw [← add_mul, hst, one_mul]

/-- Squared distances to any point sum up to at least `spread / 2N`. -/
theorem spread_le (x : Mat (ι → ℝ)) (N m : ℕ) (c : ι → ℝ) : spread x N m ≤ 2 * N * distTo x N m c := by
  have h : ∀ (a : ℕ → ℝ), ∑ n ∈ Finset.range N, ∑ k ∈ Finset.range N, (a n - a k) ^ 2 ≤ 2 * N * ∑ n ∈ Finset.range N, a n ^ 2 := by
    intro a
    have e : ∀ n, ∑ k ∈ Finset.range N, (a n - a k) ^ 2 = N * a n ^ 2 - 2 * a n * ∑ k ∈ Finset.range N, a k + ∑ k ∈ Finset.range N, a k ^ 2 := by
      intro n
      have : ∀ k, (a n - a k) ^ 2 = a n ^ 2 - 2 * a n * a k + a k ^ 2 := fun k => by ring
      simp only [this, Finset.sum_add_distrib, Finset.sum_sub_distrib, Finset.sum_const, Finset.card_range, nsmul_eq_mul, ← Finset.mul_sum]
    have e2 : ∑ n ∈ Finset.range N, ∑ k ∈ Finset.range N, (a n - a k) ^ 2 =
        2 * N * ∑ n ∈ Finset.range N, a n ^ 2 - 2 * (∑ n ∈ Finset.range N, a n) ^ 2 := by
      rw [Finset.sum_congr rfl fun n _ => e n]
      simp only [Finset.sum_add_distrib, Finset.sum_sub_distrib, Finset.sum_const, Finset.card_range, nsmul_eq_mul, ← Finset.mul_sum, ← Finset.sum_mul]
      ring
    rw [e2]
    nlinarith [sq_nonneg (∑ n ∈ Finset.range N, a n)]
  have hs : ∀ (g : ℕ → ℕ → ι → ℝ), ∑ n ∈ Finset.range N, ∑ k ∈ Finset.range N, ∑ l, g n k l = ∑ l, ∑ n ∈ Finset.range N, ∑ k ∈ Finset.range N, g n k l := by
    intro g
    rw [Finset.sum_comm, Finset.sum_congr rfl fun k _ => Finset.sum_comm, Finset.sum_comm]
    exact Finset.sum_congr rfl fun l _ => Finset.sum_comm
  unfold spread distTo
  rw [hs, Finset.sum_comm (s := Finset.range N), Finset.mul_sum]
  refine Finset.sum_le_sum fun l _ => ?_
  have := h fun n => x.get m n l - c l
  simp only [sub_sub_sub_cancel_right] at this
  exact this

/-! One step of independent normal numbers -/

section
variable [DecidableEq ι]

theorem normal_spread {M N : ℕ} (i : Fin M) (a b : ℕ → ι → ℝ) :
    ∫⁻ z, ENNReal.ofReal (∑ n ∈ Finset.range N, ∑ k ∈ Finset.range N, ∑ l, ((a n l + b n l * drawn M N z i n l) - (a k l + b k l * drawn M N z i k l)) ^ 2) ∂stdNormal (Fin M × Fin N × ι) =
    ENNReal.ofReal (∑ n ∈ Finset.range N, ∑ k ∈ Finset.range N, ∑ l, (a n l - a k l) ^ 2 + 2 * ((N : ℝ) - 1) * ∑ n ∈ Finset.range N, ∑ l, b n l ^ 2) := by
  have hz : ∀ (z : Fin M × Fin N × ι → ℝ) (n : Fin N) l, drawn M N z i n l = z (i, n, l) := by
    intro z n l
    simp [drawn]
  have key : ∀ (n k : Fin N) l, Integrable (fun z : Fin M × Fin N × ι → ℝ => ((a n l + b n l * z (i, n, l)) - (a k l + b k l * z (i, k, l))) ^ 2) (stdNormal (Fin M × Fin N × ι)) ∧
      ∫ z, ((a n l + b n l * z (i, n, l)) - (a k l + b k l * z (i, k, l))) ^ 2 ∂stdNormal (Fin M × Fin N × ι) =
        (a n l - a k l) ^ 2 + if n = k then 0 else b n l ^ 2 + b k l ^ 2 := by
    intro n k l
    by_cases h : n = k
    · subst h
      simp
    · rw [if_neg h]
      have h' : (i, n, l) ≠ (i, k, l) := by simp [h]
      obtain ⟨h1, h2⟩ := normal_sq_two (i, n, l) (i, k, l) h' (a n l - a k l) (b n l) (b k l)
      have e : (fun z : Fin M × Fin N × ι → ℝ => ((a n l + b n l * z (i, n, l)) - (a k l + b k l * z (i, k, l))) ^ 2) =
          fun z => (a n l - a k l + b n l * z (i, n, l) - b k l * z (i, k, l)) ^ 2 := by funext z; ring
      rw [e]
      exact ⟨h1, by rw [h2]; ring⟩
  simp only [Finset.sum_range, hz]
  rw [← ofReal_integral_eq_lintegral_ofReal]
  · congr 1
    rw [integral_finsetSum]
    · simp only [integral_finsetSum Finset.univ fun k _ => integrable_finsetSum Finset.univ fun l _ => (key _ k l).1,
        integral_finsetSum Finset.univ fun l _ => (key _ _ l).1, (key _ _ _).2, Finset.sum_add_distrib]
      congr 1
      have e : ∀ n k : Fin N, (∑ l, if n = k then (0 : ℝ) else b n l ^ 2 + b k l ^ 2) =
          (∑ l, b n l ^ 2 + ∑ l, b k l ^ 2) - if n = k then 2 * ∑ l, b n l ^ 2 else 0 := by
        intro n k
        by_cases h : n = k
        · subst h; simp; ring
        · simp [h, Finset.sum_add_distrib]
      simp only [e, Finset.sum_sub_distrib, Finset.sum_add_distrib, Finset.sum_const, Finset.card_univ, Fintype.card_fin, nsmul_eq_mul, Finset.sum_ite_eq, Finset.mem_univ, if_true,
        ← Finset.mul_sum]
      ring
    · intro n _
      exact integrable_finsetSum _ fun k _ => integrable_finsetSum _ fun l _ => (key n k l).1
  · exact integrable_finsetSum _ fun n _ => integrable_finsetSum _ fun k _ => integrable_finsetSum _ fun l _ => (key n k l).1
  · exact Filter.Eventually.of_forall fun z => Finset.sum_nonneg fun _ _ => Finset.sum_nonneg fun _ _ => Finset.sum_nonneg fun _ _ => sq_nonneg _

end

/-! Steps of the machine -/

/-- Noise of the form `β(drift)·z` in every coordinate, with mean square `κ·|drift|²` for standard normal `z`. -/
structure RuleCoeff (rule : (ι → ℝ) → (ι → ℝ) → ι → ℝ) (β : (ι → ℝ) → ι → ℝ) (κ : ℝ) : Prop where
  rule : ∀ d z l, rule d z l = β d l * z l
  sq : ∀ d, ∑ l, β d l ^ 2 = κ * ∑ l, d l ^ 2

theorem iso_coeff : RuleCoeff (ι := ι) isoRule (fun d _ => euclid d) (Fintype.card ι) where
  rule d z l := by simp only [isoRule]; ring
  sq d := by
    simp only [euclid, Finset.sum_const, Finset.card_univ, nsmul_eq_mul]
    rw [Real.sq_sqrt (Finset.sum_nonneg fun _ _ => sq_nonneg _)]

theorem aniso_coeff : RuleCoeff (ι := ι) anisoRule (fun d => d) 1 where
  rule d z l := by simp only [anisoRule]; ring
  sq d := by rw [one_mul]

theorem withSample_std {env : Env ℝ (ι → ℝ)} {f : (ι → ℝ) → ℝ} {ν : ℕ → ℝ → ℕ → ℕ → (ι → ℝ) → ι → ℝ} {p : (ι → ℝ) → ι → ℝ} (hE : Standard env f ν p)
    (rule : (ι → ℝ) → (ι → ℝ) → ι → ℝ) (M N : ℕ) (z : Fin M × Fin N × ι → ℝ) :
    Standard (withSample env rule M N z) f (fun _ dt i j d => Real.sqrt dt • rule d (drawn M N z i j)) p where
  corr := hE.corr
  cons := hE.cons
  noise := rowNoise_rows (env := withSample env rule M N z) (smp := fun _ => drawn M N z) rfl
  post := hE.post
  perm := hE.perm
  f := hE.f

theorem ms_step {env : Env ℝ (ι → ℝ)} {f : (ι → ℝ) → ℝ} {ν : ℕ → ℝ → ℕ → ℕ → (ι → ℝ) → ι → ℝ} {p : (ι → ℝ) → ι → ℝ} (hE : Standard env f ν p)
    {rule : (ι → ℝ) → (ι → ℝ) → ι → ℝ} {β : (ι → ℝ) → ι → ℝ} {κ : ℝ} (hr : RuleCoeff rule β κ) {s : St ℝ (ι → ℝ)} (hw : WF s) (hb : 1 ≤ s.batchSize)
    (hfull : s.batched = false ∨ s.batchPartial = false) {m : ℕ} (hm : m ∈ s.active) :
    ∃ (i : Fin s.M) (c : ι → ℝ), (∀ S : Set (ι → ℝ), Convex ℝ S → (∀ n < s.N, s.x.get m n ∈ S) → c ∈ S) ∧
      ∀ z s', step (withSample env rule s.M s.N z) (cboInner (withSample env rule s.M s.N z)) s = .ok s' →
        (∃ i' cm, s.active.getD i' 0 = m ∧ s'.cons = some cm ∧ cm.get i' 0 = c) ∧
        ∀ n < s.N, s'.x.get m n = p fun l => (s.x.get m n l - s.lamda * s.dt * (s.x.get m n l - c l)) +
          (s.sigma * (Real.sqrt s.dt * β (fun l => s.x.get m n l - c l) l)) * drawn s.M s.N z i n l := by
  obtain ⟨i, hi, hmi⟩ := mem_getD hm
  have hiM : i < s.M := by
    have := hw.act.length_le
    rw [List.length_range] at this
    omega
  have hix := preStep_idx env hE.perm hw
  let L : List (ℝ × (ι → ℝ)) := (List.range (preStep env s).cIdx.cols).map fun j =>
    (f (s.x.get ((preStep env s).cIdx.run i) ((preStep env s).cIdx.par i j)), s.x.get ((preStep env s).cIdx.run i) ((preStep env s).cIdx.par i j))
  have hL : ∀ q ∈ L, ∃ n < s.N, q = (f (s.x.get m n), s.x.get m n) := by
    intro q hq
    obtain ⟨j, hj, rfl⟩ := List.mem_map.1 hq
    rw [List.mem_range] at hj
    have h1 := hix.cIn i (by rw [hix.cRows]; exact hi) j hj
    refine ⟨_, h1.2, ?_⟩
    rw [hix.cRun i hi, hmi]
  have hne : L ≠ [] := by
    intro h
    have : L.length = 0 := by rw [h]; rfl
    simp only [L, List.length_map, List.length_range] at this
    rw [hix.cCols] at this
    omega
  refine ⟨⟨i, hiM⟩, gibbs (s.alpha m) L, fun S hS hx => ?_, fun z s' h => ?_⟩
  · rw [← consDefault_fin]
    refine C20_convex _ _ hne S hS fun q hq => ?_
    obtain ⟨n, hn, rfl⟩ := hL q hq
    exact hx n hn
  · have hEz := withSample_std hE rule s.M s.N z
    have fr := step_frame (by rw [cboInner_eq]; exact consThen_frame (cboMove_ok _)) h
    obtain ⟨i', c, r⟩ := runStep hEz hw hb h m hm
    have hii : i' = i := getD_inj hw.nodup r.pos hi (r.act.trans hmi.symm)
    subst hii
    have hcI : s'.cIdx = (preStep env s).cIdx := fr.cIdx
    have hpI : s'.pIdx = (preStep env s).pIdx := fr.pIdx
    have hc : c = gibbs (s.alpha m) L := by
      rw [r.pairs]
      unfold batchPairs
      rw [hcI]
    subst hc
    refine ⟨?_, fun n hn => ?_⟩
    · obtain ⟨cm, e1, e2⟩ := r.cons
      exact ⟨i', cm, r.act, e1, e2⟩
    have hsel : s'.pIdx.Sel m n := by
      rw [hpI, preStep_pSel hE.perm hw]
      refine ⟨hm, hn, fun h1 h2 => ?_⟩
      rcases hfull with h3 | h3
      · rw [h1] at h3; cases h3
      · rw [h2] at h3; cases h3
    have hpar : ∀ j, s'.pIdx.par i' j = j := by
      intro j
      rw [hpI]
      by_cases hbt : s.batched = true
      · rcases hfull with h3 | h3
        · rw [h3] at hbt; cases hbt
        · rw [(preStep_pIdx env s hw).2.1 hbt h3]
          rfl
      · exact ((preStep_pIdx env s hw).2.2 (by simpa using hbt)).2.2.2.2 i' j
    obtain ⟨j, hj1, hj2⟩ := r.moved n hn hsel
    rw [hpar] at hj1
    subst hj1
    rw [hj2]
    congr 1
    funext l
    have hsub : ∀ u v : ι → ℝ, (u - v) = fun l => u l - v l := fun _ _ => rfl
    simp only [cboUpdate, hr.rule, Pi.add_apply, Pi.smul_apply, Pi.sub_apply, smul_eq_mul, hsub]
    ring

theorem clip_shrinks (t : ℝ) : Shrinks (ι := ι) (clipVec t) := by
  intro u v l
  rw [sq_le_sq]
  simp only [clipVec]
  exact (abs_min_sub_min_le_max _ _ _ _).trans (by simpa using abs_max_sub_max_le_max (u l) (-t) (v l) (-t))

theorem ms_step_bound [DecidableEq ι] {env : Env ℝ (ι → ℝ)} {f : (ι → ℝ) → ℝ} {ν : ℕ → ℝ → ℕ → ℕ → (ι → ℝ) → ι → ℝ} {p : (ι → ℝ) → ι → ℝ} (hE : Standard env f ν p)
    {rule : (ι → ℝ) → (ι → ℝ) → ι → ℝ} {β : (ι → ℝ) → ι → ℝ} {κ : ℝ} (hr : RuleCoeff rule β κ) {s : St ℝ (ι → ℝ)} (hw : WF s) (hb : 1 ≤ s.batchSize)
    (hfull : s.batched = false ∨ s.batchPartial = false) {m : ℕ} (hm : m ∈ s.active) (hsi : s.saveInt ≠ 0) (hdt : 0 ≤ s.dt) :
    ∃ c : ι → ℝ, (∀ S : Set (ι → ℝ), Convex ℝ S → (∀ n < s.N, s.x.get m n ∈ S) → c ∈ S) ∧
      (∀ z, ∃ s' i cm, step (withSample env rule s.M s.N z) (cboInner (withSample env rule s.M s.N z)) s = .ok s' ∧
        s.active.getD i 0 = m ∧ s'.cons = some cm ∧ cm.get i 0 = c) ∧
      (Shrinks p → expect env rule 1 (fun q => ENNReal.ofReal (spread q.x q.N m)) s ≤
        ENNReal.ofReal ((1 - s.lamda * s.dt) ^ 2 * spread s.x s.N m + 2 * ((s.N : ℝ) - 1) * κ * s.sigma ^ 2 * s.dt * distTo s.x s.N m c)) ∧
      ((∀ v, p v = v) → expect env rule 1 (fun q => ENNReal.ofReal (spread q.x q.N m)) s =
        ENNReal.ofReal ((1 - s.lamda * s.dt) ^ 2 * spread s.x s.N m + 2 * ((s.N : ℝ) - 1) * κ * s.sigma ^ 2 * s.dt * distTo s.x s.N m c)) := by
  obtain ⟨i, c, hc, hstep⟩ := ms_step hE hr hw hb hfull hm
  have htot : ∀ z, ∃ s', step (withSample env rule s.M s.N z) (cboInner (withSample env rule s.M s.N z)) s = .ok s' := by
    intro z
    have hEz := withSample_std hE rule s.M s.N z
    refine cboStep_total_of hEz.corr ⟨_, hEz.cons⟩ (fun s => ⟨_, hEz.post s, rfl, rfl⟩) hEz.perm hw hsi ?_ fun q d h _ _ _ _ _ _ => hEz.noise.ok q d h
    exact fun _ => ⟨List.ne_nil_of_mem hm, by omega⟩
  choose T hT using htot
  set a : ℕ → ι → ℝ := fun n l => s.x.get m n l - s.lamda * s.dt * (s.x.get m n l - c l) with ha
  set b : ℕ → ι → ℝ := fun n l => s.sigma * (Real.sqrt s.dt * β (fun l => s.x.get m n l - c l) l) with hbb
  have hN : ∀ z, (T z).N = s.N := fun z => (step_frame (by rw [cboInner_eq]; exact consThen_frame (cboMove_ok _)) (hT z)).N
  have he : expect env rule 1 (fun q => ENNReal.ofReal (spread q.x q.N m)) s = ∫⁻ z, ENNReal.ofReal (spread (T z).x s.N m) ∂stdNormal (Fin s.M × Fin s.N × ι) := by
    simp only [expect]
    refine lintegral_congr fun z => ?_
    rw [hT z]
    simp only [hN]
  have hval : ENNReal.ofReal ((1 - s.lamda * s.dt) ^ 2 * spread s.x s.N m + 2 * ((s.N : ℝ) - 1) * κ * s.sigma ^ 2 * s.dt * distTo s.x s.N m c) =
      ∫⁻ z, ENNReal.ofReal (∑ n ∈ Finset.range s.N, ∑ k ∈ Finset.range s.N, ∑ l, ((a n l + b n l * drawn s.M s.N z i n l) - (a k l + b k l * drawn s.M s.N z i k l)) ^ 2)
        ∂stdNormal (Fin s.M × Fin s.N × ι) := by
    rw [normal_spread]
    congr 2
    · rw [spread, Finset.mul_sum]
      refine Finset.sum_congr rfl fun n _ => ?_
      rw [Finset.mul_sum]
      refine Finset.sum_congr rfl fun k _ => ?_
      rw [Finset.mul_sum]
      refine Finset.sum_congr rfl fun l _ => ?_
      simp only [ha]
      ring
    · rw [distTo, Finset.mul_sum, Finset.mul_sum]
      refine Finset.sum_congr rfl fun n _ => ?_
      have := hr.sq fun l => s.x.get m n l - c l
      simp only [hbb, mul_pow, ← Finset.mul_sum, this, Real.sq_sqrt hdt]
      ring
  refine ⟨c, hc, fun z => ?_, fun hp => ?_, fun hp => ?_⟩
  · obtain ⟨⟨i', cm, e1, e2, e3⟩, -⟩ := hstep z (T z) (hT z)
    exact ⟨T z, i', cm, hT z, e1, e2, e3⟩
  · rw [he, hval]
    refine lintegral_mono fun z => ENNReal.ofReal_le_ofReal ?_
    unfold spread
    refine Finset.sum_le_sum fun n hn => Finset.sum_le_sum fun k hk => Finset.sum_le_sum fun l _ => ?_
    obtain ⟨-, hx⟩ := hstep z (T z) (hT z)
    rw [hx n (Finset.mem_range.1 hn), hx k (Finset.mem_range.1 hk)]
    exact hp _ _ l
  · rw [he, hval]
    refine lintegral_congr fun z => ?_
    congr 1
    unfold spread
    refine Finset.sum_congr rfl fun n hn => Finset.sum_congr rfl fun k hk => Finset.sum_congr rfl fun l _ => ?_
    obtain ⟨-, hx⟩ := hstep z (T z) (hT z)
    rw [hx n (Finset.mem_range.1 hn), hx k (Finset.mem_range.1 hk), hp, hp]

/-- What stays fixed during steps, as far as the spread of run `m` is concerned. -/
structure MsOK (m N : ℕ) (lamda dt sigma : ℝ) (s : St ℝ (ι → ℝ)) : Prop where
  wf : WF s
  bs : 1 ≤ s.batchSize
  full : s.batched = false ∨ s.batchPartial = false
  mem : m ∈ s.active
  si : s.saveInt ≠ 0
  N : s.N = N
  lamda : s.lamda = lamda
  dt : s.dt = dt
  sigma : s.sigma = sigma

theorem ms_total {env : Env ℝ (ι → ℝ)} {f : (ι → ℝ) → ℝ} {ν : ℕ → ℝ → ℕ → ℕ → (ι → ℝ) → ι → ℝ} {p : (ι → ℝ) → ι → ℝ} (hE : Standard env f ν p)
    (rule : (ι → ℝ) → (ι → ℝ) → ι → ℝ) {m N : ℕ} {lamda dt sigma : ℝ} {s : St ℝ (ι → ℝ)} (hs : MsOK m N lamda dt sigma s) (z : Fin s.M × Fin s.N × ι → ℝ) :
    ∃ s', step (withSample env rule s.M s.N z) (cboInner (withSample env rule s.M s.N z)) s = .ok s' ∧ MsOK m N lamda dt sigma s' := by
  have hEz := withSample_std hE rule s.M s.N z
  obtain ⟨s', h⟩ := cboStep_total_of hEz.corr ⟨_, hEz.cons⟩ (fun s => ⟨_, hEz.post s, rfl, rfl⟩) hEz.perm hs.wf hs.si
    (fun _ => ⟨List.ne_nil_of_mem hs.mem, by have := hs.bs; omega⟩) fun q d h _ _ _ _ _ _ => hEz.noise.ok q d h
  have fr := step_frame (by rw [cboInner_eq]; exact consThen_frame (cboMove_ok _)) h
  refine ⟨s', h, step_wf (cboMove_ok _) hEz.post.ok hEz.perm hs.wf (by rw [← cboInner_eq]; exact h), ?_, ?_, ?_, ?_, ?_, ?_, ?_, ?_⟩
  · rw [fr.batchSize]; exact hs.bs
  · rw [fr.batched, fr.batchPartial]; exact hs.full
  · rw [fr.active]; exact hs.mem
  · rw [fr.saveInt]; exact hs.si
  · rw [fr.N]; exact hs.N
  · rw [fr.lamda]; exact hs.lamda
  · rw [fr.dt]; exact hs.dt
  · rw [fr.sigma]; exact hs.sigma

theorem expect_succ (env : Env ℝ (ι → ℝ)) (rule : (ι → ℝ) → (ι → ℝ) → ι → ℝ) (k : ℕ) (F : St ℝ (ι → ℝ) → ℝ≥0∞) (s : St ℝ (ι → ℝ)) :
    expect env rule (k + 1) F s = expect env rule 1 (expect env rule k F) s := rfl

/-- Expectations are monotone, along states with the invariant. -/
theorem expect_mono {env : Env ℝ (ι → ℝ)} {f : (ι → ℝ) → ℝ} {ν : ℕ → ℝ → ℕ → ℕ → (ι → ℝ) → ι → ℝ} {p : (ι → ℝ) → ι → ℝ} (hE : Standard env f ν p)
    (rule : (ι → ℝ) → (ι → ℝ) → ι → ℝ) {m N : ℕ} {lamda dt sigma : ℝ} {F G : St ℝ (ι → ℝ) → ℝ≥0∞} (hFG : ∀ s, MsOK m N lamda dt sigma s → F s ≤ G s) :
    ∀ k s, MsOK m N lamda dt sigma s → expect env rule k F s ≤ expect env rule k G s
  | 0, s, hs => hFG s hs
  | k + 1, s, hs => by
    simp only [expect]
    refine lintegral_mono fun z => ?_
    obtain ⟨s', h, hs'⟩ := ms_total hE rule hs z
    simp only [h]
    exact expect_mono hE rule hFG k s' hs'

theorem expect_mul {env : Env ℝ (ι → ℝ)} {f : (ι → ℝ) → ℝ} {ν : ℕ → ℝ → ℕ → ℕ → (ι → ℝ) → ι → ℝ} {p : (ι → ℝ) → ι → ℝ} (hE : Standard env f ν p)
    (rule : (ι → ℝ) → (ι → ℝ) → ι → ℝ) {m N : ℕ} {lamda dt sigma : ℝ} (F : St ℝ (ι → ℝ) → ℝ≥0∞) (c : ℝ≥0∞) (hc : c ≠ ⊤) :
    ∀ k s, MsOK m N lamda dt sigma s → expect env rule k (fun q => c * F q) s = c * expect env rule k F s
  | 0, _, _ => rfl
  | k + 1, s, hs => by
    simp only [expect]
    rw [← lintegral_const_mul' _ _ hc]
    refine lintegral_congr fun z => ?_
    obtain ⟨s', h, hs'⟩ := ms_total hE rule hs z
    simp only [h]
    exact expect_mul hE rule F c hc k s' hs'

theorem ms_upper [DecidableEq ι] {env : Env ℝ (ι → ℝ)} {f : (ι → ℝ) → ℝ} {ν : ℕ → ℝ → ℕ → ℕ → (ι → ℝ) → ι → ℝ} {p : (ι → ℝ) → ι → ℝ} (hE : Standard env f ν p)
    (hp : Shrinks p) {rule : (ι → ℝ) → (ι → ℝ) → ι → ℝ} {β : (ι → ℝ) → ι → ℝ} {κ : ℝ} (hr : RuleCoeff rule β κ) (hκ : 0 ≤ κ) {m N : ℕ} {lamda dt sigma : ℝ} (hdt : 0 ≤ dt) :
    ∀ k s, MsOK m N lamda dt sigma s → expect env rule k (fun q => ENNReal.ofReal (spread q.x q.N m)) s ≤
      ENNReal.ofReal (((1 - lamda * dt) ^ 2 + ((N : ℝ) - 1) * κ * sigma ^ 2 * dt) ^ k * spread s.x s.N m)
  | 0, s, _ => by simp [expect]
  | k + 1, s, hs => by
    have hN1 : (0 : ℝ) ≤ (N : ℝ) - 1 := by
      have h1 := hs.wf.pos
      rw [hs.N] at h1
      have h2 : (1 : ℝ) ≤ (N : ℝ) := by exact_mod_cast h1
      linarith
    set q := (1 - lamda * dt) ^ 2 + ((N : ℝ) - 1) * κ * sigma ^ 2 * dt with hq
    have hq0 : 0 ≤ q := by positivity
    rw [expect_succ]
    have h1 : expect env rule 1 (expect env rule k fun q => ENNReal.ofReal (spread q.x q.N m)) s ≤
        expect env rule 1 (fun s' => ENNReal.ofReal (q ^ k) * ENNReal.ofReal (spread s'.x s'.N m)) s := by
      refine expect_mono hE rule (fun s' hs' => ?_) 1 s hs
      rw [← ENNReal.ofReal_mul (pow_nonneg hq0 k)]
      exact ms_upper hE hp hr hκ hdt k s' hs'
    refine h1.trans ?_
    rw [expect_mul hE rule _ _ ENNReal.ofReal_ne_top 1 s hs]
    obtain ⟨c, hc, -, h2, -⟩ := ms_step_bound hE hr hs.wf hs.bs hs.full hs.mem hs.si (by rw [hs.dt]; exact hdt)
    refine (mul_le_mul_right (h2 hp) _).trans ?_
    rw [← ENNReal.ofReal_mul (pow_nonneg hq0 k)]
    refine ENNReal.ofReal_le_ofReal ?_
    rw [pow_succ q k, mul_assoc (q ^ k)]
    refine mul_le_mul_of_nonneg_left ?_ (pow_nonneg hq0 k)
    have h3 := distTo_le s.x s.N m c hc
    rw [hs.lamda, hs.dt, hs.sigma, hq]
    rw [hs.N] at h3 ⊢
    have h4 : 2 * ((N : ℝ) - 1) * κ * sigma ^ 2 * dt * distTo s.x N m c ≤ 2 * ((N : ℝ) - 1) * κ * sigma ^ 2 * dt * (spread s.x N m / 2) :=
      mul_le_mul_of_nonneg_left h3 (by positivity)
    linarith

theorem ms_lower [DecidableEq ι] {env : Env ℝ (ι → ℝ)} {f : (ι → ℝ) → ℝ} {ν : ℕ → ℝ → ℕ → ℕ → (ι → ℝ) → ι → ℝ} {p : (ι → ℝ) → ι → ℝ} (hE : Standard env f ν p)
    (hp : ∀ v, p v = v) {rule : (ι → ℝ) → (ι → ℝ) → ι → ℝ} {β : (ι → ℝ) → ι → ℝ} {κ : ℝ} (hr : RuleCoeff rule β κ) (hκ : 0 ≤ κ) {m N : ℕ} {lamda dt sigma : ℝ} (hdt : 0 ≤ dt) :
    ∀ k s, MsOK m N lamda dt sigma s →
      ENNReal.ofReal (((1 - lamda * dt) ^ 2 + (1 - 1 / (N : ℝ)) * κ * sigma ^ 2 * dt) ^ k * spread s.x s.N m) ≤ expect env rule k (fun q => ENNReal.ofReal (spread q.x q.N m)) s
  | 0, s, _ => by simp [expect]
  | k + 1, s, hs => by
    have h1 := hs.wf.pos
    rw [hs.N] at h1
    have h2 : (1 : ℝ) ≤ (N : ℝ) := by exact_mod_cast h1
    have hN0 : (0 : ℝ) < N := by linarith
    have hN1 : (0 : ℝ) ≤ 1 - 1 / (N : ℝ) := by
      rw [sub_nonneg, div_le_one hN0]; exact h2
    set q := (1 - lamda * dt) ^ 2 + (1 - 1 / (N : ℝ)) * κ * sigma ^ 2 * dt with hq
    have hq0 : 0 ≤ q := by positivity
    rw [expect_succ]
    have h1 : expect env rule 1 (fun s' => ENNReal.ofReal (q ^ k) * ENNReal.ofReal (spread s'.x s'.N m)) s ≤
        expect env rule 1 (expect env rule k fun q => ENNReal.ofReal (spread q.x q.N m)) s := by
      refine expect_mono hE rule (fun s' hs' => ?_) 1 s hs
      rw [← ENNReal.ofReal_mul (pow_nonneg hq0 k)]
      exact ms_lower hE hp hr hκ hdt k s' hs'
    refine le_trans ?_ h1
    rw [expect_mul hE rule _ _ ENNReal.ofReal_ne_top 1 s hs]
    obtain ⟨c, hc, -, -, h2⟩ := ms_step_bound hE hr hs.wf hs.bs hs.full hs.mem hs.si (by rw [hs.dt]; exact hdt)
    rw [h2 hp, ← ENNReal.ofReal_mul (pow_nonneg hq0 k)]
    refine ENNReal.ofReal_le_ofReal ?_
    rw [pow_succ q k, mul_assoc (q ^ k)]
    refine mul_le_mul_of_nonneg_left ?_ (pow_nonneg hq0 k)
    have h3 := spread_le s.x s.N m c
    rw [hs.lamda, hs.dt, hs.sigma, hq]
    rw [hs.N] at h3 ⊢
    have h4 : (1 - 1 / (N : ℝ)) * κ * sigma ^ 2 * dt * spread s.x N m ≤ (1 - 1 / (N : ℝ)) * κ * sigma ^ 2 * dt * (2 * N * distTo s.x N m c) :=
      mul_le_mul_of_nonneg_left h3 (by positivity)
    have h5 : (1 - 1 / (N : ℝ)) * κ * sigma ^ 2 * dt * (2 * N * distTo s.x N m c) = 2 * ((N : ℝ) - 1) * κ * sigma ^ 2 * dt * distTo s.x N m c := by
      field_simp
    linarith

theorem ms_prob {env : Env ℝ (ι → ℝ)} {f : (ι → ℝ) → ℝ} {ν : ℕ → ℝ → ℕ → ℕ → (ι → ℝ) → ι → ℝ} {p : (ι → ℝ) → ι → ℝ} (hE : Standard env f ν p)
    (rule : (ι → ℝ) → (ι → ℝ) → ι → ℝ) {m N : ℕ} {lamda dt sigma : ℝ} (ε : ℝ) (hε : 0 < ε) (k : ℕ) (s : St ℝ (ι → ℝ)) (hs : MsOK m N lamda dt sigma s) :
    probSpread env rule k m ε s ≤ ENNReal.ofReal (1 / ε) * expect env rule k (fun q => ENNReal.ofReal (spread q.x q.N m)) s := by
  rw [← expect_mul hE rule _ _ ENNReal.ofReal_ne_top k s hs]
  refine expect_mono hE rule (fun q _ => ?_) k s hs
  rw [← ENNReal.ofReal_mul (by positivity)]
  split_ifs with h
  · rw [← ENNReal.ofReal_one]
    refine ENNReal.ofReal_le_ofReal ?_
    rw [one_div, inv_mul_eq_div, le_div_iff₀ hε, one_mul]
    exact h
  · exact zero_le

open Filter Topology in
theorem ms_tail {env : Env ℝ (ι → ℝ)} {f : (ι → ℝ) → ℝ} {ν : ℕ → ℝ → ℕ → ℕ → (ι → ℝ) → ι → ℝ} {p : (ι → ℝ) → ι → ℝ} (hE : Standard env f ν p)
    (rule : (ι → ℝ) → (ι → ℝ) → ι → ℝ) {m N : ℕ} {lamda dt sigma : ℝ} {s : St ℝ (ι → ℝ)} (hs : MsOK m N lamda dt sigma s) {q : ℝ} (hq0 : 0 ≤ q)
    (h : ∀ k, expect env rule k (fun q => ENNReal.ofReal (spread q.x q.N m)) s ≤ ENNReal.ofReal (q ^ k * spread s.x s.N m)) :
    ∀ ε > 0, (∀ k, probSpread env rule k m ε s ≤ ENNReal.ofReal (q ^ k * spread s.x s.N m / ε)) ∧
      (q < 1 → Tendsto (fun k => probSpread env rule k m ε s) atTop (𝓝 0)) := by
  intro ε hε
  have h1 : ∀ k, probSpread env rule k m ε s ≤ ENNReal.ofReal (q ^ k * spread s.x s.N m / ε) := by
    intro k
    refine (ms_prob hE rule ε hε k s hs).trans ?_
    refine (mul_le_mul_right (h k) _).trans (le_of_eq ?_)
    rw [← ENNReal.ofReal_mul (by positivity)]
    congr 1
    ring
  refine ⟨h1, fun hq => ?_⟩
  refine tendsto_of_tendsto_of_tendsto_of_le_of_le tendsto_const_nhds ?_ (fun _ => zero_le) h1
  have h2 : Tendsto (fun k : ℕ => q ^ k * spread s.x s.N m / ε) atTop (𝓝 (0 * spread s.x s.N m / ε)) :=
    ((tendsto_pow_atTop_nhds_zero_of_lt_one hq0 hq).mul_const _).div_const _
  have h3 := ENNReal.tendsto_ofReal h2
  simpa using h3

open Filter Topology in
theorem ms_blowup {g : ℕ → ℝ≥0∞} {q D : ℝ} (h : ∀ k, ENNReal.ofReal (q ^ k * D) ≤ g k) (hq : 1 < q) (hD : 0 < D) : Tendsto g atTop (𝓝 ⊤) := by
  refine tendsto_of_tendsto_of_tendsto_of_le_of_le ?_ tendsto_const_nhds h fun _ => le_top
  exact ENNReal.tendsto_ofReal_nhds_top.2 ((tendsto_pow_atTop_atTop_of_one_lt hq).atTop_mul_const hD)

end Verif
