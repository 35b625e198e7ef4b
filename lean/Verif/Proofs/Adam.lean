import Verif.Proofs.MoveTotal
import Verif.Spec.Adam
import Verif.Spec.Example
import Mathlib.Algebra.BigOperators.Intervals
import Mathlib.Algebra.Order.BigOperators.Group.Finset
import Mathlib.Algebra.Module.BigOperators
import Mathlib.Tactic.Module
import Mathlib.Tactic.Ring
import Mathlib.Tactic.FieldSimp
import Mathlib.Tactic.Linarith
import Mathlib.Analysis.Real.Sqrt

/-! Helper lemmas for `Props/Adam.lean`. -/

set_option linter.unusedSectionVars false

namespace Verif

section machine
variable {K V : Type} [Zero K] [One K] [Neg K] [Add K] [Sub K] [Mul K] [Inv K] [Div K] [NatCast K] [Pow K ℕ] [LinearOrder K] [Add V] [Sub V] [SMul K V]

theorem Mat.scatter_last {α : Type} {a v r : Mat α} {ix : Idx} (h : a.scatter ix v = .ok r) (h1 : v.rows = ix.rows)
    (h2 : v.cols = ix.cols) (m n : ℕ) {p : ℕ × ℕ} (hp : ix.lastPos m n = some p) : r.get m n = v.get p.1 p.2 := by
  unfold Mat.scatter at h
  split_ifs at h with hb
  obtain ⟨v', hv, hr, hc, hg⟩ := Mat.bto_same (b := v) h1 h2
  rw [hv] at h
  simp only at h
  injection h with h
  subst h
  obtain ⟨p1, p2, -, -⟩ := Idx.lastPos_some hp
  simp only [hp]
  exact hg _ p1 _ p2

/-- One moment update, particle by particle. -/
theorem momentUpdate_facts {β : K} {a d r : Mat V} {ix : Idx} (h : momentUpdate β a ix d = .ok r) (h1 : d.rows = ix.rows)
    (h2 : d.cols = ix.cols) : r.rows = a.rows ∧ r.cols = a.cols ∧
      (∀ m n, ix.lastPos m n = none → r.get m n = a.get m n) ∧
      ∀ m n p, ix.lastPos m n = some p → r.get m n = β • a.get m n + (1 - β) • d.get p.1 p.2 := by
  simp only [momentUpdate, bind_ok] at h
  obtain ⟨g, hg, v, hv, hr⟩ := h
  obtain ⟨-, g1, g2, g3⟩ := Mat.gather_ok hg
  obtain ⟨v1, v2, v3⟩ := Mat.bin_ok hv
  rw [g1, h1, Mat.bdim_self] at v1
  rw [g2, h2, Mat.bdim_self] at v2
  have v1' : v.rows = ix.rows := (Option.some.inj v1).symm
  have v2' : v.cols = ix.cols := (Option.some.inj v2).symm
  obtain ⟨-, r1, r2, r3, -⟩ := Mat.scatter_ok hr
  refine ⟨r1, r2, fun m n hl => r3 m n (Idx.lastPos_none.1 hl), fun m n p hl => ?_⟩
  obtain ⟨p1, p2, p3, p4⟩ := Idx.lastPos_some hl
  rw [Mat.scatter_last hr v1' v2' m n hl, v3, Mat.bpos_lt (by omega), Mat.bpos_lt (by omega), Mat.bpos_lt (by omega),
    Mat.bpos_lt (by omega), g3, p3, p4]

theorem momentUpdate_shape {β : K} {a d r : Mat V} {ix : Idx} (h : momentUpdate β a ix d = .ok r) :
    r.rows = a.rows ∧ r.cols = a.cols := by
  simp only [momentUpdate, bind_ok] at h
  obtain ⟨g, hg, v, hv, hr⟩ := h
  obtain ⟨-, r1, r2, -⟩ := Mat.scatter_ok hr
  exact ⟨r1, r2⟩

/-- What an Adam move does. -/
theorem adamMove_facts {env : Env K V} {A : AdamOps V} {β1 β2 : K} {s s' : St K V} (h : adamMove env A β1 β2 s = .ok s') :
    MoveFrame s s' ∧ (s'.x.rows = s.x.rows ∧ s'.x.cols = s.x.cols) ∧ s'.log = s.log ∧ s'.nEval = s.nEval ∧
      (∀ m n, ¬ s.pIdx.Sel m n → s'.x.get m n = s.x.get m n) ∧
      ∃ c xp d, s.cons = some c ∧ s.x.gather s.pIdx = .ok xp ∧ Mat.bin (fun a b => a - b) xp c = .ok d ∧ s'.drift = some d ∧
        momentUpdate β1 s.aux1 s.pIdx d = .ok s'.aux1 ∧ momentUpdate β2 s.aux2 s.pIdx (d.map A.sq) = .ok s'.aux2 := by
  unfold adamMove at h
  split at h
  · simp at h
  · next c hc =>
    simp only [bind_ok, pure_ok] at h
    obtain ⟨xp, e1, d, e2, m, e3, v, e4, mf, e5, vf, e6, mp, e7, vp, e8, q, e9, n, e10, u, e11, x, e12, rfl⟩ := h
    obtain ⟨-, x1, x2, x3, -⟩ := Mat.scatterAdd_ok e12
    exact ⟨rfl, ⟨x1, x2⟩, rfl, rfl, x3, c, xp, d, hc, e1, e2, rfl, e3, e4⟩

theorem adamMove_ok (env : Env K V) (A : AdamOps V) (β1 β2 : K) : MoveOK (adamMove env A β1 β2) :=
  ⟨fun _ _ h => (adamMove_facts h).1, fun _ _ h => (adamMove_facts h).2.1.1, fun _ _ h => (adamMove_facts h).2.1.2,
    fun _ _ h => ⟨[], by simp [(adamMove_facts h).2.2.1], by simp⟩⟩

theorem adamMove_local (env : Env K V) (A : AdamOps V) (β1 β2 : K) : MoveLocal (adamMove env A β1 β2) :=
  fun _ _ h => (adamMove_facts h).2.2.2.2.1

/-- Moments after one step. -/
structure AdamStep (A : AdamOps V) (β1 β2 : K) (s s' : St K V) : Prop where
  shape1 : s'.aux1.rows = s.aux1.rows ∧ s'.aux1.cols = s.aux1.cols
  shape2 : s'.aux2.rows = s.aux2.rows ∧ s'.aux2.cols = s.aux2.cols
  unsel : ∀ m n, driftAt s' m n = none → s'.aux1.get m n = s.aux1.get m n ∧ s'.aux2.get m n = s.aux2.get m n
  sel : ∀ m n d, driftAt s' m n = some d → s'.aux1.get m n = β1 • s.aux1.get m n + (1 - β1) • d ∧
    s'.aux2.get m n = β2 • s.aux2.get m n + (1 - β2) • A.sq d
  some_iff : ∀ m n, (driftAt s' m n).isSome = true ↔ s'.pIdx.Sel m n
  drift : ∀ m n d, driftAt s' m n = some d → ∃ c i, s'.cons = some c ∧ i < s.active.length ∧ s.active.getD i 0 = m ∧
    d = s.x.get m n - c.get i 0

theorem adamStep_facts {env : Env K V} {A : AdamOps V} {β1 β2 : K} (hmean : ∃ r, env.cons = .mean r) (hp : PermOK env)
    {s s' : St K V} (hw : WF s) (h : step env (consThen env (adamMove env A β1 β2)) s = .ok s') : AdamStep A β1 β2 s s' := by
  have f := step_frame (consThen_frame (adamMove_ok env A β1 β2)) h
  obtain ⟨v, hv, hps⟩ := step_split.1 h
  obtain ⟨c, hcc, hmv⟩ := consThen_split.1 hv
  have hix := preStep_idx env hp hw
  have p1 := preStep_frame env s
  have pact : (preStep env s).active = s.active := by rw [p1]
  have cf := computeConsensus_frame hcc
  obtain ⟨r, hr⟩ := hmean
  obtain ⟨cm, hcm, cm1, cm2, -⟩ := computeConsensus_mean hr (by rw [pact]; exact hix.cRows) hcc
  have pf := postStep_facts hps
  obtain ⟨mf, -, -, -, -, cm', xp, d, hcm', e1, e2, e3, e4, e5⟩ := adamMove_facts hmv
  rw [hcm] at hcm'
  injection hcm' with hcm'
  subst hcm'
  have cp : c.pIdx = s'.pIdx := by rw [f.pIdx, cf]
  have cx : c.x = s.x := by rw [cf]; simp only; rw [p1]
  have ca1 : c.aux1 = s.aux1 := by rw [cf]; simp only; rw [p1]
  have ca2 : c.aux2 = s.aux2 := by rw [cf]; simp only; rw [p1]
  have va1 : s'.aux1 = v.aux1 := by rw [pf.frame]
  have va2 : s'.aux2 = v.aux2 := by rw [pf.frame]
  have vd : s'.drift = some d := by rw [pf.frame]; exact e3
  have vc : s'.cons = some cm := by
    rw [pf.frame]
    simp only
    unfold MoveFrame at mf
    rw [mf]
    exact hcm
  rw [cp, ca1, ← va1] at e4
  rw [cp, ca2, ← va2] at e5
  rw [cp, cx] at e1
  have pr : s'.pIdx.rows = s.active.length := by rw [f.pIdx]; exact hix.pRows
  obtain ⟨-, g1, g2, g3⟩ := Mat.gather_ok e1
  obtain ⟨b1, b2, b3⟩ := Mat.bin_ok e2
  have cr : cm.rows = s.active.length := by rw [cm1, pact]
  rw [g1, cr, pr, Mat.bdim_self] at b1
  rw [g2, cm2, Mat.bdim_one_right] at b2
  have d1 : d.rows = s'.pIdx.rows := by rw [pr]; exact (Option.some.inj b1).symm
  have d2 : d.cols = s'.pIdx.cols := (Option.some.inj b2).symm
  obtain ⟨a1, a2, a3, a4⟩ := momentUpdate_facts e4 d1 d2
  obtain ⟨c1, c2, c3, c4⟩ := momentUpdate_facts (d := d.map A.sq) e5 d1 d2
  have dn : ∀ m n, driftAt s' m n = none ↔ s'.pIdx.lastPos m n = none := by
    intro m n
    unfold driftAt
    rw [vd]
    cases s'.pIdx.lastPos m n <;> simp
  have ds : ∀ m n w, driftAt s' m n = some w → ∃ p, s'.pIdx.lastPos m n = some p ∧ w = d.get p.1 p.2 := by
    intro m n w
    unfold driftAt
    rw [vd]
    cases s'.pIdx.lastPos m n with
    | none => simp
    | some p => simp only [Option.some.injEq]; exact fun h => ⟨p, rfl, h.symm⟩
  refine ⟨⟨a1, a2⟩, ⟨c1, c2⟩, ?_, ?_, ?_, ?_⟩
  · intro m n hn
    have := (dn m n).1 hn
    exact ⟨a3 m n this, c3 m n this⟩
  · intro m n w hn
    obtain ⟨p, hp, rfl⟩ := ds m n w hn
    exact ⟨a4 m n p hp, c4 m n p hp⟩
  · intro m n
    rw [← Option.ne_none_iff_isSome, Ne, dn, Idx.lastPos_none, not_not]
  · intro m n w hn
    obtain ⟨p, hl, rfl⟩ := ds m n w hn
    obtain ⟨q1, q2, q3, q4⟩ := Idx.lastPos_some hl
    rw [pr] at q1
    refine ⟨cm, p.1, vc, q1, ?_, ?_⟩
    · rw [← q3, f.pIdx]; exact (hix.pRun p.1 q1).symm
    · rw [b3, g1, g2, g3, cr, cm2, Mat.bpos_lt (by omega), Mat.bpos_lt (by omega), Mat.bpos_lt (by omega), q3, q4]
      rfl

/-- Operations other than steps leave the moments alone. -/
theorem exec_aux {env : Env K V} {inner : St K V → Except Err (St K V)} {o : Op} {s s' : St K V}
    (h : exec env inner o s = .ok s') (ho : o ≠ .step) : s'.aux1 = s.aux1 ∧ s'.aux2 = s.aux2 := by
  cases o with
  | step => exact absurd rfl ho
  | select => rw [select_frame h]; exact ⟨rfl, rfl⟩
  | sched => rw [sched_frame h]; exact ⟨rfl, rfl⟩
  | reset =>
    simp only [exec] at h
    injection h with h
    subst h
    exact ⟨rfl, rfl⟩

theorem init_aux {env : Env K V} {a : Args K V} {s : St K V} (h : init env a = .ok s) :
    s.aux1 = a.x0.map a.aux1 ∧ s.aux2 = a.x0.map a.aux2 ∧ s.it = 0 := by
  unfold init at h
  split_ifs at h
  all_goals
    injection h with h
    subst h
    exact ⟨rfl, rfl, rfl⟩

end machine

section module
variable {K V : Type} [Field K] [LinearOrder K] [AddCommGroup V] [Module K V]

theorem ema_append (β : K) (l : List V) (d : V) : ema β (l ++ [d]) = β • ema β l + (1 - β) • d := by
  unfold ema
  rw [List.length_append, List.length_singleton, Finset.sum_range_succ, Finset.smul_sum]
  congr 1
  · refine Finset.sum_congr rfl fun i hi => ?_
    have hi := Finset.mem_range.1 hi
    have e : (l ++ [d]).getD i 0 = l.getD i 0 := by simp [List.getD, List.getElem?_append_left hi]
    rw [e, smul_smul]
    congr 1
    unfold emaWeight
    have : l.length + 1 - 1 - i = (l.length - 1 - i) + 1 := by omega
    rw [this, pow_succ]
    ring
  · have e : (l ++ [d]).getD l.length 0 = d := by simp [List.getD]
    rw [e]
    simp [emaWeight]

theorem ema_nil (β : K) : ema β ([] : List V) = 0 := by simp [ema]

/-- The weights of `k` past values sum to `1 - β^k`. -/
theorem emaWeight_sum (β : K) (k : ℕ) : ∑ i ∈ Finset.range k, emaWeight β k i = 1 - β ^ k := by
  induction k with
  | zero => simp
  | succ k ih =>
    rw [Finset.sum_range_succ]
    have : ∀ i ∈ Finset.range k, emaWeight β (k + 1) i = β * emaWeight β k i := by
      intro i hi
      have hi := Finset.mem_range.1 hi
      unfold emaWeight
      have : k + 1 - 1 - i = (k - 1 - i) + 1 := by omega
      rw [this, pow_succ]
      ring
    rw [Finset.sum_congr rfl this, ← Finset.mul_sum, ih]
    simp only [emaWeight, Nat.add_sub_cancel, Nat.sub_self, pow_zero, pow_succ]
    ring

end module

/-- The entrywise operations on real vectors: `d**2` and `mhat/(vhat**0.5 + eps)`, `adamcbo.py:50-51,59`. -/
noncomputable def adamReal (ι : Type) (eps : ℝ) : AdamOps (ι → ℝ) where
  sq d i := d i ^ 2
  quot m v i := m i / (Real.sqrt (v i) + eps)

/-- Rational stand-in for the entrywise operations (the division plays no role for the moments). -/
def Example.adamRat : AdamOps ℚ := ⟨fun d => d * d, fun m v => m / (v + 1)⟩

/-- `Example.args` with the initial moments of `AdamCBO`. -/
def Example.adamArgs (batch : Option ℕ) : Args ℚ ℚ := { Example.args [] batch with aux1 := fun _ => 0, aux2 := fun _ => 0 }

/-- The same with frozen particles (`lamda = sigma = 0`), so that every drift is constant in time. -/
def Example.adamFrozen (batch : Option ℕ) : Args ℚ ℚ := { Example.adamArgs batch with lamda := 0, sigma := 0 }

/-- Inner step of the examples, betas 1/2 and 3/4. -/
def Example.adamInner : St ℚ ℚ → Except Err (St ℚ ℚ) :=
  consThen Example.env (adamMove Example.env Example.adamRat (1 / 2) (3 / 4))

end Verif
