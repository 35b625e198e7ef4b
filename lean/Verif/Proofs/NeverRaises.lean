import Verif.Proofs.Total
import Verif.Spec.StepsActive

/-! No operation of a CBO dynamic raises. Helper lemmas. -/

set_option linter.unusedSectionVars false

namespace Verif

variable {K V : Type} [Zero K] [One K] [Neg K] [Add K] [Sub K] [Mul K] [Inv K] [Div K] [NatCast K] [Pow K ℕ] [LinearOrder K] [Add V] [Sub V] [SMul K V]

theorem init_total (env : Env K V) {a : Args K V} (hN : 1 ≤ a.x0.cols) :
    ∃ s₀, init env a = .ok s₀ ∧ s₀.saveInt = a.saveInt ∧ s₀.terms = a.terms ∧ s₀.M = a.x0.rows ∧ s₀.N = a.x0.cols := by
  unfold init
  rw [if_neg (by omega)]
  refine ⟨_, rfl, ?_, ?_, ?_, ?_⟩ <;> split_ifs <;> rfl

/-- One operation. -/
theorem exec_total {env : Env K V} (he : EnvOK env) (hp : PermOK env) (o : Op) (s : St K V) (hw : WF s) (hsi : s.saveInt ≠ 0)
    (hst : ∀ tm ∈ s.terms, Stateless tm) (hb : env.emptyRaises = true → s.batchSize ≠ 0)
    (ha : env.emptyRaises = true → o = .step → s.active ≠ []) :
    ∃ q, exec env (cboInner env) o s = .ok q ∧ WF q ∧ q.saveInt ≠ 0 ∧ q.terms = s.terms ∧ q.M = s.M ∧ q.N = s.N ∧
      q.batchSize = s.batchSize := by
  have hex : ∃ q, exec env (cboInner env) o s = .ok q ∧ q.saveInt ≠ 0 ∧ q.terms = s.terms ∧ q.M = s.M ∧ q.N = s.N ∧
      q.batchSize = s.batchSize := by
    cases o with
    | step =>
      obtain ⟨q, hq⟩ := cboStep_total he hp hw hsi fun h => ⟨ha h rfl, hb h⟩
      have f := step_frame (consThen_frame (cboMove_ok env)) hq
      exact ⟨q, hq, by rw [f.saveInt]; exact hsi, f.terms, f.M, f.N, f.batchSize⟩
    | select =>
      obtain ⟨q, h1, h2, -⟩ := select_stateless (env := env) hst
      exact ⟨q, h1, by rw [h2]; exact hsi, by rw [h2], by rw [h2], by rw [h2], by rw [h2]⟩
    | sched =>
      obtain ⟨pp, hpp⟩ := he.sched s
      exact ⟨{s with alpha := pp.alpha, lamda := pp.lamda, sigma := pp.sigma, dt := pp.dt},
        by simp only [exec, schedUpdate, hpp]; rfl, hsi, rfl, rfl, rfl, rfl⟩
    | reset => exact ⟨_, rfl, by simp [reset, initHistory], rfl, rfl, rfl, rfl⟩
  obtain ⟨q, hq, h1, h2, h3, h4, h5⟩ := hex
  exact ⟨q, hq, exec_wf (cboMove_ok env) he.postOK hp hw (o := o) hq, h1, h2, h3, h4, h5⟩

theorem execAll_total {env : Env K V} (he : EnvOK env) (hp : PermOK env) : ∀ (ops : List Op) (s : St K V), WF s → s.saveInt ≠ 0 →
    (∀ tm ∈ s.terms, Stateless tm) → (env.emptyRaises = true → s.batchSize ≠ 0) →
    (env.emptyRaises = true → StepsActive env (cboInner env) ops s) →
    ∃ s', execAll env (cboInner env) ops s = .ok s' ∧ WF s' ∧ s'.M = s.M ∧ s'.N = s.N ∧ s'.saveInt ≠ 0 ∧ s'.terms = s.terms ∧
      s'.batchSize = s.batchSize
  | [], s, hw, hsi, _, _, _ => ⟨s, rfl, hw, rfl, rfl, hsi, rfl, rfl⟩
  | o :: l, s, hw, hsi, hst, hb, ha => by
    obtain ⟨q, hq, qw, q1, q2, q3, q4, q5⟩ := exec_total he hp o s hw hsi hst hb fun h => (ha h).1
    obtain ⟨s', r1, r2, r3, r4, r5, r6, r7⟩ := execAll_total he hp l q qw q1 (by rw [q2]; exact hst) (by rw [q5]; exact hb)
      fun h => (ha h).2 q hq
    refine ⟨s', ?_, r2, by omega, by omega, r5, by rw [r6, q2], by omega⟩
    simp only [execAll, bind_ok]
    exact ⟨q, hq, r1⟩

theorem optimize_total {env : Env K V} (he : EnvOK env) (hp : PermOK env) : ∀ (fuel : ℕ) (s : St K V), WF s → s.saveInt ≠ 0 →
    (∀ tm ∈ s.terms, Stateless tm) → (env.emptyRaises = true → s.batchSize ≠ 0) →
    ∀ e, optimize env (cboInner env) fuel s ≠ .raised e
  | 0, s, _, _, _, _, e => by simp [optimize]
  | fuel + 1, s, hw, hsi, hst, hb, e => by
    obtain ⟨q, hq, qw, q1, q2, q3, q4, q5⟩ := exec_total he hp .select s hw hsi hst hb fun _ h => by cases h
    simp only [exec] at hq
    simp only [optimize, hq]
    split_ifs with h0
    · simp
    · obtain ⟨u, hu, uw, u1, u2, u3, u4, u5⟩ := exec_total he hp .step q qw q1 (by rw [q2]; exact hst) (by rw [q5]; exact hb)
        fun _ _ h => h0 (by rw [h]; rfl)
      obtain ⟨v, hv, vw, v1, v2, v3, v4, v5⟩ := exec_total he hp .sched u uw u1 (by rw [u2, q2]; exact hst)
        (by rw [u5, q5]; exact hb) fun _ h => by cases h
      simp only [exec] at hu hv
      simp only [hu, hv]
      exact optimize_total he hp fuel v vw v1 (by rw [v2, u2, q2]; exact hst) (by rw [v5, u5, q5]; exact hb) e

end Verif
