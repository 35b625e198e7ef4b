import Verif.Proofs.NeverRaises
import Verif.Spec.Endless
import Verif.Proofs.Best

/-! Lemmas for C122: runs that never meet `energy_tol`. -/

set_option linter.unusedSectionVars false

namespace Verif

variable {K V : Type} [Zero K] [One K] [Neg K] [Add K] [Sub K] [Mul K] [Inv K] [Div K] [NatCast K] [Pow K ℕ] [LinearOrder K] [Add V] [Sub V] [SMul K V]

/-- If the positions of the run stay where the objective is not below the tolerance, and the criteria are `energy_tol` alone, `optimize` never returns. -/
theorem never_done {env : Env K V} {move : St K V → Except Err (St K V)} (hm : MoveOK move) (hpost : PostOK env) (hp : PermOK env) {tol : Flt K} {m : ℕ} {Q : St K V → Prop}
    (hQ : ∀ o s s', WF s → Q s → exec env (consThen env move) o s = .ok s' → Q s') (hQf : ∀ s, Q s → ∀ n < s.N, Flt.lt (env.f (s.x.get m n)) tol = false)
    {s : St K V} (hw : WF s) (hmM : m < s.M) (hq : Q s) (ha : Above tol m s) (hterms : s.terms = [.energyTol tol]) (fuel : ℕ) (s' : St K V) : optimize env (consThen env move) fuel s ≠ .done s' := by
  intro h
  obtain ⟨hna, q, hsel, k, hk⟩ := optimize_done h
  have hst : ∀ u : St K V, u.terms = [.energyTol tol] → ∀ tm ∈ u.terms, Stateless tm := by
    intro u hu tm htm
    rw [hu, List.mem_singleton] at htm
    subst htm
    trivial
  obtain ⟨qw, -, qa, qM, qT⟩ := execAll_induct hm hpost hp (P := fun q => Q q ∧ Above tol m q ∧ q.M = s.M ∧ q.terms = [.energyTol tol])
    (fun o u u' hwu hu hx => by
      obtain ⟨u1, u2, u3, u4⟩ := hu
      refine ⟨hQ o u u' hwu u1 hx, ?_⟩
      cases o with
      | step =>
        have fr := step_frame (consThen_frame hm) hx
        have S := step_sum hm hpost hx
        have he : ∀ n < u'.N, Flt.lt (u'.energy.get m n) tol = false := by
          intro n hn
          by_cases hs : u'.cIdx.Sel m n
          · rw [S.fresh m n hs]; exact hQf u u1 n (fr.N ▸ hn)
          · rw [S.stale m n hs]; exact u2.energy n (fr.N ▸ hn)
        refine ⟨⟨he, ?_⟩, fr.M.trans u3, fr.terms.trans u4⟩
        rw [S.fMin, Flt.rowMin_eq]
        refine he _ ?_
        rw [fr.N, ← hwu.ec, ← S.ec]
        refine Flt.rowArgmin_lt ?_ _
        rw [S.ec, hwu.ec]
        have := hwu.pos
        omega
      | select =>
        obtain ⟨r, e1, e2, -⟩ := select_stateless (env := env) (s := u) (hst u u4)
        rw [show exec env (consThen env move) .select u = selectActive env u from rfl, e1] at hx
        injection hx with hx
        subst hx
        have eN : r.N = u.N := by rw [e2]
        have eE : r.energy = u.energy := by rw [e2]
        have eF : r.fMin = u.fMin := by rw [e2]
        exact ⟨⟨fun n hn => by rw [eE]; exact u2.energy n (eN ▸ hn), by rw [eF]; exact u2.fMin⟩, by rw [e2]; exact u3, by rw [e2]; exact u4⟩
      | sched =>
        have fr := sched_frame hx
        have eN : u'.N = u.N := by rw [fr]
        have eE : u'.energy = u.energy := by rw [fr]
        have eF : u'.fMin = u.fMin := by rw [fr]
        exact ⟨⟨fun n hn => by rw [eE]; exact u2.energy n (eN ▸ hn), by rw [eF]; exact u2.fMin⟩, by rw [fr]; exact u3, by rw [fr]; exact u4⟩
      | reset =>
        have hx : Except.ok (reset u) = Except.ok u' := hx
        injection hx with hx
        subst hx
        exact ⟨⟨u2.energy, u2.fMin⟩, u3, u4⟩) _ s q hw ⟨hq, ha, rfl, hterms⟩ hk
  obtain ⟨r, e1, -, e3, -⟩ := select_stateless (env := env) (s := q) (hst q qT)
  rw [hsel] at e1
  injection e1 with e1
  subst e1
  have : m ∈ s'.active := (e3 m).2 ⟨by rw [qM]; exact hmM, fun tm htm => by
    rw [qT, List.mem_singleton] at htm
    subst htm
    show ¬ Flt.lt (q.fMin m) tol = true
    rw [qa.fMin]
    simp⟩
  rw [List.length_eq_zero_iff.1 hna] at this
  exact absurd this List.not_mem_nil

end Verif
