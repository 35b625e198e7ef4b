import Verif.Proofs.Sim
import Verif.Spec.Example
import Mathlib.Tactic.NormNum

/-! Property C17: the runs of a CBO dynamic are independent of each other. -/

set_option linter.unusedSectionVars false

namespace Verif

variable {K V : Type} [Zero K] [One K] [Neg K] [Add K] [Sub K] [Mul K] [Inv K] [Div K] [NatCast K] [Pow K ℕ] [LinearOrder K] [Add V] [Sub V] [SMul K V]

/-- **C17 (partial).** CBO with one consensus point per run, noise that acts row by row (isotropic, anisotropic, constant), no drift
correction, post processing that acts particle by particle and is idempotent, the built-in criteria without internal
state, a scheduler that treats the runs separately, any batching mode: suppose `optimize` finishes for all `M` runs
together. Then run `r` started alone — from the same particles, with the random permutations of run `r`, and with random
numbers that in each draw are one row (`pos c`) of the random numbers of the big dynamic — finishes as well, and its
positions, energies, best energy, best particle, minimal energy and evaluation count are exactly those of run `r` among
the `M` runs. So nothing that happens in another run (its data, its stopping, its number of iterations) has any influence
on run `r`, except for which random numbers it is given.
Missing from the full statement: schedulers that couple the runs (`sched='effective'`, for which it is false,
`C17_effective_false`). Covariance noise and Heaviside corrections: `C17_covariance_partial`, `C17_heaviside_partial`. -/
theorem C17_independent_partial [SoundArith K] (env : Env K V) (r : ℕ) (ν : ℕ → K → ℕ → ℕ → V → V) (p : V → V)
    (g : List (K × Flt K × V) → V) (ga gl gs gd : K → K)
    (hcons : env.cons = .mean g) (hcorr : env.corr = .none) (hnoise : NoiseRows env ν) (hpm : PostMap env p)
    (hid : ∀ v, p (p v) = p v) (hp : PermOK env) (hno : NormOK env) (hsched : SchedLocal env ga gl gs gd)
    (hgd : ∀ v, 0 ≤ v → 0 ≤ gd v)
    (a : Args K V) (hr : r < a.x0.rows) (hdt : 0 ≤ a.dt) (hsi : a.saveInt ≠ 0) (hterms : ∀ tm ∈ a.terms, BuiltIn tm)
    (s₀ s' : St K V) (fuel : ℕ) (h0 : init env a = .ok s₀)
    (h : optimize env (cboInner env) fuel s₀ = .done s') :
    ∃ pos : ℕ → ℕ, (∀ c, pos c < a.x0.rows) ∧
      ∃ s₁ s₁', init (env.alone r pos ν) (a.single r) = .ok s₁ ∧
        optimize (env.alone r pos ν) (cboInner (env.alone r pos ν)) fuel s₁ = .done s₁' ∧ SameResult r s' s₁' := by
  simp only [cboInner_eq] at h ⊢
  exact independent_core env r ν p (move := cboMove) (cboMove_ok env) (cboMove_quiet fun g' h => by rw [hcorr] at h; cases h)
    (fun _ _ _ he => cboMove_kit he) (keeps_local (cboMove_ok env) (cboMove_local env) hpm hp) (image_fixed hpm hid)
    g ga gl gs gd hcons hcorr hnoise hpm hp hno hsched hgd a hr hdt hsi hterms s₀ s' fuel h0 h

/-- The noise of the example acts row by row. -/
def Example.nu (c : ℕ) (_ : ℚ) (i j : ℕ) (_ : ℚ) : ℚ := if i + j = c then 1 / 2 else -1 / 2

/-- C17: the hypotheses hold in the example, and the conclusion is not trivial there: run 0 stops early (`energy_tol`), so
from then on run 1 gets row 0 of the random numbers; run 1 alone, with these numbers, ends at the same positions. -/
example : NoiseRows Example.env Example.nu ∧ PostMap Example.env (fun v => max (-100) (min 100 v)) ∧
    (∀ v : ℚ, max (-100) (min 100 (max (-100) (min 100 v))) = max (-100) (min 100 v)) ∧
    SchedLocal Example.env (fun v => 2 * v) id id id ∧
    (match optimize Example.env (cboInner Example.env) 5 (Example.start [.energyTol (.fin 2), .maxIt (some 3)] none),
        init (Example.env.alone 1 (fun c => if c ≤ 1 then 1 else 0) Example.nu)
          ((Example.args [.energyTol (.fin 2), .maxIt (some 3)] none).single 1) with
      | .done s, .ok s₁ =>
        match optimize (Example.env.alone 1 (fun c => if c ≤ 1 then 1 else 0) Example.nu)
            (cboInner (Example.env.alone 1 (fun c => if c ≤ 1 then 1 else 0) Example.nu)) 5 s₁ with
        | .done s₁' => decide (s₁'.x.get 0 0 = s.x.get 1 0 ∧ s₁'.x.get 0 1 = s.x.get 1 1 ∧ s₁'.x.get 0 2 = s.x.get 1 2 ∧
            s.it = 3 ∧ s.nEval 0 = 6 ∧ s.nEval 1 = 12 ∧ s₁'.nEval 0 = 12)
        | _ => false
      | _, _ => false) = true := by
  refine ⟨?_, fun s => rfl, ?_, fun s => rfl, by decide +kernel⟩
  · intro s d hd
    refine ⟨⟨d.rows, d.cols, fun i j => if i + j = s.draws then 1 / 2 else -1 / 2⟩, ?_, rfl, rfl, fun i j => rfl⟩
    simp only [Example.env, hd]
  · intro v
    rcases le_total v 100 with h | h
    · rw [min_eq_right h]
      have : max (-100) v ≤ 100 := max_le (by norm_num) h
      rw [min_eq_right this, ← max_assoc, max_self]
    · rw [min_eq_left h]; norm_num

end Verif
