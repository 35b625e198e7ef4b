import Verif.Model.Regularizers
import Verif.Spec.Regularizers
import Verif.Proofs.Np
import Mathlib.Analysis.InnerProductSpace.PiL2
import Mathlib.Algebra.BigOperators.Field
import Mathlib.Tactic.FieldSimp
import Mathlib.Tactic.Ring
import Mathlib.Tactic.NormNum

/-! Helper lemmas for `Props/Regularizers.lean`. -/

namespace Verif

open scoped BigOperators

variable {d : ℕ}

theorem euclid_norm (x y : Fin d → ℝ) : euclidNorm x y = ‖(WithLp.toLp 2 x : EuclideanSpace ℝ (Fin d)) - WithLp.toLp 2 y‖ := by
  rw [EuclideanSpace.norm_eq]
  simp [euclidNorm, Real.norm_eq_abs, sq_abs]

theorem pow_pos_of_ne {t : ℝ} (h : t ≠ 0) : 0 < t ^ 2 := by positivity

theorem eucl_zero (x : Fin d → ℝ) : euclidNorm x 0 = √(∑ i, x i ^ 2) := by simp [euclidNorm]

theorem regCall_ok {f R : (Fin d → ℝ) → ℝ} {p : ℝ} {lam : Lam} {x : Mat (Fin d → ℝ)} (h : (lam.broadcast x.rows).length = x.rows) :
    regCall f R p lam x = .ok (⟨x.rows, x.cols, fun m n => f (x.get (brow x.rows m) n) +
      (lam.broadcast x.rows).getD (brow x.rows m) 0 * R (x.get (brow x.rows m) n) ^ p⟩, .col (lam.broadcast x.rows)) := by
  have e : bcast x.rows x.rows = .ok x.rows := by unfold bcast; rw [if_pos rfl]
  unfold regCall
  simp only [h, e, bind, Except.bind, pure, Except.pure]

theorem regL0_zero (l : ℝ) (x : Fin d → ℝ) (h : ∀ i, isClose0 (x i)) : regL0 l x = 0 := by
  unfold regL0
  simp [h]

theorem brow_lt {M m : ℕ} (h : m < M) : brow M m = m := by
  unfold brow
  split
  · omega
  · rfl

theorem broadcast_get (lam : Lam) (M m : ℕ) (hm : m < M) (l : ℝ) (h : lam = .num l) : (lam.broadcast M).getD m 0 = l := by
  subst h
  simp only [Lam.broadcast, List.getD_eq_getElem?_getD, List.getElem?_replicate, if_pos hm, Option.getD_some]

/-- The `lamda` used for run `m`: the number given or the entry of the column. -/
noncomputable def Lam.at (lam : Lam) (m : ℕ) : ℝ := match lam with
  | .num l => l
  | .col l => l.getD m 0

/-- A regularised objective that has not been called yet, or only on ensembles with `M` runs. -/
def Lam.fits (lam : Lam) (M : ℕ) : Prop := match lam with
  | .num _ => True
  | .col l => l.length = M

theorem Lam.fits_length {lam : Lam} {M : ℕ} (h : lam.fits M) : (lam.broadcast M).length = M := by
  cases lam with
  | num l => simp [Lam.broadcast]
  | col l => exact h

theorem Lam.broadcast_at {lam : Lam} {M m : ℕ} (hm : m < M) : (lam.broadcast M).getD m 0 = lam.at m := by
  cases lam with
  | num l => exact broadcast_get _ M m hm l rfl
  | col l => rfl

/-- The configuration of a scheduler as intended: factors at least one, positive bounds. -/
structure RegCfg.Good (c : RegCfg) : Prop where
  theta : 1 ≤ c.factorTheta
  lamda : 1 ≤ c.factorLamda
  thetaMax : 0 < c.thetaMax
  lamdaMax : 0 ≤ c.lamdaMax

theorem violates_iff {theta m : ℝ} (ht : 0 < theta) (hm : 0 ≤ m) : Violates theta m ↔ ¬ m ≤ 1 / √theta := by
  have hs : 0 < √theta := Real.sqrt_pos.2 ht
  rw [not_le, div_lt_iff₀ hs]
  unfold Violates
  have e : theta * m ^ 2 = (m * √theta) ^ 2 := by rw [mul_pow, Real.sq_sqrt ht.le]; ring
  rw [e]
  constructor
  · intro h
    by_contra hc
    push Not at hc
    have := pow_le_one₀ (n := 2) (by positivity) hc
    linarith
  · intro h
    exact one_lt_pow₀ h two_ne_zero

end Verif
