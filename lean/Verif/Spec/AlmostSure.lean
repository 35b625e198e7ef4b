import Verif.Spec.MeanSquare
import Mathlib.Probability.Independence.Basic

/-! Specification for C82: whole executions with independent standard normal numbers. -/

namespace Verif

open MeasureTheory ProbabilityTheory

variable {ι : Type} [Fintype ι]

/-- The states along an execution from `s` in which step number `k` draws the array `Z k`. -/
noncomputable def path (env : Env ℝ (ι → ℝ)) (rule : (ι → ℝ) → (ι → ℝ) → ι → ℝ) (M N : ℕ) (Z : ℕ → Fin M × Fin N × ι → ℝ) (s : St ℝ (ι → ℝ)) : ℕ → Except Err (St ℝ (ι → ℝ))
  | 0 => .ok s
  | k + 1 => do
    let q ← path env rule M N Z s k
    step (withSample env rule M N (Z k)) (cboInner (withSample env rule M N (Z k))) q

/-- The surroundings in which draw number `d` of the execution yields the array `Z d`. -/
noncomputable def withSamples (env : Env ℝ (ι → ℝ)) (rule : (ι → ℝ) → (ι → ℝ) → ι → ℝ) (M N : ℕ) (Z : ℕ → Fin M × Fin N × ι → ℝ) : Env ℝ (ι → ℝ) :=
  { env with noise := rowNoise rule fun d => drawn M N (Z d) }

/-- The arrays `Z 0, Z 1, …` of random numbers are independent of each other and consist of independent standard normal numbers. -/
structure IidNormal {Ω κ : Type} [MeasurableSpace Ω] [Fintype κ] (P : Measure Ω) (Z : ℕ → Ω → κ → ℝ) : Prop where
  meas : ∀ k, Measurable (Z k)
  law : ∀ k, P.map (Z k) = stdNormal κ
  indep : iIndepFun Z P

end Verif
