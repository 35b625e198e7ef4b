import Verif.Spec.Constrained
import Verif.Model.Indep

/-! # Vocabulary for C60 -/

set_option linter.unusedSectionVars false

namespace Verif

variable {K V : Type} [Zero K] [One K] [Neg K] [Add K] [Sub K] [Mul K] [Inv K] [Div K] [NatCast K] [Pow K ℕ] [LinearOrder K] [Add V] [Sub V] [SMul K V]

/-- Variance of `N` particles around the point `c`, divided by the dimension `d`. -/
def variance (normSq : V → K) (d : K) (N : ℕ) (row : ℕ → V) (c : V) : K :=
  (((List.range N).map fun j => normSq (row j - c)).sum / (N : K)) / d

/-- A run that is perturbed `n` times by the scaled random rows `zs 0, zs 1, ...`. -/
def walk (scale : K) (zs : ℕ → ℕ → V) (row : ℕ → V) : ℕ → ℕ → V
  | 0 => row
  | n + 1 => fun j => walk scale zs row n j + scale • zs n j

/-- The run is collapsed: its variance around the consensus is below the threshold. -/
def Collapsed (p : IndepArgs K V) (N : ℕ) (row : ℕ → V) (c : V) : Prop := variance p.normSq p.d0 N row c < p.eps

instance (p : IndepArgs K V) (N : ℕ) (row : ℕ → V) (c : V) : Decidable (Collapsed p N row c) := by
  unfold Collapsed
  infer_instance

/-- No step of the execution starts with a collapsed run. -/
def NeverCollapsed (env : Env K V) (inner : St K V → Except Err (St K V)) (p : IndepArgs K V) : List Op → St K V → Prop
  | [], _ => True
  | o :: l, s => (o = .step → ∀ c, s.cons = some c → ∀ m < s.x.rows, ¬ Collapsed p s.x.cols (s.x.get m) (c.get (Mat.bpos c.rows m) 0)) ∧
      ∀ s', exec env inner o s = .ok s' → NeverCollapsed env inner p l s'

end Verif
