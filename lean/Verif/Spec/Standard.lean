import Verif.Model.Consensus
import Verif.Proofs.RunBasics

/-! The surroundings of a plain CBO dynamic with the default consensus rule and a finite objective. -/

namespace Verif

/-- Default consensus rule, no correction, a noise model acting row by row (`ν draw dt row slot drift`; isotropic,
anisotropic and constant noise), post processing acting particle by particle by `p`, random permutations in range, a finite
objective `f`. -/
structure Standard {V : Type} [AddCommGroup V] [Module ℝ V] (env : Env ℝ V) (f : V → ℝ)
    (ν : ℕ → ℝ → ℕ → ℕ → V → V) (p : V → V) : Prop where
  corr : env.corr = .none
  cons : env.cons = .mean consDefault
  noise : NoiseRows env ν
  post : PostMap env p
  perm : PermOK env
  f : ∀ v, env.f v = .fin (f v)

end Verif
