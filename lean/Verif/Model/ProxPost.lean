import Verif.Model.Dyn

/-!
# Mirror maps as post-processing: `MirrorMaptoPostProcessProx`, `cbx/dynamics/mirrorcbo.py:15-24`

The class made from a mirror map has `grad_conj` of the map as its effect on the ensemble; an object of it is passed as `post_process`.
-/

namespace Verif

/-- `apply_prox`, `mirrorcbo.py:16-17`, called as `self.post_process(self)` in `post_step` (`pdyn.py:920`): all particles, also those of stopped runs, become `grad_conj(x)`. The argument
`post_process` replaces the default post-processing (`pdyn.py:170-171`), so there is no clipping and no treatment of NaN. -/
def proxPost {K V : Type} [Zero K] [One K] [Neg K] [Add K] [Sub K] [Mul K] [Inv K] [Div K] [NatCast K] [Pow K ℕ] [LinearOrder K] [Add V] [Sub V] [SMul K V] (gc : V → V) (s : St K V) : Except Err (Mat V) := .ok (s.x.map gc)

end Verif
