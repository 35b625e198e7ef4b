import Mathlib.Analysis.SpecialFunctions.Log.Basic
import Mathlib.Analysis.SpecialFunctions.Pow.Real
import Mathlib.Data.Matrix.Mul
import Verif.Model.Noise
import Verif.Model.Post

/-!
# Mirror maps: `cbx/dynamics/mirrorcbo.py:27-251`

Maps act on the last axis, so they are functions of one particle `ι → ℝ`. Where the code divides by a quantity that can vanish
(sphere, log barrier, non-smooth barrier) the result is `Flt ℝ` and division is `Flt.div` with the NumPy convention; divisions by
constructor parameters (`lamda`, `delta`, `radius`) are real divisions, to be read for non-zero parameters. Rounding is not
modelled. `theta.shape` games of `weighted_L2.grad` are reduced to the matrix-vector product.
-/

namespace Verif

/-- NumPy `a / b` for finite `a`, `b` (no signed zero: a zero denominator counts as `+0`); the quotients of `mirrorcbo.py:92,128,192,195`. -/
noncomputable def Flt.div (a b : ℝ) : Flt ℝ :=
  if b ≠ 0 then .fin (a / b) else if a = 0 then .nan else if 0 < a then .pinf else .ninf

/-- `np.sign`, `mirrorcbo.py:103,192,195,218,221`. -/
noncomputable def npSign (a : ℝ) : ℝ := if 0 < a then 1 else if a < 0 then -1 else 0

namespace Mirror

variable {ι : Type} [Fintype ι]

/-- `ProjectionMirrorMap.grad`, `mirrorcbo.py:51-52`. -/
def projGrad (theta : ι → ℝ) : ι → ℝ := theta

/-- `ProjectionBall.grad_conj`, `mirrorcbo.py:69-71`. -/
noncomputable def ballConj (radius : ℝ) (center : ι → ℝ) (y : ι → ℝ) : ι → ℝ :=
  let n_y := euclid fun i => y i - center i
  fun i => center i + (y i - center i) / max 1 (n_y / radius)

/-- `ProjectionHyperplane.__init__`, `mirrorcbo.py:75-81`: the normal vector after broadcasting and `self.norm_a`.
Without `a` it is `np.ones((1,1,1))`, whose squared norm along the last axis is 1 and which broadcasts to every dimension. -/
def planeInit (a : Option (ι → ℝ)) : (ι → ℝ) × ℝ :=
  match a with
  | none => (fun _ => 1, 1)
  | some a => (a, ∑ i, a i ^ 2)

/-- `ProjectionHyperplane.grad_conj`, `mirrorcbo.py:83-84`. -/
noncomputable def planeConj (a : Option (ι → ℝ)) (b : ℝ) (y : ι → ℝ) : ι → ℝ :=
  let p := planeInit a
  fun i => y i - ((∑ j, p.1 j * y j) - b) / p.2 * p.1 i

/-- `ProjectionSphere.grad_conj`, `mirrorcbo.py:91-92`. -/
noncomputable def sphereConj (r : ℝ) (y : ι → ℝ) : ι → Flt ℝ := fun i => Flt.div (r * y i) (euclid y)

/-- `np.argmax(np.abs(y), axis=-1)`, `mirrorcbo.py:101`: the first position of the largest absolute value. -/
noncomputable def argmaxAbs {d : ℕ} (y : Fin (d + 1) → ℝ) : Fin (d + 1) :=
  (List.finRange (d + 1)).foldl (fun k i => if |y k| < |y i| then i else k) 0

/-- `ProjectionSquare.grad_conj`, `mirrorcbo.py:98-104`. -/
noncomputable def squareConj {d : ℕ} (r : ℝ) (y : Fin (d + 1) → ℝ) : Fin (d + 1) → ℝ :=
  let y1 := clipVec r y
  Function.update y1 (argmaxAbs y1) (npSign (y1 (argmaxAbs y1)))

/-- `ProjectionStiefel.grad_conj`, `mirrorcbo.py:112-116`, given the factors `U`, `Vh` of `np.linalg.svd`. -/
def stiefelConj {n k l : Type} [Fintype l] (svd : Matrix n k ℝ → Matrix n l ℝ × (l → ℝ) × Matrix l k ℝ) (y : Matrix n k ℝ) :
    Matrix n k ℝ := (svd y).1 * (svd y).2.2

/-- `LogBarrierBox.grad`, `mirrorcbo.py:124-125`, one coordinate. -/
noncomputable def logBarrierGrad (t : ℝ) : Flt ℝ := Flt.sub (Flt.div 1 (1 - t)) (Flt.div 1 (1 + t))

/-- `LogBarrierBox.grad_conj`, `mirrorcbo.py:127-128`, one coordinate. -/
noncomputable def logBarrierConj (y : ℝ) : Flt ℝ :=
  Flt.add (Flt.div (-1) y) (Flt.mul (Flt.div 1 y) (.fin (Real.sqrt (1 + y ^ 2))))

/-- `NegativeLogEntropySimplex.grad`, `mirrorcbo.py:136-138`. -/
noncomputable def simplexGrad (x : ι → ℝ) : ι → ℝ := fun i => Real.log (max (x i) (1 / 10 ^ 32)) + 1

/-- `NegativeLogEntropySimplex.grad_conj`, `mirrorcbo.py:140-141`. -/
noncomputable def simplexConj (y : ι → ℝ) : ι → ℝ := fun i => Real.exp (y i) / ∑ j, Real.exp (y j)

/-- `L2.grad`, `mirrorcbo.py:152-153`. -/
def l2Grad (lamda : ℝ) (theta : ι → ℝ) : ι → ℝ := fun i => lamda * theta i

/-- `L2.grad_conj`, `mirrorcbo.py:155-156`. -/
noncomputable def l2Conj (lamda : ℝ) (y : ι → ℝ) : ι → ℝ := fun i => (1 / lamda) * y i

/-- `weighted_L2.grad`, `mirrorcbo.py:174-175`. -/
noncomputable def weightedGrad (A : Matrix ι ι ℝ) (theta : ι → ℝ) : ι → ℝ :=
  ((0.5 : ℝ) • (A + A.transpose)).mulVec theta

/-- `weighted_L2.grad_conj`, `mirrorcbo.py:177-179`. -/
def weightedConj (y : ι → ℝ) : ι → ℝ := y

/-- `NonsmoothBarrier.grad`, `mirrorcbo.py:191-192`, one coordinate. -/
noncomputable def nonsmoothGrad (t : ℝ) : Flt ℝ := Flt.div (npSign t) (1 + |t| ^ 2 - 2 * |t|)

/-- `NonsmoothBarrier.grad_conj`, `mirrorcbo.py:194-195`, one coordinate. -/
noncomputable def nonsmoothConj (y : ℝ) : Flt ℝ :=
  Flt.mul (.fin (npSign y)) (Flt.maximum (Flt.sub (.fin 1) (Flt.sqrt Real.sqrt (Flt.div 1 |y|))) (.fin 0))

/-- `ElasticNet.grad`, `mirrorcbo.py:217-218`. -/
noncomputable def elasticGrad (delta lamda : ℝ) (theta : ι → ℝ) : ι → ℝ :=
  fun i => (1 / delta) * theta i + lamda * npSign (theta i)

/-- `ElasticNet.grad_conj`, `mirrorcbo.py:220-221`. -/
noncomputable def elasticConj (delta lamda : ℝ) (y : ι → ℝ) : ι → ℝ :=
  fun i => delta * npSign (y i) * max (|y i| - lamda) 0

/-- `Entropy.grad`, `mirrorcbo.py:231-233`; `EPS` is the machine epsilon of float32. -/
noncomputable def entropyGrad (x : ι → ℝ) : ι → ℝ := fun i => Real.log (1 / (x i + 1 / 2 ^ 23)) - 1

/-- `Entropy.grad_conj`, `mirrorcbo.py:235-236`. -/
noncomputable def entropyConj (y : ι → ℝ) : ι → ℝ := fun i => Real.exp (-(y i + 1))

end Mirror
end Verif
