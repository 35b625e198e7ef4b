import Verif.Model.Mirror
import Verif.Model.FullMoves

/-!
# Signed distances of `cbx/dynamics/hypersurfacecbo.py:6-74` and the correction terms `hypersurfacecbo.py:142-158`

A particle is a vector `ι → ℝ`. Quotients are quotients of reals; NumPy gives NaN where the denominator is zero (sphere at the
origin, plane with `a = 0`), so the definitions are to be read at points with non-zero denominator. `sphereProjF` is the projection
to the sphere with the NumPy result.
-/

namespace Verif

namespace Surf

variable {ι : Type} [Fintype ι]

/-- `signedDistance.proj_tangent_space`, `hypersurfacecbo.py:13-15`, where `g` is `self.grad(x)`. -/
def tangentOf (g z : ι → ℝ) : ι → ℝ := fun i => z i - g i * ∑ j, g j * z j

/-- `signedDistance.get_proj_matrix`, `hypersurfacecbo.py:7-11`, where `g` is `self.grad(v)`. -/
def projMatrix [DecidableEq ι] (g : ι → ℝ) : Matrix ι ι ℝ := 1 - Matrix.of fun i j => g j * g i

/-- `sphereDistance.grad`, `hypersurfacecbo.py:19-20`. -/
noncomputable def sphereGrad (v : ι → ℝ) : ι → ℝ := fun i => v i / euclid v

/-- `sphereDistance.Laplacian`, `hypersurfacecbo.py:22-24`. -/
noncomputable def sphereLap (v : ι → ℝ) : ℝ := ((Fintype.card ι : ℝ) - 1) / euclid v

/-- `sphereDistance.proj`, `hypersurfacecbo.py:26-27`. -/
noncomputable def sphereProj (x : ι → ℝ) : ι → ℝ := fun i => x i / euclid x

/-- `sphereDistance.proj`, `hypersurfacecbo.py:26-27`, with the division of NumPy. -/
noncomputable def sphereProjF (x : ι → ℝ) : ι → Flt ℝ := fun i => Flt.div (x i) (euclid x)

/-- `planeDistance.grad`, `hypersurfacecbo.py:55-56`. -/
noncomputable def planeGrad (a : ι → ℝ) : ι → ℝ := fun i => a i / euclid a

/-- `planeDistance.proj`, `hypersurfacecbo.py:61-62`. -/
noncomputable def planeProj (a : ι → ℝ) (b : ℝ) (y : ι → ℝ) : ι → ℝ :=
  fun i => y i - ((∑ j, a j * y j) - b) / euclid a ^ 2 * a i

/-- `noise_constr_iso`, `hypersurfacecbo.py:142-151`, given `Laplacian(x)` and `grad(x)`. -/
noncomputable def constrIso (lap : ℝ) (grad : ι → ℝ) (dt sigma : ℝ) (drift : ι → ℝ) : ι → ℝ :=
  fun i => dt * sigma ^ 2 / 2 * lap * euclid drift ^ 2 * grad i

/-- `noise_constr_aniso`, `hypersurfacecbo.py:153-158`. -/
noncomputable def constrAniso (dt sigma : ℝ) (x drift : ι → ℝ) : ι → ℝ :=
  fun i => (dt * sigma ^ 2) / 2 * (euclid drift ^ 2 + drift i ^ 2 - 2 * (∑ j, drift j * x j) ^ 2) * x i

/-- `sdf = None` or `'sphere'` (`hypersurfacecbo.py:65-74`); `aniso` is `noise == 'anisotropic'` (`hypersurfacecbo.py:117-120`). -/
noncomputable def sphere (aniso : Bool) : SurfOps ℝ (ι → ℝ) where
  tangent x z := tangentOf (sphereGrad x) z
  proj := sphereProj
  noiseConstr dt sigma x drift :=
    if aniso then constrAniso dt sigma x drift else constrIso (sphereLap x) (sphereGrad x) dt sigma drift

/-- `sdf` with name `'plane'`, `hypersurfacecbo.py:49-62,65-74`; `Laplacian` is 0. -/
noncomputable def plane (a : ι → ℝ) (b : ℝ) (aniso : Bool) : SurfOps ℝ (ι → ℝ) where
  tangent _ z := tangentOf (planeGrad a) z
  proj := planeProj a b
  noiseConstr dt sigma x drift :=
    if aniso then constrAniso dt sigma x drift else constrIso 0 (planeGrad a) dt sigma drift

section stiefel
variable {n k : Type} [Fintype n] [Fintype k]

/-- `x.reshape(-1, n, k)`, `hypersurfacecbo.py:40,44`: a particle has coordinates `n × k` in row-major order. -/
def toMat (x : n × k → ℝ) : Matrix n k ℝ := Matrix.of fun i j => x (i, j)

/-- `.reshape(x.shape)`, `hypersurfacecbo.py:41,47`. -/
def ofMat (X : Matrix n k ℝ) : n × k → ℝ := fun p => X p.1 p.2

/-- `StiefelDistance.proj_tangent_space`, `hypersurfacecbo.py:43-47`. -/
noncomputable def stiefelTangent (x z : n × k → ℝ) : n × k → ℝ :=
  ofMat (toMat z - (0.5 : ℝ) • (toMat x * ((toMat z).transpose * toMat x + (toMat x).transpose * toMat z)))

/-- `StiefelDistance.proj`, `hypersurfacecbo.py:39-41`, given the factors of `np.linalg.svd`. -/
def stiefelProj {l : Type} [Fintype l] (svd : Matrix n k ℝ → Matrix n l ℝ × (l → ℝ) × Matrix l k ℝ) (x : n × k → ℝ) : n × k → ℝ :=
  ofMat ((svd (toMat x)).1 * (svd (toMat x)).2.2)

/-- `StiefelDistance.Laplacian`, `hypersurfacecbo.py:36-37`. -/
noncomputable def stiefelLap (n k : Type) [Fintype n] [Fintype k] : ℝ := (2 * (Fintype.card n : ℝ) - Fintype.card k - 1) / 2

/-- `sdf` with name `'Stiefel'`, `hypersurfacecbo.py:29-47,65-74`; `grad` is the identity (`hypersurfacecbo.py:33-34`). -/
noncomputable def stiefel {l : Type} [Fintype l] (svd : Matrix n k ℝ → Matrix n l ℝ × (l → ℝ) × Matrix l k ℝ) (aniso : Bool) :
    SurfOps ℝ (n × k → ℝ) where
  tangent := stiefelTangent
  proj := stiefelProj svd
  noiseConstr dt sigma x drift :=
    if aniso then constrAniso dt sigma x drift else constrIso (stiefelLap n k) x dt sigma drift

end stiefel
end Surf
end Verif
