import Verif.Np.Arr
import Verif.Model.Objectives
import Mathlib.Data.Matrix.Mul

/-!
# Objectives on whole ensembles: `cbx/objectives.py`

`Model/Objectives.lean` has the objectives on one point. Here the array forms: which shape `apply` returns for an ensemble, and the objectives
without documentation (`objectives.py:567-661`).
-/

namespace Verif.Obj

open Real

/-- `apply` of the objectives that combine `x[...,0]` and `x[...,1]` entrywise (`objectives.py:75-76,139-140,212-213,292-294,631-636,644-648,737-738,817-818,893-894,970-971,1053-1055,1218-1219`), for the
combination `e`. -/
def twoCoord (e : ℝ → ℝ → ℝ) (x : Arr ℝ) : Except Err (Arr ℝ) := do
  let a ← x.pick 0
  let b ← x.pick 1
  Arr.bin e a b

/-- `apply` of the objectives that reduce the last axis by `.sum(-1)`, `np.sum(..., axis=-1)`, `np.linalg.norm(..., axis=-1)` after entrywise operations (`objectives.py:374-379,425-429,504-511,556-560,608-609,1292-1296`): the
value of one particle is `g` of its coordinates. -/
def lastAxis (g : List ℝ → ℝ) (x : Arr ℝ) : Except Err (Arr ℝ) := x.alongLast g

/-- `accelerated_sinus.apply`, `objectives.py:572-574`. -/
noncomputable def accSinusArr (a : ℝ) (x : Arr ℝ) : Except Err (Arr ℝ) := do
  let r ← x.normLast sqrt
  pure ((r.map fun r => sin (a * r / (1 + r * r))).squeeze.map fun v => v + 1)

/-- `nd_sinus.apply` on one point, `objectives.py:582-589`. -/
noncomputable def ndSinus {d : ℕ} (x : Fin (d + 1) → ℝ) : ℝ :=
  (sin (1 / ((d : ℝ) + 1) * norm2 (fun i => 0.3 * x i) ^ 2) + 1) * ((0.3 * x 0) ^ 4 - (0.3 * x 0) ^ 2 + 1)

/-- `nd_sinus.apply`, `objectives.py:582-589`. -/
noncomputable def ndSinusArr (x : Arr ℝ) : Except Err (Arr ℝ) := do
  let x := x.map fun v => 0.3 * v
  let n ← x.normLast sqrt
  let z := n.map fun v => 1 / (x.shape.getLastD 0 : ℝ) * v ^ 2
  let p ← x.pick 0
  let res ← Arr.bin (fun z p => (sin z + 1) * (p ^ 4 - p ^ 2 + 1)) z p
  pure res.squeeze

/-- `p_4th_order.apply`, `objectives.py:596-600`. -/
noncomputable def p4Arr (x : Arr ℝ) : Except Err (Arr ℝ) := do
  let a ← (x.map fun v => v ^ 4).alongLast List.sum
  let b ← (x.map fun v => v ^ 2).alongLast List.sum
  let res ← Arr.bin (fun a b => a - b + 1) a b
  pure res.squeeze

/-- `Banana.apply`, `objectives.py:619-622`, on one point of the plane. -/
noncomputable def banana (m sigma sigmaPrior : ℝ) (x : Fin 2 → ℝ) : ℝ :=
  let G := (x 1 - 1) ^ 2 - (x 0 - 2.5) - 1
  let Phi := 0.5 / sigma ^ 2 * (G - m) ^ 2
  Phi + 0.5 / sigmaPrior ^ 2 * norm2 x ^ 2

/-- `Bimodal.apply`, `objectives.py:631-636`, on one point. -/
noncomputable def bimodal (a b : Fin 2 → ℝ) (x : Fin 2 → ℝ) : ℝ :=
  -log (exp (-((x 0 - a 0) ^ 2 + (x 1 - a 1) ^ 2 / 0.2)) + 0.5 * exp (-(x 0 - b 0) ^ 2 / 8 - (x 1 - b 1) ^ 2 / 0.5))

/-- `self.a = a if a else [...]` in `Bimodal.__init__` and `Unimodal.__init__`, `objectives.py:628-629,642`: `None` and the empty list select the default; the truth value of an array with more than one element raises, that of an array with one
element is whether it is non-zero, that of an empty array is `False`. -/
noncomputable def centreInit (isArray : Bool) (a : Option (List ℝ)) (dflt : List ℝ) : Except Err (List ℝ) :=
  open Classical in
  match a with
  | none => .ok dflt
  | some [] => .ok dflt
  | some [v] => .ok (if isArray ∧ v = 0 then dflt else [v])
  | some l => if isArray then .error .value else .ok l

/-- `multivariate_normal(mean, cov).pdf` at one point of the plane, `objectives.py:655,660`, given the inverse and the determinant of the covariance matrix. -/
noncomputable def mvnPdf (mean : Fin 2 → ℝ) (prec : Matrix (Fin 2) (Fin 2) ℝ) (det : ℝ) (x : Fin 2 → ℝ) : ℝ :=
  exp (-(1 / 2) * ∑ i, ∑ j, (x i - mean i) * prec i j * (x j - mean j)) / (2 * π * √det)

/-- `Multimodal.apply`, `objectives.py:657-661`, on one point. -/
noncomputable def gaussMix (l : List ((Fin 2 → ℝ) × Matrix (Fin 2) (Fin 2) ℝ × ℝ)) (x : Fin 2 → ℝ) : ℝ :=
  -log ((l.map fun p => mvnPdf p.1 p.2.1 p.2.2 x).sum)

/-- `Multimodal.apply`, `objectives.py:657-661`, on an ensemble, for at least one component: SciPy's `pdf` evaluates `g` on every point and squeezes the result (`scipy.stats._multivariate._squeeze_output`), the entries are added and mapped. -/
noncomputable def gaussMixArr (g : List ℝ → List ℝ) (x : Arr ℝ) : Except Err (Arr ℝ) := do
  let y ← x.alongLast g
  pure (y.squeeze.map fun v => -log v.sum)

/-- `ParticleDynamic.check_f_dims(check=True)`, `pdyn.py:220-234`, for an objective on arrays: whether the result on a sample `z` of the shape of the ensemble has shape `(M, N)`. -/
def checkDims (F : Arr ℝ → Except Err (Arr ℝ)) (z : Arr ℝ) (M N : ℕ) : Except Err Unit := do
  let y ← F z
  if y.shape ≠ [M, N] then .error .value else pure ()

end Verif.Obj
