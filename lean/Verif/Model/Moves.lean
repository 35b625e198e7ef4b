import Verif.Model.Dyn

/-!
# Moves of the subclasses of `CBO`: `MirrorCBO`, `AdamCBO`

A move is the part of `inner_step` behind `compute_consensus()`.
-/

namespace Verif

section
variable {K V : Type} [Zero K] [One K] [Neg K] [Add K] [Sub K] [Mul K] [Inv K] [Div K] [NatCast K] [Pow K ℕ] [LinearOrder K] [Add V] [Sub V] [SMul K V]

/-- `mirror_step` behind the consensus, `mirrorcbo.py:288-293`: the update of `cbo_update` is added to the dual variable
`y` (here `aux1`) at the selected particles, then *all* particles become `grad_conj(y)`.  `y` has the shape of `x`
(`mirrorcbo.py:303`), which is why the result is written with the shape of `x`. -/
def mirrorMove (env : Env K V) (gc : V → V) (s : St K V) : Except Err (St K V) :=
  match s.cons with
  | none => .error .attribute
  | some c => do
    let xp ← s.x.gather s.pIdx
    let d ← Mat.bin (fun a b => a - b) xp c
    let (d, s) ← correction env d s
    let s := { s with drift := some d }
    let n ← env.noise s
    let s := { s with draws := s.draws + 1 }
    let u ← Mat.bin (cboUpdate (K := K) s.lamda s.dt s.sigma) d n
    let y ← s.aux1.scatterAdd s.pIdx u
    pure { s with aux1 := y, x := ⟨s.x.rows, s.x.cols, fun i j => gc (y.get i j)⟩ }

/-- The entrywise operations of `AdamCBO` on one particle: `drift**2` (`adamcbo.py:59`) and
`mhat / (vhat**0.5 + eps)` (`adamcbo.py:50-51`). -/
structure AdamOps (V : Type) where
  sq : V → V
  quot : V → V → V

/-- `1/(1 - beta**(it+1))`, `adamcbo.py:62-63`; `ZeroDivisionError` if the denominator vanishes. -/
def biasFactor (β : K) (it : ℕ) : Except Err K :=
  if 1 - β ^ (it + 1) = 0 then .error .zeroDiv else .ok (1 / (1 - β ^ (it + 1)))

/-- One line of `update_moments`, `adamcbo.py:58-59`: `a[idx] = beta * a[idx] + (1 - beta) * d`. -/
def momentUpdate (β : K) (a : Mat V) (ix : Idx) (d : Mat V) : Except Err (Mat V) := do
  let g ← a.gather ix
  let v ← Mat.bin (fun m d => β • m + (1 - β) • d) g d
  a.scatter ix v

/-- `AdamCBO.inner_step` behind the consensus with `update_moments`, `adamcbo.py:42-63`; `aux1 = m`, `aux2 = v`.  No drift
correction.  `x -= u` is written as adding `(-1) • u`. -/
def adamMove (env : Env K V) (A : AdamOps V) (β1 β2 : K) (s : St K V) : Except Err (St K V) :=
  match s.cons with
  | none => .error .attribute
  | some c => do
    let xp ← s.x.gather s.pIdx
    let d ← Mat.bin (fun a b => a - b) xp c
    let s := { s with drift := some d }
    let m ← momentUpdate β1 s.aux1 s.pIdx d
    let v ← momentUpdate β2 s.aux2 s.pIdx (d.map A.sq)
    let mf ← biasFactor β1 s.it
    let vf ← biasFactor β2 s.it
    let s := { s with aux1 := m, aux2 := v }
    let mp ← m.gather s.pIdx
    let vp ← v.gather s.pIdx
    let q ← Mat.bin (fun m v => A.quot (mf • m) (vf • v)) mp vp
    let n ← env.noise s
    let s := { s with draws := s.draws + 1 }
    let u ← Mat.bin (fun q n => (-1 : K) • (s.lamda • q - s.sigma • n)) q n
    let x ← s.x.scatterAdd s.pIdx u
    pure { s with x := x }

end
end Verif
