import Verif.Np.Arr
import Verif.Model.Noise

/-!
# The CBO step on whole arrays: `cbx/dynamics/pdyn.py`, `cbx/dynamics/cbo.py`, `cbx/noise.py`

The state machine (`Model/Dyn.lean`) has one entry per particle. Here the same step is written with the NumPy operations of the code on
arrays of shape `(M, N, d1, ..., dk)`, for any number of trailing axes: broadcasting, `[..., None]`, `reshape`, `sum`, `norm`.
Exact real arithmetic.
-/

namespace Verif.ArrModel

/-- `np.exp(w)` inside `logsumexp` and the coefficients, `pdyn.py:585`; weights that are not finite: see `Model/Consensus.lean`. -/
noncomputable def expW : Flt ℝ → ℝ
  | .fin w => Real.exp w
  | _ => 0

/-- `logsumexp_scp(weights, axis=-1)` of one row, `pdyn.py:585`. -/
noncomputable def lse (l : List (Flt ℝ)) : ℝ := Real.log (l.map expW).sum

/-- `np.exp(weights - logsumexp)`, `pdyn.py:585`, entrywise. -/
noncomputable def expSub : Flt ℝ → ℝ → ℝ
  | .fin w, l => Real.exp (w - l)
  | _, _ => 0

/-- `compute_consensus_default.__call__`, `pdyn.py:582-587`. -/
noncomputable def consensus (energy : Arr (Flt ℝ)) (x alpha : Arr ℝ) : Except Err (Arr ℝ) := do
  let weights ← Arr.bin (fun a e => Flt.mul (.fin (-a)) e) alpha energy
  let l ← weights.reduceLast lse
  let c ← Arr.bin expSub weights l
  let coeffs := c.expand (x.shape.length - 2)
  let y ← Arr.bin (fun a b => a * b) x coeffs
  y.sum1

/-- `constant_noise.sample`, `noise.py:61-62`; `z` are the entries of `self.sampler(size=drift.shape)`. -/
def constSample (drift : Arr ℝ) (z : List ℕ → ℝ) : Except Err (Arr ℝ) := .ok ⟨drift.shape, z⟩

/-- `isotropic_noise.sample`, `noise.py:116-117`. -/
noncomputable def isoSample (drift : Arr ℝ) (z : List ℕ → ℝ) : Except Err (Arr ℝ) := do
  let r ← drift.reshapeInfer (drift.shape.take 2)
  let n ← r.normLast Real.sqrt
  let n ← n.reshape (drift.shape.take 2 ++ List.replicate (drift.shape.length - 2) 1)
  Arr.bin (fun a b => a * b) ⟨drift.shape, z⟩ n

/-- `anisotropic_noise.sample`, `noise.py:170`. -/
def anisoSample (drift : Arr ℝ) (z : List ℕ → ℝ) : Except Err (Arr ℝ) := Arr.bin (fun a b => a * b) ⟨drift.shape, z⟩ drift

/-- The noise models with a `sample(drift)` method, `noise.py:58-62,91-117,146-170`. -/
inductive Kind where
  | const
  | iso
  | aniso

/-- `noise.sample(drift)`, `noise.py:61-62,116-117,170`. -/
noncomputable def sample : Kind → Arr ℝ → (List ℕ → ℝ) → Except Err (Arr ℝ)
  | .const => constSample
  | .iso => isoSample
  | .aniso => anisoSample

/-- The arrays of a dynamic that one step reads and writes (`pdyn.py:126-168`, `pdyn.py:598-680`). -/
structure State where
  x : Arr ℝ
  energy : Arr (Flt ℝ)
  alpha : Arr ℝ

/-- `alpha[active_runs_idx, :]`, `pdyn.py:966`. -/
def alphaRows (alpha : Arr ℝ) (active : List ℕ) : Except Err (Arr ℝ) :=
  alpha.gather (Idx.ofRuns active (alpha.shape.getD 1 0))

/-- `compute_consensus` and `cbo_step`, `pdyn.py:948-968`, `cbo.py:3-4,40-50` without correction: the new particles and energies, the
consensus and the drift. `F` is the promoted objective on arrays, `cons` computes the consensus from energies and particles of the batch (`pdyn.py:966`, `polarcbo.py:246-250`), `cIdx`,
`pIdx` are `consensus_idx` and `particle_idx`, `z` the entries of the array of random numbers drawn by the noise. -/
noncomputable def stepWith (F : Arr ℝ → Except Err (Arr (Flt ℝ))) (cons : Arr (Flt ℝ) → Arr ℝ → Except Err (Arr ℝ)) (kind : Kind) (z : List ℕ → ℝ) (cIdx pIdx : Idx)
    (lamda dt sigma : ℝ) (s : State) : Except Err (State × Arr ℝ × Arr ℝ) := do
  let xc ← s.x.gather cIdx
  let energy ← F xc
  let xc ← s.x.gather cIdx
  let c ← cons energy xc
  let e ← s.energy.scatter cIdx energy
  let xp ← s.x.gather pIdx
  let drift ← Arr.bin (fun a b => a - b) xp c
  let n ← sample kind drift z
  let n := n.map fun v => Real.sqrt dt * v
  let u ← Arr.bin (fun d n => -lamda * dt * d + sigma * n) drift n
  let x ← s.x.scatterAdd pIdx u
  pure ({ s with x := x, energy := e }, c, drift)

/-- `compute_consensus_default` with `alpha[active_runs_idx, :]`, `pdyn.py:966`. -/
noncomputable def defaultCons (active : List ℕ) (s : State) (energy : Arr (Flt ℝ)) (x : Arr ℝ) : Except Err (Arr ℝ) := do
  let alpha ← alphaRows s.alpha active
  consensus energy x alpha

/-- The step of `CBO` with the default consensus rule, `pdyn.py:948-968`, `cbo.py:3-4,40-50`. -/
noncomputable def cboStep (F : Arr ℝ → Except Err (Arr (Flt ℝ))) (kind : Kind) (z : List ℕ → ℝ) (active : List ℕ) (cIdx pIdx : Idx)
    (lamda dt sigma : ℝ) (s : State) : Except Err (State × Arr ℝ × Arr ℝ) :=
  stepWith F (defaultCons active s) kind z cIdx pIdx lamda dt sigma s

/-- `post_process_default.__call__`, `pdyn.py:41-43`, on finite entries: `np.clip`. -/
noncomputable def clip (T : ℝ) (x : Arr ℝ) : Arr ℝ := x.map fun v => min (max v (-T)) T

/-- `update_diff` of `post_step`, `pdyn.py:921-922`. -/
noncomputable def updateDiff (N : ℕ) (x xOld : Arr ℝ) : Except Err (Arr ℝ) := do
  let d ← Arr.bin (fun a b => a - b) x xOld
  let n ← d.normLast2 Real.sqrt
  pure (n.map fun v => v / N)

/-- `loc_term[:, i] = term(self)` with `diff_tol_term`, `pdyn.py:447-449`, `termination.py:34-35`: whether each run is below the tolerance. -/
noncomputable def diffTol (M : ℕ) (tol : ℝ) (d : Arr ℝ) : Except Err (ℕ → Bool) :=
  if Arr.assignable d.shape [M] then .ok fun m => decide (d.get (Arr.bindex d.shape [m]) < tol) else .error .value

/-- The result shape of `np.einsum` for a label with lengths `a` and `b` (an axis of length 1 is repeated), `noise.py:243,245`. -/
def einLabel (a b : ℕ) : Except Err ℕ :=
  match Mat.bdim a b with
  | some d => .ok d
  | none => .error .value

/-- `apply_cov_sqrt(Cov_sqrt, z)`, `noise.py:227-247`, on shapes: `np.einsum('kij,klj->kli', ...)` resp. `np.einsum('klij,klj->kli', ...)`
raises unless the arrays have as many axes as labels. -/
def einsumShape (S z : List ℕ) : Except Err (List ℕ) :=
  if S.length = z.length then
    match S, z with
    | [k, i, j], [k', l, j'] => do
      let k ← einLabel k k'
      let _ ← einLabel j j'
      pure [k, l, i]
    | _, _ => .error .value
  else if S.length = z.length + 1 then
    match S, z with
    | [k, l, i, j], [k', l', j'] => do
      let k ← einLabel k k'
      let l ← einLabel l l'
      let _ ← einLabel j j'
      pure [k, l, i]
    | _, _ => .error .value
  else .error .runtime

/-- A broadcast shape or `ValueError`, `noise.py:243,245`, `pdyn.py:902-906`. -/
def bshapeE (s t : List ℕ) : Except Err (List ℕ) :=
  match Arr.bshape s t with
  | some r => .ok r
  | none => .error .value

/-- The shape of `covariance_noise.sample`, `noise.py:192-196,227-247` with `update_covariance`, `pdyn.py:891-907`, for a drift of shape `dsh`
and energies of shape `csh`: `D = drift[..., None] * drift[..., None, :]`, `D * coeffs[..., None, None]`, `sum(axis=-3)`, `compute_mat_sqrt`
(which keeps the shape; the last two axes are equal), `apply_cov_sqrt`. -/
def covShape (dsh csh : List ℕ) : Except Err (List ℕ) := do
  let D ← bshapeE (dsh ++ [1]) (dsh.dropLast ++ [1, dsh.getLastD 1])
  let P ← bshapeE D (csh ++ [1, 1])
  if P.length < 3 then .error .value else einsumShape (P.eraseIdx (P.length - 3)) dsh

end Verif.ArrModel
