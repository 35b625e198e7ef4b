import Verif.Model.FullMoves

/-!
# The independent noise of `DriftConstrainedCBO`

`indep_noise_step`, `driftconstrainedcbo.py:53-65`: a `while True` loop that perturbs collapsed runs until none is left. The loop need not end, so the model counts iterations:
a result `none` says that the loop is still running after `fuel` iterations.
-/

namespace Verif

section
variable {K V : Type} [Zero K] [One K] [Neg K] [Add K] [Sub K] [Mul K] [Inv K] [Div K] [NatCast K] [Pow K ℕ] [LinearOrder K] [Add V] [Sub V] [SMul K V]

/-- `sigma_indep`, `eps_indep` (`driftconstrainedcbo.py:39,45-46`), the squared norm of one particle (`np.linalg.norm(..., axis=-1)**2`, line 56) and `self.d[0]`. -/
structure IndepArgs (K V : Type) where
  sigma : K
  eps : K
  normSq : V → K
  d0 : K

/-- `cxd = (np.linalg.norm(self.x - self.consensus, axis=-1)**2).mean(axis=-1)/self.d[0]`, `driftconstrainedcbo.py:56`: number of rows and value per row. -/
def indepVar (p : IndepArgs K V) (x c : Mat V) : Except Err (ℕ × (ℕ → K)) := do
  let d ← Mat.bin (fun a b => p.normSq (a - b)) x c
  pure (d.rows, fun i => (d.row i).sum / (d.cols : K) / p.d0)

/-- `idx = np.where(cxd < self.eps_indep)`, `driftconstrainedcbo.py:57`. -/
def indepIdx (p : IndepArgs K V) (v : ℕ × (ℕ → K)) : List ℕ := (List.range v.1).filter fun m => v.2 m < p.eps

/-- The body of the loop after the test, `driftconstrainedcbo.py:60-65`; `z i j` is the array drawn by `np.random.normal` (line 60), `B` the list `idx[0]`. -/
def indepPerturb (p : IndepArgs K V) (root : K) (B : List ℕ) (z : ℕ → ℕ → V) (x : Mat V) : Except Err (Mat V) :=
  x.scatterAdd (Idx.ofRuns B x.cols) ⟨B.length, x.cols, fun i j => (p.sigma * root) • z i j⟩

/-- The loop, `driftconstrainedcbo.py:55-65`, for at most `fuel` tests; `z k` is the array drawn in iteration `k`, `root` is `dt**0.5`. -/
def indepLoop (p : IndepArgs K V) (root : K) (z : ℕ → ℕ → ℕ → V) (c : Mat V) : ℕ → ℕ → Mat V → Except Err (Option (Mat V))
  | 0, _, _ => .ok none
  | fuel + 1, k, x => do
    let v ← indepVar p x c
    if indepIdx p v = [] then pure (some x)
    else do
      let x' ← indepPerturb p root (indepIdx p v) (z k) x
      indepLoop p root z c fuel (k + 1) x'

/-- `indep_noise_step`, `driftconstrainedcbo.py:53-65`: nothing happens for `sigma_indep <= 0` or before the first consensus. `z it k` is the array drawn in iteration `k` of the
loop in step `it`. -/
def indepStep (env : Env K V) (p : IndepArgs K V) (z : ℕ → ℕ → ℕ → ℕ → V) (fuel : ℕ) (s : St K V) : Except Err (Option (Mat V)) :=
  if 0 < p.sigma then
    match s.cons with
    | none => .ok (some s.x)
    | some c => indepLoop p (env.sqrtK s.dt) (z s.it) c fuel 0 s.x
  else .ok (some s.x)

/-- `dc_inner_step` after the independent noise, `driftconstrainedcbo.py:51`. An execution that is still in the loop after `fuel` tests is represented by an exception (the user
interrupts it). -/
def dcAfter (env : Env K V) (G : ConOps K V) (eps : K) (s : St K V) : Option (Mat V) → Except Err (St K V)
  | none => .error .runtime
  | some x => do
    let s ← computeConsensus env { s with x := x }
    dcMove env G eps s

/-- `DriftConstrainedCBO.inner_step`, `driftconstrainedcbo.py:49-51`. -/
def indepInner (env : Env K V) (G : ConOps K V) (eps : K) (p : IndepArgs K V) (z : ℕ → ℕ → ℕ → ℕ → V) (fuel : ℕ) (s : St K V) : Except Err (St K V) := do
  let r ← indepStep env p z fuel s
  dcAfter env G eps s r

end
end Verif
