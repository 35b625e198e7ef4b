import Verif.Model.Dyn

/-!
# Moves that compute with the whole ensemble `self.x`: `DriftConstrainedCBO`, `RegCombinationCBO`, `HyperSurfaceCBO`

Other than `CBO` these use `self.x - self.consensus` without `particle_idx`: `x` has shape `(M, N, d)`, the consensus `(k, 1, d)` with
`k = len(active_runs_idx)`.
-/

namespace Verif

namespace Mat

variable {α : Type}

/-- An array of results, any of which may be an exception: NumPy raises for the whole call.  `fb` only fills the meaningless entries;
`np.linalg.solve` at `driftconstrainedcbo.py:6`. -/
def allOk (fb : Mat α) (m : Mat (Except Err α)) : Except Err (Mat α) :=
  if ∀ i < m.rows, ∀ j < m.cols, (m.get i j).isOk then
    .ok ⟨m.rows, m.cols, fun i j => match m.get i j with | .ok v => v | .error _ => fb.get i j⟩
  else .error .value

/-- `self.x = new` (`regcombinationcbo.py:33-40`, `hypersurfacecbo.py:140`).  The new array has the shape of the old one whenever the
consensus has at most as many rows and columns as `x`, which holds in every step; other shapes are cut off here with an error.  Entries
outside the shape, which have no meaning, are left as they were. -/
def rebind (old new : Mat α) : Except Err (Mat α) :=
  if new.rows = old.rows ∧ new.cols = old.cols then
    .ok ⟨old.rows, old.cols, fun i j => if i < old.rows ∧ j < old.cols then new.get i j else old.get i j⟩
  else .error .value

end Mat

section
variable {K V : Type} [Zero K] [One K] [Neg K] [Add K] [Sub K] [Mul K] [Inv K] [Div K] [NatCast K] [Pow K ℕ] [LinearOrder K] [Add V] [Sub V] [SMul K V]

/-- The methods of `MultiConstraint` the dynamics use, for one particle; arguments in the order factor, `x`, `x_tilde`:
`grad_squared_sum` (`constraints.py:23-27`), `solve_Id_hessian_squared_sum` (`constraints.py:66-77`), `solve_Id_plus_call_grad`
(`constraints.py:56-63`). -/
structure ConOps (K V : Type) where
  gradSq : V → V
  solveHess : K → V → V → Except Err V
  solvePlus : K → V → V → Except Err V

/-- `MultiConstraint([])`, the default (`constraints.py:8-9,189-191`): `grad_squared_sum` is zero, `solve_Id_plus_call_grad` returns
`x_tilde` (`constraints.py:62-63`), `solve_Id_hessian_squared_sum` returns `0` (`constraints.py:76-77`). -/
def noCon {K V : Type} [Zero V] : ConOps K V := ⟨fun _ => 0, fun _ _ _ => .ok 0, fun _ _ xt => .ok xt⟩

/-- `self.dt / self.eps`, `driftconstrainedcbo.py:13`, `regcombinationcbo.py:36`. -/
def divEps (dt eps : K) : Except Err K := if eps = 0 then .error .zeroDiv else .ok (dt / eps)

/-- `dc_inner_step` behind the consensus, `driftconstrainedcbo.py:11-21`. -/
def dcMove (env : Env K V) (G : ConOps K V) (eps : K) (s : St K V) : Except Err (St K V) :=
  match s.cons with
  | none => .error .attribute
  | some c => do
    let d ← Mat.bin (fun a b => a - b) s.x c
    let s := { s with drift := some d }
    let n ← env.noise s
    let s := { s with draws := s.draws + 1 }
    let q ← divEps s.dt eps
    let a ← Mat.bin (fun d x => (s.lamda * s.dt) • d + q • G.gradSq x) d s.x
    let xt ← Mat.bin (fun a n => a + s.sigma • n) a n
    let z ← Mat.bin (fun x t => G.solveHess q x t) s.x xt
    let z ← Mat.allOk s.x z
    let z ← z.bto s.x.rows s.x.cols
    pure { s with x := ⟨s.x.rows, s.x.cols, fun i j =>
      if i < s.x.rows ∧ j < s.x.cols then s.x.get i j - z.get i j else s.x.get i j⟩ }

/-- `RegCombinationCBO.inner_step` behind the consensus, `regcombinationcbo.py:26-40`. -/
def regMove (env : Env K V) (G : ConOps K V) (eps : K) (s : St K V) : Except Err (St K V) :=
  match s.cons with
  | none => .error .attribute
  | some c => do
    let d ← Mat.bin (fun a b => a - b) s.x c
    let s := { s with drift := some d }
    let n ← env.noise s
    let s := { s with draws := s.draws + 1 }
    let a ← Mat.bin (fun x d => x - (s.lamda * s.dt) • d) s.x d
    let xt ← Mat.bin (fun a n => a + s.sigma • n) a n
    if eps < ((10 ^ 15 : ℕ) : K) then do
      let q ← divEps s.dt eps
      let z ← Mat.bin (fun x t => G.solvePlus q x t) s.x xt
      let z ← Mat.allOk s.x z
      let x ← s.x.rebind z
      pure { s with x := x }
    else do
      let x ← s.x.rebind xt
      pure { s with x := x }

/-- What `HyperSurfaceCBO` needs of a `signedDistance` object, for one particle: `proj_tangent_space` (`hypersurfacecbo.py:13-15,43-47`),
`proj` (`hypersurfacecbo.py:26-27,39-41,61-62`) and `noise_constr` as a function of `dt`, `sigma`, `x` and `drift`
(`hypersurfacecbo.py:142-158`). -/
structure SurfOps (K V : Type) where
  tangent : V → V → V
  proj : V → V
  noiseConstr : K → K → V → V → V

/-- `HyperSurfaceCBO.inner_step` behind the consensus, `hypersurfacecbo.py:124-140`. -/
def hyperMove (env : Env K V) (S : SurfOps K V) (s : St K V) : Except Err (St K V) :=
  match s.cons with
  | none => .error .attribute
  | some c => do
    let d ← Mat.bin (fun a b => a - b) s.x c
    let s := { s with drift := some d }
    let n ← env.noise s
    let s := { s with draws := s.draws + 1 }
    let e ← Mat.bin (fun c n => s.dt • c + s.sigma • n) c n
    let a ← Mat.bin (fun x e => x + S.tangent x e) s.x e
    let k ← Mat.bin (fun x d => S.noiseConstr s.dt s.sigma x d) s.x d
    let xt ← Mat.bin (fun a k => a - k) a k
    let x ← s.x.rebind (xt.map S.proj)
    pure { s with x := x }

end
end Verif
