import Verif.Np.Nd

/-!
# Promotion of objectives and the initial ensemble: `cbx/utils/objective_handling.py`, `cbx/dynamics/pdyn.py:179-234`
-/

namespace Verif

variable {α β : Type}

/-- What a user may pass as `f`: not callable, a function of one point (`f_dim='1D'`), of an array of points (`'2D'`) or of the whole
ensemble (`'3D'`). A function of one point is applied to the list of its coordinates; `utils/objective_handling.py:4-14`. -/
inductive UserFun (α β : Type) where
  | notCallable
  | point (g : List α → β)
  | array (g : Nd α → Nd β)

/-- A promoted objective, `objective_handling.py:4-14`: the user's own function, `cbx_objective_f2D` or `cbx_objective_f1D`. -/
inductive Promoted (α β : Type) where
  | raw (g : Nd α → Nd β)
  | f2D (g : Nd α → Nd β)
  | f1D (g : List α → β)

/-- `_promote_objective(f, f_dim)`, `objective_handling.py:4-14`. The kind of function a user passes is assumed to fit the
name (`'1D'` with a function of one point, ...); if it does not, Python fails inside the user's function: `TypeError` here. -/
def promote (f : UserFun α β) (fdim : String) : Except Err (Promoted α β) :=
  match f with
  | .notCallable => .error .type
  | .point g => if fdim = "3D" then .error .type else if fdim = "2D" then .error .type
      else if fdim = "1D" then .ok (.f1D g) else .error .value
  | .array g => if fdim = "3D" then .ok (.raw g) else if fdim = "2D" then .ok (.f2D g)
      else if fdim = "1D" then .error .type else .error .value

/-- `x.shape[-1]` and `x.shape[-2]` of an array with at least two axes, `utils/objective_handling.py:77,101`. -/
def lastTwo (sh : List ℕ) : ℕ × ℕ := (sh.reverse.getD 1 0, sh.reverse.getD 0 0)

/-- `cbx_objective_f1D.apply`, `objective_handling.py:75-77`: `np.apply_along_axis` raises without rows. -/
def apply1D (g : List α → β) (x : Nd α) : Except Err (Nd β) := do
  let x := x.atLeast2d
  let (n, d) := lastTwo x.shape
  let y ← x.reshape2 d
  let r := y.shape.getD 0 0
  if r = 0 then .error .value
  else (⟨[r], (List.range r).map fun i => g (Nd.chunk d y.data i)⟩ : Nd β).reshape2 n

/-- `cbx_objective_f2D.apply`, `objective_handling.py:87-101`. -/
def apply2D (g : Nd α → Nd β) (x : Nd α) : Except Err (Nd β) := do
  let x := x.atLeast2d
  let (n, d) := lastTwo x.shape
  let y ← x.reshape2 d
  (g y).reshape2 n

/-- Value of a promoted objective, `objective_handling.py:75-77,87-101`. -/
def Promoted.apply : Promoted α β → Nd α → Except Err (Nd β)
  | .raw g, x => .ok (g x)
  | .f2D g, x => apply2D g x
  | .f1D g, x => apply1D g x

/-- `num_eval` after `cbx_objective.__call__`, `objective_handling.py:36`; a raw function does not count. -/
def Promoted.count : Promoted α β → Nd α → ℕ → ℕ
  | .raw _, _, c => c
  | _, x, c => c + x.atLeast2d.shape.dropLast.prod

/-- `cbx_objective.__call__`, `objective_handling.py:22-37`: value and new counter. -/
def Promoted.call (p : Promoted α β) (x : Nd α) (c : ℕ) : Except Err (Nd β × ℕ) := do
  let y ← p.apply x
  pure (y, p.count x c)

/-- `ParticleDynamic.check_f_dims(check=True)`, `pdyn.py:220-234`, on the sample `z` of the shape of the ensemble; returns the
counter of the objective. -/
def checkShape (p : Promoted α β) (z : Nd α) (M N : ℕ) (c : ℕ) : Except Err ℕ := do
  let (y, c) ← p.call z c
  if y.shape ≠ [M, N] then .error .value else pure c

/-- `ParticleDynamic.init_x`, `pdyn.py:179-207`: `x` the given ensemble or none, `M N d` the other arguments, `smp` the entries
`init_particles` draws (`pdyn.py:210-211`). Returns the ensemble. `M, N = x.shape[:2]` raises for an array without axes. -/
def initX (x : Option (Nd α)) (M N : ℕ) (d : Option ℕ) (smp : ℕ → α) : Except Err (Nd α) :=
  match x with
  | none =>
    match d with
    | none => .error .runtime
    | some d => .ok ⟨[M, N, d], (List.range (M * N * d)).map smp⟩
  | some x =>
    match x.shape with
    | [] => .error .value
    | [d] => .ok ⟨[1, 1, d], x.data⟩
    | [n, d] => .ok ⟨[1, n, d], x.data⟩
    | _ => .ok x

end Verif
