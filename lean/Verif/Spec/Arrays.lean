import Verif.Model.Arrays
import Verif.Proofs.RunBasics

/-!
# Arrays represent per-particle data

`Rep ds a m`: the array `a` of shape `(rows, cols, d1, ..., dk)` holds the particles `m`, each a vector indexed by the row-major position in
`ds = [d1, ..., dk]`.
-/

namespace Verif

/-- `a` has the shape of `m` followed by `ds` and holds the coordinates of the particles in row-major order. -/
structure Rep {α : Type} (ds : List ℕ) (a : Arr α) (m : Mat (Fin ds.prod → α)) : Prop where
  shape : a.shape = m.rows :: m.cols :: ds
  get : ∀ i < m.rows, ∀ j < m.cols, ∀ q : Fin ds.prod, a.get (i :: j :: unravel ds q) = m.get i j q

/-- A two-dimensional array and its entries. -/
structure Rep2 {α : Type} (a : Arr α) (m : Mat α) : Prop where
  shape : a.shape = [m.rows, m.cols]
  get : ∀ i < m.rows, ∀ j < m.cols, a.get [i, j] = m.get i j

/-- A function of arrays evaluates `f` on every particle and returns an array of shape `(rows, cols)`. -/
def ActsBy (ds : List ℕ) (F : Arr ℝ → Except Err (Arr (Flt ℝ))) (f : (Fin ds.prod → ℝ) → Flt ℝ) : Prop :=
  ∀ a m, Rep ds a m → ∃ y, F a = .ok y ∧ Rep2 y (m.map f)

/-- The noise of one particle with drift `d` and random numbers `z`. -/
noncomputable def kindRule {n : ℕ} : ArrModel.Kind → (Fin n → ℝ) → (Fin n → ℝ) → Fin n → ℝ
  | .const => fun _ z => z
  | .iso => fun d z q => z q * Real.sqrt (∑ i, d i ^ 2)
  | .aniso => fun d z q => z q * d q

/-- A dynamic on particles of shape `ds` whose surroundings are the ones of the array model: no correction, the default consensus rule,
the noise `kind` with the random numbers `smp` (call, multi-index), clipping at `T`, random permutations in range. -/
structure ArrEnv (ds : List ℕ) (F : Arr ℝ → Except Err (Arr (Flt ℝ))) (kind : ArrModel.Kind) (smp : ℕ → List ℕ → ℝ) (T : ℝ)
    (env : Env ℝ (Fin ds.prod → ℝ)) : Prop where
  corr : env.corr = .none
  cons : env.cons = .mean consDefault
  noise : env.noise = rowNoise (kindRule kind) fun c i j q => smp c (i :: j :: unravel ds q)
  post : env.post = fun s => .ok (s.x.map fun v q => min (max (v q) (-T)) T)
  perm : PermOK env
  f : ActsBy ds F env.f

end Verif
