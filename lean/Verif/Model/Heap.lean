import Verif.Model.Dyn

/-!
# Arrays as objects: which array `self.x` is, and who else refers to it

`Verif/Model/Dyn.lean` treats arrays as values. Here the arrays that `self.x`, `self.x_old`, `history['x']` and the caller refer to are cells of a store, so that writing
in place (`x[idx] += u`) and binding a new array (`self.x = ...`) are different. The numbers written come from the machine of `Dyn`.
-/

namespace Verif

section
variable {K V : Type}

/-- References and the store: `cell a` is the content of the array object `a`, addresses below `next` are in use. `x` is the object `self.x`, `xOld` the object `self.x_old`,
`hist` the objects in `history['x']` (`history.py:74-75,91`), `caller` the array the user passed as argument `x` (`pdyn.py:131`). -/
structure Refs (V : Type) where
  next : ℕ
  cell : ℕ → Mat V
  x : ℕ
  xOld : Option ℕ
  hist : List ℕ
  caller : ℕ

/-- A new array object with content `v`. Models what `np.copy` (`pdyn.py:174`) and array expressions return. -/
def Refs.alloc (r : Refs V) (v : Mat V) : Refs V := { r with next := r.next + 1, cell := fun a => if a = r.next then v else r.cell a }

/-- Writing in place into the array object that `self.x` refers to: `self.x[particle_idx] += ...` (`cbo.py:46`), `self.x -= ...` (`driftconstrainedcbo.py:19`),
`np.nan_to_num(dyn.x, copy=False)` (`pdyn.py:42`). -/
def Refs.write (r : Refs V) (v : Mat V) : Refs V := { r with cell := fun a => if a = r.x then v else r.cell a }

/-- `self.x = <new array>`: `mirrorcbo.py:293`, `hypersurfacecbo.py:140`, `regcombinationcbo.py:33,40`, `np.clip` in `pdyn.py:43`. -/
def Refs.bind (r : Refs V) (v : Mat V) : Refs V := { r.alloc v with x := r.next }

/-- `self.x_old = self.copy(self.x)`, `pdyn.py:911`. -/
def Refs.saveOld (r : Refs V) : Refs V := { r.alloc (r.cell r.x) with xOld := some r.next }

/-- `dyn.history['x'].append(dyn.copy(dyn.x))`, `history.py:91`. -/
def Refs.record (r : Refs V) : Refs V := { r.alloc (r.cell r.x) with hist := r.hist ++ [r.next] }

/-- How the inner step of a dynamic changes `self.x`. In place: CBO (`cbo.py:46`), AdamCBO (`adamcbo.py:47`), CBOMemory (`cbo_memory.py:81`), PSO (`pso.py:135`),
DriftConstrainedCBO (`driftconstrainedcbo.py:19`). Binding a new array: MirrorCBO (`mirrorcbo.py:293`), HyperSurfaceCBO (`hypersurfacecbo.py:140`),
RegCombinationCBO (`regcombinationcbo.py:33,40`). -/
inductive Style where
  | inPlace | rebind

/-- The effect of the inner step on the references; `v` are the numbers it computes, see `Style` for the lines,
`cbo.py:46`, `mirrorcbo.py:293` and so on. -/
def Refs.inner (st : Style) (v : Mat V) (r : Refs V) : Refs V :=
  match st with
  | .inPlace => r.write v
  | .rebind => r.bind v

/-- `post_process_default.__call__`, `pdyn.py:41-43`: `np.nan_to_num` in place (or discarded, if `copy` is set), then `dyn.x = np.clip(...)`. -/
def Refs.post (copy : Bool) (nan clip : V → V) (r : Refs V) : Refs V :=
  let r := if copy then r else r.write ((r.cell r.x).map nan)
  r.bind ((r.cell r.x).map clip)

/-- `init_x` and `track_x.init_history`, `pdyn.py:198-203`, `history.py:73-75`: the caller's array is copied; the first history entry is the *object* `self.x`. -/
def Refs.start (x0 : Mat V) : Refs V :=
  { next := 2, cell := fun _ => x0, x := 1, xOld := none, hist := [1], caller := 0 }

section
variable [Zero K] [One K] [Neg K] [Add K] [Sub K] [Mul K] [Inv K] [Div K] [NatCast K] [Pow K ℕ] [LinearOrder K] [Add V] [Sub V] [SMul K V]

/-- What distinguishes the dynamics here: style of the inner step and the default post processing, `pdyn.py:36-43,170-171`. -/
structure Mem (V : Type) where
  style : Style
  copy : Bool
  nan : V → V
  clip : V → V

/-- `step`, `pdyn.py:294-311`, with references: `pre_step` saves a copy, the inner step changes `self.x`, post processing, tracking (`pdyn.py:497-510`). -/
def refStep (env : Env K V) (inner : St K V → Except Err (St K V)) (m : Mem V) (p : St K V × Refs V) : Except Err (St K V × Refs V) := do
  let v ← inner (preStep env p.1)
  let s ← postStep env v
  let r := ((p.2.saveOld.inner m.style v.x).post m.copy m.nan m.clip)
  pure (s, if p.1.it % p.1.saveInt = 0 ∧ Track.x ∈ p.1.tracks then r.record else r)

/-- The operations of `Dyn` with references (`pdyn.py:294-311,355-364`); termination checks and schedulers do not touch the particles. `reset` (`pdyn.py:397-410,931-934`) calls
`init_history()` without arguments: `history` becomes a new dictionary (`pdyn.py:480`) without the key `x`, since the default trackers are `update_norm` and `energy` (`pdyn.py:477`). -/
def refExec (env : Env K V) (inner : St K V → Except Err (St K V)) (m : Mem V) (o : Op) (p : St K V × Refs V) : Except Err (St K V × Refs V) :=
  match o with
  | .step => refStep env inner m p
  | .reset => .ok (reset p.1, { p.2 with hist := [] })
  | o => do
    let s ← exec env inner o p.1
    pure (s, p.2)

/-- A sequence of operations (the loop of `optimize`, `pdyn.py:355-364`, or calls by the user). -/
def refExecAll (env : Env K V) (inner : St K V → Except Err (St K V)) (m : Mem V) : List Op → St K V × Refs V → Except Err (St K V × Refs V)
  | [], p => .ok p
  | o :: l, p => do
    let q ← refExec env inner m o p
    refExecAll env inner m l q

end

/-- The list of trackers in `init_history`, `pdyn.py:474-492`: `self.tracks` *is* the list `track_args['extra_tracks']` of the caller, and the named trackers are appended to it. Returns
the trackers of the dynamic and the caller's list afterwards. -/
def initTracks (extra : List Track) (names : List Track) : List Track × List Track :=
  let tracks := extra ++ names
  (tracks, tracks)

end

end Verif
