import Verif.Np.Flt

/-!
# Arrays with two leading axes, broadcasting and fancy indexing

`Mat α` models a NumPy array whose first two axes are (run, particle); an entry of type `α` stands for
everything on the remaining axes (one particle position, one energy, one index).
-/

namespace Verif

/-- Python exceptions the modelled code can raise, as values; raised for example in `pdyn.py:195`, `utils/objective_handling.py:6,14`. -/
inductive Err where
  | value      -- ValueError (also shape mismatch in broadcasting)
  | index      -- IndexError
  | key        -- KeyError
  | type       -- TypeError
  | attribute  -- AttributeError
  | runtime    -- RuntimeError
  | notImpl    -- NotImplementedError
  | zeroDiv    -- ZeroDivisionError
  deriving DecidableEq, Repr

/-- Array of shape `(rows, cols, ...)`. Only entries with `i < rows`, `j < cols` are meaningful. The ensemble `self.x`, `pdyn.py:179-208`. -/
structure Mat (α : Type) where
  rows : ℕ
  cols : ℕ
  get : ℕ → ℕ → α

namespace Mat

variable {α β γ : Type}

/-- Entrywise map (NumPy ufunc with one argument), `pdyn.py:583`. -/
def map (f : α → β) (a : Mat α) : Mat β := ⟨a.rows, a.cols, fun i j => f (a.get i j)⟩

/-- Two arrays have the same shape and the same entries; no line of its own: equality of two values of `self.x`, `pdyn.py:179-208`. -/
def Same (a b : Mat α) : Prop :=
  a.rows = b.rows ∧ a.cols = b.cols ∧ ∀ i < a.rows, ∀ j < a.cols, a.get i j = b.get i j

/-- NumPy broadcasting of one axis: equal, or one of them is 1, `pdyn.py:583-587`, `cbo.py:44-49`. -/
def bdim (a b : ℕ) : Option ℕ :=
  if a = b then some a else if a = 1 then some b else if b = 1 then some a else none

/-- Position read on an axis of length `n` when broadcasting: axis of length 1 is repeated, `pdyn.py:583-587`, `cbo.py:44-49`. -/
def bpos (n i : ℕ) : ℕ := if n = 1 then 0 else i

/-- Binary ufunc with broadcasting on both leading axes; `ValueError` if shapes are incompatible, `pdyn.py:583-587`, `cbo.py:44-49`. -/
def bin (f : α → β → γ) (a : Mat α) (b : Mat β) : Except Err (Mat γ) :=
  match bdim a.rows b.rows, bdim a.cols b.cols with
  | some r, some c =>
    .ok ⟨r, c, fun i j =>
      f (a.get (bpos a.rows i) (bpos a.cols j)) (b.get (bpos b.rows i) (bpos b.cols j))⟩
  | _, _ => .error .value

/-- Right operand broadcast *to* shape `(r, c)` (in-place operations and assignments), `cbo.py:46`, `pdyn.py:968`. -/
def bto (r c : ℕ) (b : Mat α) : Except Err (Mat α) :=
  if (b.rows = r ∨ b.rows = 1) ∧ (b.cols = c ∨ b.cols = 1) then
    .ok ⟨r, c, fun i j => b.get (bpos b.rows i) (bpos b.cols j)⟩
  else .error .value

end Mat

/-- An index into the two leading axes: an array of shape `(rows, cols)` of coordinates
`(run i, par i j)`.  It represents `Ellipsis`, `(active_runs_idx, Ellipsis)` and the fancy index
`(get_reshaped_run_idx(), batch_idx[active_runs_idx,:], Ellipsis)` of `cbx/dynamics/pdyn.py:755-800`. -/
structure Idx where
  rows : ℕ
  cols : ℕ
  run : ℕ → ℕ
  par : ℕ → ℕ → ℕ

namespace Idx

/-- `Ellipsis` on an `(M, N, ...)` array, `pdyn.py:738-739,756`. -/
def all (M N : ℕ) : Idx := ⟨M, N, id, fun _ j => j⟩

/-- `(runs, Ellipsis)`: all particles of the listed runs, `pdyn.py:758,800`. -/
def ofRuns (l : List ℕ) (N : ℕ) : Idx := ⟨l.length, N, fun i => l.getD i 0, fun _ j => j⟩

/-- Fancy index: for the `i`-th listed run `r` the particles `b r 0, ..., b r (B-1)`, `pdyn.py:688-689,796`. -/
def ofBatch (l : List ℕ) (B : ℕ) (b : ℕ → ℕ → ℕ) : Idx :=
  ⟨l.length, B, fun i => l.getD i 0, fun i j => b (l.getD i 0) j⟩

/-- All coordinates are inside an `(M, N)` array; checked by NumPy at `pdyn.py:963-968`. -/
def InBounds (ix : Idx) (M N : ℕ) : Prop :=
  ∀ i < ix.rows, ∀ j < ix.cols, ix.run i < M ∧ ix.par i j < N

instance (ix : Idx) (M N : ℕ) : Decidable (ix.InBounds M N) := by
  unfold InBounds; infer_instance

/-- `(m, n)` is one of the selected coordinates, `pdyn.py:796-800`. -/
def Sel (ix : Idx) (m n : ℕ) : Prop :=
  ∃ i < ix.rows, ∃ j < ix.cols, ix.run i = m ∧ ix.par i j = n

instance (ix : Idx) (m n : ℕ) : Decidable (ix.Sel m n) := by
  unfold Sel; infer_instance

/-- Row-major list of positions of the index array, `pdyn.py:796,968`. -/
def positions (ix : Idx) : List (ℕ × ℕ) :=
  (List.range ix.rows).flatMap fun i => (List.range ix.cols).map fun j => (i, j)

/-- Last position (row-major) that addresses `(m, n)`: NumPy assignment writes in this order, `pdyn.py:968`, `cbo.py:46`. -/
def lastPos (ix : Idx) (m n : ℕ) : Option (ℕ × ℕ) :=
  ix.positions.reverse.find? fun p => decide (ix.run p.1 = m ∧ ix.par p.1 p.2 = n)

/-- Every coordinate is addressed at most once; the batches of `pdyn.py:731-735,781-796`. -/
def Inj (ix : Idx) : Prop :=
  ∀ i < ix.rows, ∀ j < ix.cols, ∀ i' < ix.rows, ∀ j' < ix.cols,
    ix.run i = ix.run i' → ix.par i j = ix.par i' j' → i = i' ∧ j = j'

end Idx

namespace Mat

variable {α : Type}

/-- `a[ix]`, `pdyn.py:963-966`. -/
def gather (a : Mat α) (ix : Idx) : Except Err (Mat α) :=
  if ix.InBounds a.rows a.cols then
    .ok ⟨ix.rows, ix.cols, fun i j => a.get (ix.run i) (ix.par i j)⟩
  else .error .index

/-- `a[ix] = v` (v broadcast to the indexed shape; last write wins for repeated indices), `pdyn.py:968`. -/
def scatter (a : Mat α) (ix : Idx) (v : Mat α) : Except Err (Mat α) :=
  if ix.InBounds a.rows a.cols then
    match bto ix.rows ix.cols v with
    | .ok v' => .ok ⟨a.rows, a.cols, fun m n =>
        match ix.lastPos m n with
        | some p => v'.get p.1 p.2
        | none => a.get m n⟩
    | .error e => .error e
  else .error .index

/-- `a[ix] += v`: NumPy reads `a[ix]`, adds in place (v must broadcast to that shape), writes back, `cbo.py:46`. -/
def scatterAdd [Add α] (a : Mat α) (ix : Idx) (v : Mat α) : Except Err (Mat α) :=
  match gather a ix with
  | .error e => .error e
  | .ok g =>
    match bto g.rows g.cols v with
    | .error e => .error e
    | .ok v' => scatter a ix ⟨g.rows, g.cols, fun i j => g.get i j + v'.get i j⟩

end Mat
end Verif
