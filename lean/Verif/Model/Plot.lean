import Verif.Model.Dyn

/-!
# Plots: `cbx/plotting.py`

What is drawn is a value: the list of frames, each with the points handed to matplotlib. matplotlib itself, colours and the one-dimensional energy axis
(`plotting.py:171-175,272-277`) are not modelled; indices are natural numbers.
-/

namespace Verif

section
variable {K V : Type}

/-- `a[num_run, ...]`: one run of an array as a list of points, `plotting.py:177-181,201-205,231-234,279,302,329-333`. -/
def rowOf (a : Mat V) (r : ℕ) : Except Err (List V) := if r < a.rows then .ok (a.row r) else .error .index

/-- `l[i]` on a Python list, `plotting.py:177-205`. -/
def pyItem {α : Type} (l : List α) (i : ℕ) : Except Err α :=
  match l[i]? with
  | some a => .ok a
  | none => .error .index

/-- The attributes of `PlotDynamicHistory`, `plotting.py:357-382`: `x` the recorded particles, `c` the recorded consensus points if they are plotted, `dr` the
recorded drifts with `particle_idx` if they are plotted. -/
structure Plot (V : Type) where
  numRun : ℕ
  x : List (Mat V)
  c : Option (List (Option (Mat V)))
  dr : Option (List (Option (Mat V) × Idx))

/-- What one call of `plot_at_ind` hands to matplotlib: offsets of the particles, of the consensus points, positions and directions of the arrows (before the sign
and the choice of the coordinates `dims`). `none` means that the artist is left alone; `plotting.py:399-417`. -/
structure Frame (V : Type) where
  particles : List V
  cons : Option (List V)
  arrows : Option (List V × List V)

/-- `dyn.history['x']`, `plotting.py:362` (`history.py:73-91`). -/
def histX (h : List (Entry K V)) : List (Mat V) := h.filterMap fun e => match e with
  | .x a => some a
  | _ => none

/-- `dyn.history['consensus']`, `plotting.py:371` (`history.py:137-142`). -/
def histC (h : List (Entry K V)) : List (Option (Mat V)) := h.filterMap fun e => match e with
  | .consensus a => some a
  | _ => none

/-- `dyn.history['drift']` and `dyn.history['particle_idx']`, `plotting.py:379-380` (`history.py:161-169`). -/
def histD (h : List (Entry K V)) : List (Option (Mat V) × Idx) := h.filterMap fun e => match e with
  | .drift a ix => some (a, ix)
  | _ => none

/-- `plot_d` and `init_drift`, `plotting.py:226-235,323-333`: positions `x[pidx][num_run]` and directions `dr[num_run]`. A drift that is `None` cannot be indexed. -/
def arrowsOf (r : ℕ) (x : Mat V) (d : Option (Mat V) × Idx) : Except Err (List V × List V) :=
  match d.1 with
  | none => .error .type
  | some dr => do
    let g ← x.gather d.2
    let p ← rowOf g r
    let q ← rowOf dr r
    pure (p, q)

/-- `if self.plot_consensus: self.init_consensus(self.c[0])`, `plotting.py:393-394,184-206`. -/
def initCons (p : Plot V) : Except Err Unit :=
  match p.c with
  | none => pure ()
  | some l => do
    let e ← pyItem l 0
    match e with
    | none => .error .type
    | some c => do
      let _ ← rowOf c p.numRun
      pure ()

/-- `if self.plot_drift: self.init_drift(self.x[0], self.dr[0], self.pidx[0])`, `plotting.py:396-397,208-235`. In one dimension the arrows are switched off
(`plotting.py:226-228`). -/
def initArrows (d : ℕ) (p : Plot V) (x0 : Mat V) : Except Err (Plot V) :=
  match p.dr with
  | none => pure p
  | some l => do
    let e ← pyItem l 0
    if d = 1 then pure { p with dr := none }
    else do
      let _ ← arrowsOf p.numRun x0 e
      pure p

/-- `init_plot`, `plotting.py:385-397`, with `init_x` (`plotting.py:157-182`): reads entry 0 of every list. -/
def initPlot (d : ℕ) (p : Plot V) : Except Err (Plot V) := do
  let x0 ← pyItem p.x 0
  let _ ← rowOf x0 p.numRun
  initCons p
  initArrows d p x0

/-- `PlotDynamicHistory.__init__`, `plotting.py:357-382`: the particle history (or the array given), the consensus and drift histories if they were recorded. -/
def mkPlot (d numRun : ℕ) (particles : Option (List (Mat V))) (plotC plotD : Bool) (s : St K V) : Except Err (Plot V) :=
  if Track.x ∈ s.tracks then
    initPlot d { numRun := numRun, x := particles.getD (histX (s.hist .x)),
                 c := if plotC = true ∧ Track.consensus ∈ s.tracks then some (histC (s.hist .consensus)) else none
                 dr := if plotD = true ∧ Track.drift ∈ s.tracks then some (histD (s.hist .drift)) else none }
  else .error .runtime

/-- `if self.plot_consensus: self.plot_c(self.c[i])`, `plotting.py:414-415,283-304`: a consensus `None` is skipped. -/
def frameCons (p : Plot V) (i : ℕ) : Except Err (Option (List V)) :=
  match p.c with
  | none => pure none
  | some l => do
    let e ← pyItem l i
    match e with
    | none => pure none
    | some c => do
      let q ← rowOf c p.numRun
      pure (some q)

/-- `if self.plot_drift: self.plot_d(self.x[i], self.dr[i], self.pidx[i])`, `plotting.py:416-417,306-333`. -/
def frameArrows (p : Plot V) (i : ℕ) (x : Mat V) : Except Err (Option (List V × List V)) :=
  match p.dr with
  | none => pure none
  | some l => do
    let e ← pyItem l i
    let q ← arrowsOf p.numRun x e
    pure (some q)

/-- `plot_at_ind`, `plotting.py:399-417`, with `plot_particles` (`plotting.py:259-281`). -/
def plotAt (p : Plot V) (i : ℕ) : Except Err (Frame V) := do
  let x ← pyItem p.x i
  let pts ← rowOf x p.numRun
  let c ← frameCons p i
  let a ← frameArrows p i x
  pure { particles := pts, cons := c, arrows := a }

/-- The loop of `run_plots`, `plotting.py:445-449`; `i % 0` raises. The result is the list of frames with their titles `Iteration: i`. -/
def runPlotsFrom (p : Plot V) (freq : ℕ) : List ℕ → Except Err (List (ℕ × Frame V))
  | [] => .ok []
  | i :: l =>
    if freq = 0 then .error .zeroDiv
    else if i % freq = 0 then do
      let f ← plotAt p i
      let fs ← runPlotsFrom p freq l
      pure ((i, f) :: fs)
    else runPlotsFrom p freq l

/-- `run_plots`, `plotting.py:434-454`, with `max_it = len(x) - 1` (`plotting.py:363`). -/
def runPlots (p : Plot V) (freq : ℕ) : Except Err (List (ℕ × Frame V)) := runPlotsFrom p freq (List.range (p.x.length - 1))

end

section
variable {K : Type} [Field K] [LinearOrder K]

/-- `np.linspace(a, b, n)[j]`, `plotting.py:10,26-27`. -/
def linspace (a b : K) (n j : ℕ) : K := if n = 1 then a else a + j * ((b - a) / ((n : K) - 1))

/-- `y_min if y_min else x_min`, `plotting.py:24-25`: `None` and `0` are both false. -/
def windowY (x : K) (y : Option K) : K :=
  match y with
  | none => x
  | some v => if v = 0 then x else v

/-- One contour plot: the grid coordinates `X`, `Y` of `np.meshgrid` and the array of points `Z` on which the objective is evaluated,
`plotting.py:26-32`. -/
structure Grid (K : Type) where
  X : ℕ → ℕ → K
  Y : ℕ → ℕ → K
  Z : ℕ → ℕ → ℕ → K

/-- `contour_2D`, `plotting.py:15-34`, up to the call of `f` and matplotlib: `Z[..., dims] = XY` for `dims = (d0, d1)`, later indices win. -/
def contour2D (n d : ℕ) (dims : ℕ × ℕ) (xMin xMax : K) (yMin yMax : Option K) : Except Err (Grid K) :=
  let x := linspace xMin xMax n
  let y := linspace (windowY xMin yMin) (windowY xMax yMax) n
  if dims.1 < d ∧ dims.2 < d then
    .ok { X := fun _ j => x j, Y := fun i _ => y i, Z := fun i j k => if k = dims.2 then y i else if k = dims.1 then x j else 0 }
  else .error .index

/-- The limits of the axes set by `PlotDynamic.__init__`, `plotting.py:107-110`: the `x` window of `objective_args` for both axes. -/
def axesWindow (xMin xMax : Option K) : (K × K) × (K × K) :=
  let a := xMin.getD (-1)
  let b := xMax.getD 1
  ((a, b), (a, b))

end

end Verif
