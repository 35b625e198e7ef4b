import Verif.Model.Plot

/-!
# Plots of a running dynamic: `PlotDynamic` of `cbx/plotting.py`

As in `Model/Plot.lean`, what is drawn is a value and matplotlib is not modelled.
-/

namespace Verif

variable {K V : Type}

/-- `if self.plot_consensus: self.init_consensus(c)` in `PlotDynamic.init_plot`, `plotting.py:129-134,184-206`: the consensus points of the dynamic, or all particles as long as there are none. -/
def liveInitCons (r : ℕ) (plotC : Bool) (s : St K V) : Except Err (Option (List V)) :=
  if plotC then do
    let q ← rowOf (s.cons.getD s.x) r
    pure (some q)
  else pure none

/-- `if self.plot_drift: self.init_drift(...)` in `PlotDynamic.init_plot`, `plotting.py:136-144,208-235`: without a drift the positions themselves are drawn as arrows, at all particles. -/
def liveInitArrows (d r : ℕ) (plotD : Bool) (s : St K V) : Except Err (Option (List V × List V)) :=
  if plotD = true ∧ d ≠ 1 then
    match s.drift with
    | none => do
      let p ← rowOf s.x r
      pure (some (p, p))
    | some dr => do
      let q ← arrowsOf r s.x (some dr, s.pIdx)
      pure (some q)
  else pure none

/-- `PlotDynamic.init_plot`, `plotting.py:114-144` (the objective is drawn by `contour2D`). -/
def liveInit (d r : ℕ) (plotC plotD : Bool) (s : St K V) : Except Err (Frame V) := do
  let pts ← rowOf s.x r
  let c ← liveInitCons r plotC s
  let a ← liveInitArrows d r plotD s
  pure { particles := pts, cons := c, arrows := a }

/-- `if self.plot_consensus: self.plot_c(self.dyn.consensus)`, `plotting.py:252-253,283-304`: no consensus, nothing drawn. -/
def liveCons (r : ℕ) (plotC : Bool) (s : St K V) : Except Err (Option (List V)) :=
  if plotC then
    match s.cons with
    | none => pure none
    | some c => do
      let q ← rowOf c r
      pure (some q)
  else pure none

/-- `if self.plot_drift: self.plot_d(self.dyn.x_old, self.dyn.drift, self.dyn.particle_idx)`, `plotting.py:254-255,306-333`; `init_plot` has switched the arrows off in one dimension
(`plotting.py:226-228`). -/
def liveArrows (d r : ℕ) (plotD : Bool) (x : Mat V) (s : St K V) : Except Err (Option (List V × List V)) :=
  if plotD = true ∧ d ≠ 1 then do
    let q ← arrowsOf r x (s.drift, s.pIdx)
    pure (some q)
  else pure none

/-- `PlotDynamic.update`, `plotting.py:237-257`: the positions before the last step (`x_old`, which exists after the first step only). -/
def liveUpdate (d r : ℕ) (plotC plotD : Bool) (s : St K V) : Except Err (Frame V) :=
  match s.xOld with
  | none => .error .attribute
  | some x => do
    let pts ← rowOf x r
    let c ← liveCons r plotC s
    let a ← liveArrows d r plotD x s
    pure { particles := pts, cons := c, arrows := a }

end Verif
