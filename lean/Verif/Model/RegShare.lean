import Verif.Model.Regularizers

/-!
# A regularised objective and its scheduler as objects: `cbx/regularizers.py:69-133`

`Regularizers.lean` has the formulas run by run. Here the attributes `lamda`, `theta` are arrays whose shape is fixed by the first caller, indices are boolean masks, and exceptions leave the objects as they are at
that moment.
-/

namespace Verif

variable {d : ℕ}

/-- The attributes of `regularize_objective` that change, `regularizers.py:70-75`: `lamda`, and the counter `num_eval` of the original objective (`regularizers.py:87-89`, `utils/objective_handling.py:21,37`). -/
structure RegObj where
  lamda : Lam
  numEval : ℕ

/-- `regularize_objective.__call__`, `regularizers.py:77-85`: `broadcast_lamda`, the call of the original objective, which counts (`utils/objective_handling.py:37`), and the sum, which may raise `ValueError`. The
object after the call is returned in both cases. -/
noncomputable def regEval (f R : (Fin d → ℝ) → ℝ) (p : ℝ) (o : RegObj) (x : Mat (Fin d → ℝ)) : Except Err (Mat ℝ) × RegObj :=
  let l := o.lamda.broadcast x.rows
  let o := { lamda := .col l, numEval := o.numEval + x.rows * x.cols }
  match bcast l.length x.rows with
  | .error e => (.error e, o)
  | .ok r => (.ok ⟨r, x.cols, fun m n => f (x.get (brow x.rows m) n) + l.getD (brow l.length m) 0 * R (x.get (brow x.rows m) n) ^ p⟩, o)

/-- `rule_mean`, `regularizers.py:108,115`. -/
inductive MeanRule where
  | simple
  | weighted

/-- `simple_param_rule_mean`, `weighted_param_rule_mean`, `regularizers.py:91-97`. `alpha` has shape `(M, 1)` (`pdyn.py`), so its product with the energies is broadcast, and so is the product with the regulariser. The
weighted rule calls the objective once more (`dyn.eval_f`, `pdyn.py:936-938`). -/
noncomputable def ruleMean (rule : MeanRule) (f R : (Fin d → ℝ) → ℝ) (p : ℝ) (alpha : List ℝ) (o : RegObj) (x : Mat (Fin d → ℝ)) : Except Err (List ℝ) × RegObj :=
  match rule with
  | .simple => (.ok ((List.range x.rows).map (ruleSimple R x)), o)
  | .weighted =>
    match regEval f R p o x with
    | (.error e, o) => (.error e, o)
    | (.ok y, o) =>
      (do
        let r ← bcast alpha.length y.rows
        let k ← bcast r x.rows
        let E : ℕ → ℕ → ℝ := fun i n => Real.exp (-alpha.getD (brow alpha.length (brow r i)) 0 * y.get (brow y.rows (brow r i)) n)
        pure ((List.range k).map fun i => (∑ n ∈ Finset.range x.cols, E i n * R (x.get (brow x.rows i) n)) / ∑ n ∈ Finset.range x.cols, E i n), o)

open Classical in
/-- `regularization_paramter_scheduler.update`, `regularizers.py:119-133`, for a dynamic with ensemble `x`: `broadcast_params`, the mean, the comparison (broadcast), the two assignments to `theta` with a boolean mask (IndexError unless the
mask is as long as `theta`), the assignment to `lamda` with the mask (TypeError for a number, IndexError unless the mask is as long as `lamda`), `np.clip`. Returns `theta` and the objective as they are after the return or the exception. -/
noncomputable def schedLamda (c : RegCfg) (rule : MeanRule) (f R : (Fin d → ℝ) → ℝ) (p : ℝ) (alpha : List ℝ) (x : Mat (Fin d → ℝ)) (theta : Lam) (o : RegObj) : Except Err Unit × Lam × RegObj :=
  let th := theta.broadcast x.rows
  match ruleMean rule f R p alpha o x with
  | (.error e, o) => (.error e, .col th, o)
  | (.ok m, o) =>
    match bcast m.length th.length with
    | .error e => (.error e, .col th, o)
    | .ok k =>
      if k ≠ th.length then (.error .index, .col th, o) else
      let t : ℕ → Prop := fun i => m.getD (brow m.length i) 0 ≤ 1 / √(th.getD (brow th.length i) 0)
      let th' := (List.range k).map fun i => if t i then th.getD i 0 * c.factorTheta else min (th.getD i 0 / c.factorTheta) c.thetaMax
      match o.lamda with
      | .num _ => (.error .type, .col th', o)
      | .col l =>
        if k ≠ l.length then (.error .index, .col th', o) else
        (.ok (), .col th', { o with lamda := .col ((List.range k).map fun i => min (max (if t i then l.getD i 0 else l.getD i 0 * c.factorLamda) 0) c.lamdaMax) })

/-- What users of the objective do: a dynamic, a plot (`plotting.py:11,32`) or the user calls it; the scheduler is updated by `optimize` (`regularizers.py:125-133`). -/
inductive RegOp (d : ℕ) where
  | call (x : Mat (Fin d → ℝ))
  | update (alpha : List ℝ) (x : Mat (Fin d → ℝ))

/-- One use, exceptions caught by the user, `regularizers.py:77-79,125-133`. -/
noncomputable def regOp (c : RegCfg) (rule : MeanRule) (f R : (Fin d → ℝ) → ℝ) (p : ℝ) (s : Lam × RegObj) : RegOp d → Lam × RegObj
  | .call x => (s.1, (regEval f R p s.2 x).2)
  | .update alpha x => (schedLamda c rule f R p alpha x s.1 s.2).2

/-- A sequence of uses, `regularizers.py:77-79,125-133`. -/
noncomputable def regOps (c : RegCfg) (rule : MeanRule) (f R : (Fin d → ℝ) → ℝ) (p : ℝ) (s : Lam × RegObj) (ops : List (RegOp d)) : Lam × RegObj := ops.foldl (regOp c rule f R p) s

/-- The ensemble of `plot_1D`, `plotting.py:10`: one run, the points of the grid as particles. -/
def plotGrid (pts : List ℝ) : Mat (Fin 1 → ℝ) := ⟨1, pts.length, fun _ n _ => pts.getD n 0⟩

/-- The ensemble of `contour_2D` with the default `d=2`, `plotting.py:26-31`: row `i` of the grid becomes run `i`. -/
def contourGrid (xs ys : List ℝ) : Mat (Fin 2 → ℝ) := ⟨ys.length, xs.length, fun i j => ![xs.getD j 0, ys.getD i 0]⟩

end Verif
