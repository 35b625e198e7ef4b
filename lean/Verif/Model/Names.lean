import Verif.Model.Correction
import Verif.Model.Noise
import Verif.Model.Mirror
import Verif.Model.Polar
import Verif.Model.Regularizers
import Verif.Model.Constraints
import Verif.Model.ObjectiveHandling

/-!
# Components selected by name

The dispatchers of the package. Simplification: constructor arguments given beside `name` in a dictionary are not modelled (every component gets its
default parameters), except for the normal, offset, radius and coefficients of constraints.
-/

namespace Verif

/-- A Python dictionary with string keys, as the list of its entries in order of insertion, `term_dict`, `termination.py:4`. -/
abbrev PyDict (α : Type) := List (String × α)

/-- `d[k]`: the value inserted last, `KeyError` if there is none,
`termination.py:138,141`, `regularizers.py:60,62`, `constraints.py:196`, `hypersurfacecbo.py:74`. -/
def PyDict.item {α : Type} (d : PyDict α) (k : String) : Except Err α :=
  match d.reverse.find? fun e => e.1 = k with
  | some e => .ok e.2
  | none => .error .key

/-- `d.update(dict.fromkeys(keys, v))`, as used in `termination.py:19-23,37-41,57-61,79-83,97-101,130-134`. -/
def PyDict.updateKeys {α : Type} (d : PyDict α) (keys : List String) (v : α) : PyDict α := d ++ keys.map fun k => (k, v)

/-- `k in d.keys()`, `mirrorcbo.py:255`, `pdyn.py:482`. -/
def PyDict.has {α : Type} (d : PyDict α) (k : String) : Bool := d.any fun e => e.1 = k

section
variable {ι : Type} [Fintype ι] [DecidableEq ι]

/-- The argument `noise` of `set_noise`, `pdyn.py:853-876`: a name, a callable, or anything else (`None`, ...). -/
inductive NoiseArg (ι : Type) where
  | name (s : String)
  | callable (f : St ℝ (ι → ℝ) → Except Err (Mat (ι → ℝ)))
  | other

/-- `get_noise`, `noise.py:9-19`: `covariance_noise` is built with its default `mode='sampling'` for both names. `smp` is the sampler of the
dynamic, `eigh` the eigenvalue routine. -/
noncomputable def getNoise (smp : ℕ → ℕ → ℕ → ι → ℝ) (eigh : Matrix ι ι ℝ → (ι → ℝ) × Matrix ι ι ℝ) (name : String) :
    Except Err (St ℝ (ι → ℝ) → Except Err (Mat (ι → ℝ))) :=
  if name = "isotropic" then .ok (rowNoise isoRule smp)
  else if name = "anisotropic" then .ok (rowNoise anisoRule smp)
  else if name = "covariance" ∨ name = "sampling" then .ok (covNoise eigh true smp)
  else if name = "constant" then .ok (rowNoise constRule smp)
  else .error .notImpl

/-- `set_noise`, `pdyn.py:870-876`. -/
noncomputable def setNoise (smp : ℕ → ℕ → ℕ → ι → ℝ) (eigh : Matrix ι ι ℝ → (ι → ℝ) × Matrix ι ι ℝ) (a : NoiseArg ι) :
    Except Err (St ℝ (ι → ℝ) → Except Err (Mat (ι → ℝ))) :=
  match a with
  | .name s => getNoise smp eigh s
  | .callable f => .ok f
  | .other => .error .value

end

/-- `term_dict`, `termination.py:4,19-23,37-41,57-61,79-83,97-101,130-134`, with the default parameters of the classes
(`termination.py:13,32,50,70,92,113`). -/
def termDict : PyDict (Term ℚ) :=
  let d : PyDict (Term ℚ) := []
  let d := d.updateKeys ["energy-tol", "energy tol", "energy_tol"] (.energyTol (.fin (1 / 10 ^ 7)))
  let d := d.updateKeys ["diff-tol", "diff tol", "diff_tol"] (.diffTol (.fin (1 / 10 ^ 7)))
  let d := d.updateKeys ["max-eval", "max eval", "max_eval"] (.maxEval 1000)
  let d := d.updateKeys ["max-it", "max it", "max_it"] (.maxIt (some 1000))
  let d := d.updateKeys ["max-time", "max time", "max_time"] (.maxTime 10)
  d.updateKeys ["energy-stagnation", "energy stagnation", "energy_stagnation"] (.energyStag 20 (.fin (1 / 10 ^ 9)) none)

/-- An element of `term_criteria`, `termination.py:136-149`: a name, a dictionary with or without the key `name`, or an object that is used as it is. -/
inductive TermArg where
  | name (s : String)
  | dict (name : Option String)
  | object (t : Term ℚ)

/-- `select_term`, `termination.py:136-149`. -/
def selectTerm : TermArg → Except Err (Term ℚ)
  | .name s => termDict.item s
  | .dict (some s) => termDict.item s
  | .dict none => .error .value
  | .object t => .ok t

/-- `init_term`, `pdyn.py:424-427`: without criteria a single `max_it_term(max_it)`. -/
def initTerms (crit : Option (List TermArg)) (maxIt : Option ℕ) : Except Err (List (Term ℚ)) :=
  match crit with
  | none => .ok [.maxIt maxIt]
  | some l => l.mapM selectTerm

namespace Mirror

/-- `grad` and `grad_conj` of a mirror map on one particle, `mirrorcbo.py:26-47`. -/
structure Maps (d : ℕ) where
  grad : (Fin (d + 1) → ℝ) → Fin (d + 1) → Flt ℝ
  conj : (Fin (d + 1) → ℝ) → Fin (d + 1) → Flt ℝ

/-- Maps with finite values, `mirrorcbo.py:26-47`. -/
def Maps.ofReal {d : ℕ} (g c : (Fin (d + 1) → ℝ) → Fin (d + 1) → ℝ) : Maps d := ⟨fun x i => .fin (g x i), fun y i => .fin (c y i)⟩

/-- `mirror_dict`, `mirrorcbo.py:239-251`, with the default parameters of the classes (`weighted_L2` with the 1x1 identity, read as the identity). -/
noncomputable def mirrorDict (d : ℕ) : PyDict (Maps d) :=
  [("ElasticNet", .ofReal (elasticGrad 1 1) (elasticConj 1 1)),
   ("None", .ofReal (l2Grad 1) (l2Conj 1)), ("L2", .ofReal (l2Grad 1) (l2Conj 1)),
   ("ProjectionBall", .ofReal projGrad (ballConj 1 0)),
   ("ProjectionHyperplane", .ofReal projGrad (planeConj none 0)),
   ("ProjectionSphere", ⟨fun x i => .fin (projGrad x i), sphereConj 1⟩),
   ("ProjectionSquare", .ofReal projGrad (squareConj 1)),
   ("LogBarrierBox", ⟨fun x i => logBarrierGrad (x i), fun y i => logBarrierConj (y i)⟩),
   ("NonsmoothBarrier", ⟨fun x i => nonsmoothGrad (x i), fun y i => nonsmoothConj (y i)⟩),
   ("weighted_L2", .ofReal (weightedGrad 1) weightedConj),
   ("Entropy", .ofReal entropyGrad entropyConj),
   ("EntropySimplex", .ofReal simplexGrad simplexConj)]

/-- The argument `mirrormap`, `mirrorcbo.py:261-273`: `None`, a name, a dictionary, or an object used as it is (with a warning). -/
inductive MapArg (d : ℕ) where
  | none
  | name (s : String)
  | dict (name : Option String)
  | object (m : Maps d)

/-- `get_mirror_map_by_name`, `mirrorcbo.py:254-259`. -/
noncomputable def byName {d : ℕ} (name : String) : Except Err (Maps d) :=
  if (mirrorDict d).has name then (mirrorDict d).item name else .error .value

/-- `get_mirror_map`, `mirrorcbo.py:261-273`: `str(None)` is `"None"`; a dictionary without `name` raises `KeyError`. -/
noncomputable def getMap {d : ℕ} : MapArg d → Except Err (Maps d)
  | .none => byName "None"
  | .name s => byName s
  | .dict (some s) => byName s
  | .dict Option.none => .error .key
  | .object m => .ok m

end Mirror

/-- `PolarCBO.kernel_dict`, `polarcbo.py:198-202`. -/
def kernelDict : PyDict Kernel :=
  [("Gaussian", .gaussian), ("Laplace", .laplace), ("Constant", .constant), ("InverseQuadratic", .inverseQuadratic), ("Taz", .taz)]

/-- `PolarCBO.set_kernel` for a name, `polarcbo.py:222-227`. -/
def setKernel (name : String) : Except Err Kernel := if kernelDict.has name then kernelDict.item name else .error .value

/-- `kernel_factor_mode`, `polarcbo.py:231-237`: the constructor stores any string. -/
def kernelMode (name : String) : KernelMode := if name = "const" then .const else if name = "alpha" then .alpha else .other

/-- `reg_func_dict`, `regularizers.py:50-56`, with default parameters; `QuadricDistance` without `A` fails when called (`None.T`). -/
noncomputable def regDict (d : ℕ) : PyDict ((Fin d → ℝ) → Except Err ℝ) :=
  [("L0", fun x => .ok (regL0 1 x)), ("L1", fun x => .ok (regL1 1 x)), ("Plane", fun x => .ok (regPlane (.scalar 1) 0 x)),
   ("Sphere", fun x => .ok (regSphere 1 x)), ("Quadric", fun _ => .error .attribute)]

/-- The argument `reg_func`, `regularizers.py:58-64`. -/
inductive RegArg (d : ℕ) where
  | name (s : String)
  | dict (name : Option String)
  | object (f : (Fin d → ℝ) → Except Err ℝ)

/-- `select_reg_func`, `regularizers.py:58-64`. -/
noncomputable def selectReg {d : ℕ} : RegArg d → Except Err ((Fin d → ℝ) → Except Err ℝ)
  | .name s => (regDict d).item s
  | .dict (some s) => (regDict d).item s
  | .dict none => .error .key
  | .object f => .ok f

/-- `rule_mean` of `regularization_paramter_scheduler`, `regularizers.py:115`: which of the two rules is used. -/
def ruleMeanWeighted (rule : String) : Bool := rule = "weighted"

/-- An element of the list of constraints, `constraints.py:189-197`: `None` or a dictionary with a name and parameters. -/
inductive ConArg (ι : Type) where
  | none
  | dict (name : String) (a : ι → ℝ) (b r : ℝ) (A : Matrix ι ι ℝ) (bv : ι → ℝ) (c : ℝ)

/-- `const_dict[c['name']](...)`, `constraints.py:185-187,196`. -/
def constDict {ι : Type} (a : ι → ℝ) (b r : ℝ) (A : Matrix ι ι ℝ) (bv : ι → ℝ) (c : ℝ) : PyDict (Con.Constraint ι) :=
  [("plane", .plane a b), ("sphere", .sphere r), ("quadric", .quadric A bv c)]

/-- `get_constraints`, `constraints.py:189-197`. -/
def getConstraints {ι : Type} (l : Option (List (ConArg ι))) : Except Err (List (Con.Constraint ι)) :=
  (l.getD []).foldlM (fun cs a => match a with
    | .none => .ok cs
    | .dict name a b r A bv c => do
      let k ← (constDict a b r A bv c).item name
      pure (cs ++ [k])) []

end Verif
