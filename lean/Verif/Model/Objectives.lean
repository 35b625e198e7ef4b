import Mathlib.Analysis.SpecialFunctions.Pow.Real
import Mathlib.Analysis.SpecialFunctions.Complex.Arg
import Verif.Np.Mat

/-!
# Test objectives: `cbx/objectives.py`

Each objective is a function of one point (`apply` acts on the last axis only). Two-dimensional objectives read `x[...,0]` and
`x[...,1]`; they are modelled on `Fin 2 → ℝ`, the others on `Fin d → ℝ`. `np.arctan2(y, x)` is `Complex.arg`, `**0.1` is the real
power. Decimal literals are the exact rationals, `np.pi`, `np.e` the exact constants.
`minima` attributes that are lists of points are modelled as lists.
-/

namespace Verif.Obj

open Real

/-- `np.linalg.norm(x, axis=-1)`, `objectives.py:508,573,585,609,622,1144`. -/
noncomputable def norm2 {d : ℕ} (x : Fin d → ℝ) : ℝ := √(∑ i, x i ^ 2)

/-- `three_hump_camel.apply`, `objectives.py:75-76`. -/
noncomputable def threeHump (x : Fin 2 → ℝ) : ℝ :=
  2 * x 0 ^ 2 - 1.05 * x 0 ^ 4 + (1 / 6) * x 0 ^ 6 + x 0 * x 1 + x 1 ^ 2

/-- `McCormick.apply`, `objectives.py:139-140`. -/
noncomputable def mcCormick (x : Fin 2 → ℝ) : ℝ :=
  sin (x 0 + x 1) + (x 0 - x 1) ^ 2 - 1.5 * x 0 + 2.5 * x 1 + 1

/-- Minima documented for `McCormick`, `objectives.py:83`. -/
noncomputable def mcCormickMinima : List (Fin 2 → ℝ) := [![-0.54719, -1.54719], ![1.54719, 0.54719]]

/-- `Rosenbrock.apply`, `objectives.py:212-213`. -/
noncomputable def rosenbrock (a b : ℝ) (x : Fin 2 → ℝ) : ℝ := (a - x 0) ^ 2 + b * (x 1 - x 0 ^ 2) ^ 2

/-- `Himmelblau.apply`, `objectives.py:292-294`. -/
noncomputable def himmelblau (factor : ℝ) (x : Fin 2 → ℝ) : ℝ :=
  ((factor * x 0) ^ 2 + factor * x 1 - 11) ^ 2 + (factor * x 0 + (factor * x 1) ^ 2 - 7) ^ 2

/-- `Himmelblau.minima`, `objectives.py:290`. -/
noncomputable def himmelblauMinima : List (Fin 2 → ℝ) :=
  [![3, 2], ![-2.805118, 3.131312], ![-3.779310, -3.283186], ![3.584428, -1.848126]]

/-- `Rastrigin.apply`, `objectives.py:374-379`. -/
noncomputable def rastrigin {d : ℕ} (b c A : ℝ) (x : Fin d → ℝ) : ℝ :=
  A * d + ∑ i, ((x i - b) ^ 2 - A * cos (2 * π * (x i - b))) + c

/-- `Ackley.apply`, `objectives.py:504-511`; `m` is `self.minima` broadcast to a vector. -/
noncomputable def ackley {d : ℕ} (A b c : ℝ) (m : Fin d → ℝ) (x : Fin d → ℝ) : ℝ :=
  let y := fun i => x i - m i
  let arg1 := -b * √(1 / d) * norm2 y
  let arg2 := (1 / d) * ∑ i, cos (c * y i)
  (-A) * exp arg1 - exp arg2 + A + exp 1

/-- `__init__` of the multimodal objectives, `objectives.py:416-423,548-554`: `alpha if alpha else [1.]`,
`z if z else zeros((len(alpha), 1))`. `z` is an optional array given by its rows; the truth value of an array with more than one
element raises `ValueError`, that of an array with one element is whether it is non-zero, of an empty array `False`.
A plain nested list for `z` fails later at `self.z[i,:]` and is not modelled. -/
noncomputable def multiInit (alpha : Option (List ℝ)) (z : Option (List (List ℝ))) :
    Except Err (List ℝ × List (List ℝ)) :=
  open Classical in
  let a := match alpha with
    | some (a :: l) => a :: l
    | _ => [1]
  match z with
  | none => .ok (a, a.map fun _ => [0])
  | some [[v]] => .ok (a, if v = 0 then a.map fun _ => [0] else [[v]])
  | some z => if z.flatten = [] then .ok (a, a.map fun _ => [0]) else .error .value

/-- `apply` of `Rastrigin_multimodal` and `Ackley_multimodal`, `objectives.py:425-429,556-560`:
`y *= V(alpha[i] * (x - z[i,:]))`, given the pairs `(alpha[i], z[i,:])` with `z[i,:]` broadcast to a vector. -/
noncomputable def multimodal {d : ℕ} (V : (Fin d → ℝ) → ℝ) (l : List (ℝ × (Fin d → ℝ))) (x : Fin d → ℝ) : ℝ :=
  l.foldl (fun y p => y * V fun i => p.1 * (x i - p.2 i)) 1

/-- `Quadratic.apply`, `objectives.py:608-609`. -/
noncomputable def quadratic {d : ℕ} (alpha : ℝ) (x : Fin d → ℝ) : ℝ := norm2 (fun i => alpha * x i) ^ 2

/-- `accelerated_sinus.apply`, `objectives.py:572-574`. -/
noncomputable def accSinus {d : ℕ} (a : ℝ) (x : Fin d → ℝ) : ℝ :=
  sin (a * norm2 x / (1 + norm2 x * norm2 x)) + 1

/-- `p_4th_order.apply`, `objectives.py:596-600`. -/
noncomputable def p4 {d : ℕ} (x : Fin d → ℝ) : ℝ := ∑ i, x i ^ 4 - ∑ i, x i ^ 2 + 1

/-- `Unimodal.apply`, `objectives.py:644-648`. -/
noncomputable def unimodal (a : Fin 2 → ℝ) (x : Fin 2 → ℝ) : ℝ :=
  -log (0.5 * exp (-(x 0 - a 0) ^ 2 / 8 - (x 1 - a 1) ^ 2 / 0.5))

/-- `Bukin6.apply`, `objectives.py:737-738`. -/
noncomputable def bukin6 (x : Fin 2 → ℝ) : ℝ := 100 * √(abs (x 1 - 0.01 * x 0 ^ 2)) + 0.01 * abs (x 0 + 10)

/-- `cross_in_tray.apply`, `objectives.py:817-818`. -/
noncomputable def crossInTray (x : Fin 2 → ℝ) : ℝ :=
  -0.0001 * (abs (sin (x 0) * sin (x 1) * exp (abs (100 - √(x 0 ^ 2 + x 1 ^ 2) / π))) + 1) ^ (0.1 : ℝ)

/-- `cross_in_tray.minima`, `objectives.py:815`. -/
noncomputable def crossInTrayMinima : List (Fin 2 → ℝ) :=
  [![1.34941, 1.34941], ![-1.34941, 1.34941], ![1.34941, -1.34941], ![-1.34941, -1.34941]]

/-- `Easom.apply`, `objectives.py:893-894`. -/
noncomputable def easom (x : Fin 2 → ℝ) : ℝ :=
  -cos (x 0) * cos (x 1) * exp (-((x 0 - π) ^ 2 + (x 1 - π) ^ 2))

/-- `drop_wave.apply`, `objectives.py:970-971`. -/
noncomputable def dropWave (x : Fin 2 → ℝ) : ℝ :=
  -(1 + cos (12 * √(x 0 ^ 2 + x 1 ^ 2))) *
    exp (-0.5 * (x 0 ^ 2 + x 1 ^ 2) / (1 + 0.001 * (x 0 ^ 2 + x 1 ^ 2)))

/-- `Holder_table.apply`, `objectives.py:1053-1055`. -/
noncomputable def holderTable (factor shift : ℝ) (x : Fin 2 → ℝ) : ℝ :=
  let u := (x 0 - shift) * factor
  let v := (x 1 - shift) * factor
  (-abs (sin u * cos v * exp (abs (1 - √(u ^ 2 + v ^ 2) / π))))

/-- `Holder_table.minima`, `objectives.py:1051`. -/
noncomputable def holderMinima : List (Fin 2 → ℝ) :=
  [![8.05502, 9.66459], ![-8.05502, 9.66459], ![8.05502, -9.66459], ![-8.05502, -9.66459]]

/-- One of the three functions combined in `snowflake.apply`, `objectives.py:1149`, in polar coordinates. -/
noncomputable def flake (psi r phi : ℝ) : ℝ := r ^ 8 - r ^ 4 + |cos (phi + psi)| ^ (0.5 : ℝ) * r ^ (0.3 : ℝ)

/-- `snowflake.apply`, `objectives.py:1142-1153`. -/
noncomputable def snowflake (alpha : ℝ) (x : Fin 2 → ℝ) : ℝ :=
  let r := norm2 fun i => alpha * x i
  let phi := Complex.arg ⟨alpha * x 0, alpha * x 1⟩
  let res := [0, π / 3, π * 2 / 3].foldl (fun res psi => min res (flake psi r phi)) 1
  min res 0.8

/-- `snowflake.minima`, `objectives.py:1131-1140`. -/
noncomputable def snowflakeMinima (alpha : ℝ) : List (Fin 2 → ℝ) :=
  [(1 / alpha * (0.5 : ℝ) ^ (1 / 4 : ℝ), π / 2), (-1 / alpha * (0.5 : ℝ) ^ (1 / 4 : ℝ), π / 2),
   (1 / alpha * (0.5 : ℝ) ^ (1 / 4 : ℝ), π / 2 - π / 3), (-1 / alpha * (0.5 : ℝ) ^ (1 / 4 : ℝ), π / 2 - π / 3),
   (1 / alpha * (0.5 : ℝ) ^ (1 / 4 : ℝ), π / 2 - 2 * π / 3), (-1 / alpha * (0.5 : ℝ) ^ (1 / 4 : ℝ), π / 2 - 2 * π / 3)].map
    fun p => ![p.1 * cos p.2, p.1 * sin p.2]

/-- `eggholder.apply`, `objectives.py:1218-1219`. -/
noncomputable def eggholder (x : Fin 2 → ℝ) : ℝ :=
  -(x 1 + 47) * sin (√(abs (x 1 + x 0 / 2 + 47))) - x 0 * sin (√(abs (x 0 - (x 1 + 47))))

/-- `Michalewicz.apply`, `objectives.py:1292-1296`. -/
noncomputable def michalewicz {d : ℕ} (m : ℕ) (x : Fin d → ℝ) : ℝ :=
  -∑ i : Fin d, sin (x i) * sin (((i.1 : ℝ) + 1) * x i ^ 2 / π) ^ (2 * m)

end Verif.Obj
