import Verif.Proofs.Rounded
import Verif.Model.Dyn

/-! Floating point numbers as scalars of the state machine. -/

namespace Verif

/-- A floating point format: number of bits, and a rule for rounding to nearest. -/
structure FloatFmt where
  p : ℕ
  pos : 1 ≤ p
  rd : ℝ → ℝ
  near : RoundNearest p rd

/-- The floating point numbers of a format (with unbounded exponent). NaN and infinities are added by `Flt`. -/
def Fl (φ : FloatFmt) : Type := {x : ℝ // IsFloat φ.p x}

namespace Fl
variable {φ : FloatFmt}

/-- The value of a floating point number. -/
def val (a : Fl φ) : ℝ := a.1

/-- Rounding of a real number. -/
noncomputable def round (φ : FloatFmt) (x : ℝ) : Fl φ := ⟨φ.rd x, (φ.near x).1⟩

noncomputable instance : LinearOrder (Fl φ) := inferInstanceAs (LinearOrder {x : ℝ // IsFloat φ.p x})
noncomputable instance : Zero (Fl φ) := ⟨round φ 0⟩
noncomputable instance : One (Fl φ) := ⟨round φ 1⟩
instance : Neg (Fl φ) := ⟨fun a => ⟨-a.1, a.2.neg⟩⟩
noncomputable instance : Add (Fl φ) := ⟨fun a b => round φ (a.1 + b.1)⟩
noncomputable instance : Sub (Fl φ) := ⟨fun a b => round φ (a.1 - b.1)⟩
noncomputable instance : Mul (Fl φ) := ⟨fun a b => round φ (a.1 * b.1)⟩
noncomputable instance : Inv (Fl φ) := ⟨fun a => round φ a.1⁻¹⟩
noncomputable instance : Div (Fl φ) := ⟨fun a b => round φ (a.1 / b.1)⟩
noncomputable instance : NatCast (Fl φ) := ⟨fun n => round φ n⟩
noncomputable instance : Pow (Fl φ) ℕ := ⟨fun a n => round φ (a.1 ^ n)⟩

end Fl

namespace Example

/-- Double precision. -/
noncomputable def double : FloatFmt := ⟨53, by norm_num, roundTo 53, roundTo_nearest (by norm_num)⟩

/-- Objective `v ↦ v`, consensus = first particle, noise = drift, no post processing, constant parameters; in floating point arithmetic. -/
noncomputable def flEnv (φ : FloatFmt) : Env (Fl φ) (Fl φ) where
  f v := .fin v
  cons := .mean fun l => (l.map fun q => q.2.2).headD 0
  noise s := match s.drift with
    | some d => .ok d
    | none => .error .attribute
  corr := .none
  post s := .ok s.x
  normDiff _ := .fin 0
  sqrtK := id
  perm _ _ _ j := j
  sampler _ _ _ := 0
  custom _ _ _ := false
  sched s := .ok ⟨s.alpha, s.lamda, s.sigma, s.dt⟩

/-- Two runs of three particles. -/
noncomputable def flArgs (φ : FloatFmt) (dt : Fl φ) (terms : List (Term (Fl φ))) : Args (Fl φ) (Fl φ) where
  x0 := ⟨2, 3, fun i j => ((4 * i + j + 1 : ℕ) : Fl φ)⟩
  alpha := 1
  lamda := 1
  sigma := 0
  dt := dt
  terms := terms
  tracks := [.x, .energy]
  saveInt := 1
  batchSize := none
  batchPartial := true
  batchConcat := false
  checkF := true

end Example
end Verif
