import Verif.Proofs.Memory
import Verif.Proofs.FlExample
import Verif.Proofs.MemRun
import Verif.Proofs.MemCount
import Verif.Proofs.PsoDiverge

/-! Historical best positions when `y + 1*(x - y)` is only close to `x`. -/

set_option linter.unusedSectionVars false

namespace Verif

section
variable {K V : Type} [Zero K] [One K] [Neg K] [Add K] [Sub K] [Mul K] [Inv K] [Div K] [NatCast K] [Pow K ℕ] [LinearOrder K] [Add V] [Sub V] [SMul K V]

/-- Replacing is exact up to the relation `R`, on positions with the property `P`. -/
structure MaskNear (K : Type) {V : Type} [Zero K] [One K] [Add V] [Sub V] [SMul K V] (P : V → Prop) (R : V → V → Prop) : Prop where
  refl : ∀ x, R x x
  keep : ∀ x y z : V, R y z → R (y + (0 : K) • (x - y)) z
  take : ∀ x y z : V, P x → P z → R y z → R (y + (1 : K) • (x - y)) x

/-- The invariant: `y` is near positions `Y` that are the exact historical bests. -/
structure MemNear (env : Env K V) (P : V → Prop) (R : V → V → Prop) (x0 : Mat V) (k : ℕ) (s : St K V) : Prop where
  shape : MemShape s
  hist : NoNaN env.f s → (∀ m v, Evaluated s m v → P v) →
    ∃ traj Y, HistBest env.f x0 k { s with aux1 := Y } traj ∧ BestNow k s ∧ ∀ m < s.M, ∀ n < s.N, R (s.aux1.get m n) (Y.get m n)

theorem evaluated_congr {s s' : St K V}
    (e5 : s'.log.filter (fun q => decide (q.1 = Site.energy)) = s.log.filter (fun q => decide (q.1 = Site.energy))) {m : ℕ} {v : V} (h : Evaluated s m v) :
    Evaluated s' m v := by
  have : (Site.energy, m, v) ∈ s'.log.filter (fun q => decide (q.1 = Site.energy)) := by
    rw [e5]; simpa [Evaluated] using h
  simpa [Evaluated] using this

theorem memNear_exec {env : Env K V} {P : V → Prop} {R : V → V → Prop} (hR : MaskNear K P R) {stp : St K V → Except Err (St K V)} (hr : Remembers env stp)
    {x0 : Mat V} {k : ℕ} {o : Op} {s s' : St K V} (hl : o = .step → s.active ≠ []) (hi : MemNear env P R x0 k s) (h : execBy env stp o s = .ok s') :
    MemNear env P R x0 (k + if o = .step then 1 else 0) s' := by
  cases o with
  | step =>
    obtain ⟨X, q⟩ := hr _ _ hi.shape (hl rfl) h
    refine ⟨q.shape, fun hn hP => ?_⟩
    have hc := q.core
    obtain ⟨traj, Y, h1, h2, h3⟩ := hi.hist (noNaN_back q hn) (fun m v hv => hP m v (evaluated_back hc hv))
    let Y' : Mat V := ⟨s.M, s.N, fun m n => if Flt.gt (s.energy.get m n) (env.f (X.get m n)) then X.get m n else Y.get m n⟩
    have hc' : HistCore env { s with aux1 := Y } { s' with aux1 := Y' } X := ⟨hc.M, hc.N, hc.Xr, hc.Xc, hc.ec, hc.e, hc.log, hc.fMinIdx, hc.bestE⟩
    obtain ⟨h4, h5⟩ := histBest_step (s := { s with aux1 := Y }) (s' := { s' with aux1 := Y' }) hi.shape.ec hi.shape.pos hc' (fun m _ n _ => rfl) hn h1 ⟨h2.zero, h2.pos⟩
    refine ⟨_, Y', h4, ⟨h5.zero, h5.pos⟩, ?_⟩
    rw [hc.M, hc.N]
    intro m hm n hn'
    rw [q.y m hm n hn']
    show R _ (if Flt.gt (s.energy.get m n) (env.f (X.get m n)) then X.get m n else Y.get m n)
    unfold maskMul
    split_ifs with hg
    · refine hR.take _ _ _ (hP m _ (evaluated_new hc hm hn')) ?_ (h3 m hm n hn')
      obtain ⟨Z, hZ, e⟩ := h1.visited m hm n hn'
      have e : Y.get m n = Z.get m n := e
      refine hP m _ (evaluated_back hc ?_)
      exact (evaluated_iff h1 m _).2 ⟨Z, hZ, hm, n, hn', e⟩
    · exact hR.keep _ _ _ (h3 m hm n hn')
  | select =>
    have h' : selectActive env s = .ok s' := h
    have f := select_frame h'
    have e := select_energyLog h'
    obtain ⟨bs, l, q, _, _, ha, _⟩ := select_active h'
    have hs : s'.active.Sublist (List.range s.M) := by rw [ha]; exact List.filter_sublist
    have w := hi.shape
    refine ⟨?_, fun hn hP => ?_⟩
    · rw [f]
      exact ⟨w.xr, w.xc, w.er, w.ec, w.yr, w.yc, hs, w.pool, w.pos⟩
    · obtain ⟨traj, Y, h1, h2, h3⟩ := hi.hist (noNaN_congr e hn) (fun m v hv => hP m v (evaluated_congr e hv))
      refine ⟨traj, Y, histBest_congr h1 (by simp only; rw [f]) (by simp only; rw [f]) (by simp only; rw [f]) rfl e, ?_, ?_⟩
      · rw [f]; exact ⟨h2.zero, h2.pos⟩
      · rw [f]; exact h3
  | sched =>
    have f := sched_frame (show schedUpdate env s = .ok s' from h)
    have w := hi.shape
    rw [f]
    refine ⟨⟨w.xr, w.xc, w.er, w.ec, w.yr, w.yc, w.act, w.pool, w.pos⟩, fun hn hP => ?_⟩
    obtain ⟨traj, Y, h1, h2, h3⟩ := hi.hist hn hP
    exact ⟨traj, Y, histBest_congr h1 rfl rfl rfl rfl rfl, ⟨h2.zero, h2.pos⟩, h3⟩
  | reset =>
    simp only [execBy] at h
    injection h with h
    subst h
    have w := hi.shape
    refine ⟨⟨w.xr, w.xc, w.er, w.ec, w.yr, w.yc, w.act, w.pool, w.pos⟩, fun hn hP => ?_⟩
    obtain ⟨traj, Y, h1, h2, h3⟩ := hi.hist hn hP
    exact ⟨traj, Y, histBest_congr h1 rfl rfl rfl rfl rfl, ⟨h2.zero, h2.pos⟩, h3⟩

theorem memNear_execAll {env : Env K V} {P : V → Prop} {R : V → V → Prop} (hR : MaskNear K P R) {stp : St K V → Except Err (St K V)} (hr : Remembers env stp) {x0 : Mat V} :
    ∀ {l : List Op} {k : ℕ} {s s' : St K V}, Live env stp l s → MemNear env P R x0 k s → execAllBy env stp l s = .ok s' →
      MemNear env P R x0 (k + l.count .step) s'
  | [], k, s, s', _, hi, h => by
    simp only [execAllBy] at h
    injection h with h
    subst h
    simpa using hi
  | o :: l, k, s, s', hl, hi, h => by
    simp only [execAllBy, bind_ok] at h
    obtain ⟨q, hq, h⟩ := h
    obtain ⟨l1, l2⟩ := hl
    have := memNear_execAll hR hr (l2 q hq) (memNear_exec hR hr l1 hi hq) h
    rw [List.count_cons]
    convert this using 1
    by_cases ho : o = .step
    · simp [ho]; omega
    · simp [ho]

theorem memNear_init {env : Env K V} {P : V → Prop} {R : V → V → Prop} (hR : MaskNear K P R) (hperm : PermOK env) {a : Args K V} (ha : a.aux1 = id)
    (hb : a.batchSize ≠ some 0) {s : St K V} (h : memInit env a = .ok s) : MemNear env P R a.x0 0 s := by
  obtain ⟨h1, h2⟩ := memInv_init hperm ha hb h
  refine ⟨h1, fun hn _ => ?_⟩
  obtain ⟨traj, h3, h4⟩ := h2 hn
  exact ⟨traj, s.aux1, h3, h4, fun m _ n _ => hR.refl _⟩

end

namespace Fl
variable {φ : FloatFmt} {ι : Type}

/-- Replacing in floating point arithmetic: the error is a few units in the last place of the largest coordinate. -/
theorem maskNear (hp : 3 ≤ φ.p) (B : ℝ) :
    MaskNear (Fl φ) (fun v : ι → Fl φ => ∀ i, |(v i).val| ≤ B) (fun y x => (∀ i, |(x i).val| ≤ B) → ∀ i, |(y i).val - (x i).val| ≤ 4 * unit φ * B) where
  refl x hx i := by
    rw [sub_self, abs_zero]
    have := (abs_nonneg _).trans (hx i)
    have := unit_pos (φ := φ)
    positivity
  keep x y z hy := by
    have e : y + (0 : Fl φ) • (x - y) = y := by
      funext i
      refine ext ?_
      show ((y i) + (0 : Fl φ) * (x i - y i)).val = (y i).val
      rw [val_add, val_mul, val_zero, zero_mul, φ.near.zero, add_zero, rd_val]
    rw [e]
    exact hy
  take x y z hx hz hy hx' i := by
    have hy := hy hz i
    have hB := (abs_nonneg _).trans (hx i)
    have u0 := unit_pos (φ := φ)
    have u8 : unit φ ≤ 1 / 8 := by
      have : (2 : ℝ) ^ (-(φ.p : ℤ)) ≤ 2 ^ (-3 : ℤ) := zpow_le_zpow_right₀ (by norm_num) (by omega)
      calc unit φ ≤ _ := this
        _ = 1 / 8 := by norm_num
    show |((y i) + (1 : Fl φ) * (x i - y i)).val - (x i).val| ≤ _
    rw [val_add, val_mul, val_one, one_mul, rd_val, val_sub]
    have e1 := φ.near.err φ.pos ((x i).val - (y i).val)
    set d := φ.rd ((x i).val - (y i).val)
    have e2 := φ.near.err φ.pos ((y i).val + d)
    change _ ≤ unit φ * _ at e1 e2
    have hxy : |(x i).val - (y i).val| ≤ 2 * B + 4 * unit φ * B := by
      have h1 := abs_sub_le (x i).val (z i).val (y i).val
      rw [abs_sub_comm (z i).val] at h1
      have h2 := abs_sub (x i).val (z i).val
      linarith [hx i, hz i]
    have h3 : |(y i).val + d - (x i).val| ≤ unit φ * (2 * B + 4 * unit φ * B) := by
      have : (y i).val + d - (x i).val = d - ((x i).val - (y i).val) := by ring
      rw [this]
      exact e1.trans (mul_le_mul_of_nonneg_left hxy u0.le)
    have h4 : |(y i).val + d| ≤ B + unit φ * (2 * B + 4 * unit φ * B) := by
      have := abs_add_le ((y i).val + d - (x i).val) (x i).val
      rw [sub_add_cancel] at this
      linarith [hx i]
    have h5 := abs_sub_le (φ.rd ((y i).val + d)) ((y i).val + d) (x i).val
    have h6 := mul_le_mul_of_nonneg_left h4 u0.le
    have h7 : unit φ * unit φ ≤ unit φ * (1 / 8) := mul_le_mul_of_nonneg_left u8 u0.le
    have h8 : unit φ * unit φ * B ≤ unit φ * (1 / 8) * B := mul_le_mul_of_nonneg_right h7 hB
    have h9 : unit φ * (unit φ * unit φ * B) ≤ (1 / 8) * (unit φ * (1 / 8) * B) :=
      mul_le_mul u8 h8 (by positivity) (by norm_num)
    nlinarith

end Fl

namespace Example

/-- Dimension one; objective `v ↦ v` for positive `v` and `+inf` otherwise, consensus = first particle, noise = drift, no post processing. -/
noncomputable def flMemEnv (φ : FloatFmt) : Env (Fl φ) (Unit → Fl φ) where
  f v := if 0 < v () then .fin (v ()) else .pinf
  cons := .mean fun l => (l.map fun q => q.2.2).headD 0
  noise s := match s.drift with
    | some d => .ok d
    | none => .error .attribute
  corr := .none
  post s := .ok s.x
  normDiff _ := .fin 0
  sqrtK := id
  perm _ _ _ j := j
  sampler _ _ _ := 0
  custom _ _ _ := false
  sched s := .ok ⟨s.alpha, s.lamda, s.sigma, s.dt⟩

/-- A number that is lost when added to one. -/
noncomputable def flTiny (φ : FloatFmt) : Fl φ := ⟨((1 : ℤ) : ℝ) * 2 ^ (-(φ.p : ℤ) - 2), IsFloat.le φ.pos (by rw [abs_one]; exact_mod_cast Nat.one_le_two_pow)⟩

/-- One run of two particles, at the tiny number and at one; `lamda = dt = 1`, no noise. -/
noncomputable def flMemArgs (φ : FloatFmt) : Args (Fl φ) (Unit → Fl φ) where
  x0 := ⟨1, 2, fun _ j _ => if j = 0 then flTiny φ else 1⟩
  alpha := 1
  lamda := 1
  sigma := 0
  dt := 1
  terms := []
  tracks := []
  saveInt := 1
  batchSize := none
  batchPartial := true
  batchConcat := false
  checkF := false
  aux1 := id
  aux2 := fun _ => 0

end Example

section
variable {φ : FloatFmt}

theorem flTiny_sub : φ.rd (1 - (Example.flTiny φ).val) = 1 ∧ φ.rd ((Example.flTiny φ).val - 1) = -1 := by
  have ht : (Example.flTiny φ).val = 2 ^ (-(φ.p : ℤ)) / 4 := by
    show ((1 : ℤ) : ℝ) * 2 ^ (-(φ.p : ℤ) - 2) = _
    rw [zpow_sub₀ (by norm_num)]; norm_num
  have hpp := two_zpow_pos (-(φ.p : ℤ))
  have one : (((2 : ℤ) ^ φ.p : ℤ) : ℝ) * 2 ^ (-(φ.p : ℤ)) = 1 := by
    push_cast
    rw [zpow_neg, zpow_natCast, mul_inv_cancel₀ (by positivity)]
  have hlo : (2 : ℤ) ^ φ.p < 2 * 2 ^ φ.p := by
    have : (0 : ℤ) < 2 ^ φ.p := by positivity
    omega
  have key : ∀ rd, RoundNearest φ.p rd → rd (1 - (Example.flTiny φ).val) = 1 := by
    intro rd h
    have := h.eq_of φ.pos (m := 2 ^ φ.p) (e := -(φ.p : ℤ)) (x := 1 - (Example.flTiny φ).val) hlo le_rfl
      (by rw [one, ht, sub_sub_cancel_left, abs_neg, abs_of_pos (by positivity)]; linarith)
    rw [this, one]
  refine ⟨key _ φ.near, ?_⟩
  have h' : RoundNearest φ.p fun x => -φ.rd (-x) := by
    intro x
    refine ⟨(φ.near (-x)).1.neg, fun y hy => ?_⟩
    have := (φ.near (-x)).2 (-y) hy.neg
    have e1 : -φ.rd (-x) - x = -(φ.rd (-x) - -x) := by ring
    have e2 : y - x = -(-y - -x) := by ring
    rw [e1, e2, abs_neg, abs_neg]
    exact this
  have := key _ h'
  simp only [neg_sub] at this
  linarith

/-- Where a particle at `x` goes, with the consensus point at `c`. -/
noncomputable def flGoes (x c : Fl φ) : Fl φ := Fl.round φ (x.val - φ.rd (x.val - c.val))

theorem Fl.zero_mul' (a : Fl φ) : (0 : Fl φ) * a = 0 := Fl.ext (by rw [Fl.val_mul, Fl.val_zero, zero_mul, φ.near.zero])

theorem Fl.neg_zero' : -(0 : Fl φ) = 0 := Fl.ext (by rw [Fl.val_neg, Fl.val_zero, neg_zero])

theorem Fl.one_mul' (a : Fl φ) : (1 : Fl φ) * a = a := Fl.ext (by rw [Fl.val_mul, Fl.val_one, one_mul, Fl.rd_val])

theorem Fl.neg_one_mul' (a : Fl φ) : (-1 * 1 : Fl φ) * a = -a := Fl.ext (by
  rw [Fl.val_mul, Fl.val_mul, Fl.val_neg, Fl.val_one, mul_one, ← Fl.val_one (φ := φ), ← Fl.val_neg, Fl.rd_val, Fl.val_neg, Fl.val_one, neg_one_mul,
    ← Fl.val_neg, Fl.rd_val])

theorem flNoise (φ : FloatFmt) : NoiseRows (Example.flMemEnv φ) fun _ _ _ _ v => v := fun s d h => ⟨d, by simp [Example.flMemEnv, h], rfl, rfl, fun _ _ => rfl⟩

theorem flMemEnv_ok (φ : FloatFmt) : EnvOK (Example.flMemEnv φ) :=
  ⟨rfl, ⟨_, rfl⟩, fun s d h => ⟨d, by simp [Example.flMemEnv, h], rfl, rfl⟩, fun s => ⟨_, rfl, rfl, rfl⟩, fun s => ⟨_, rfl⟩⟩

theorem flPost (φ : FloatFmt) : PostMap (Example.flMemEnv φ) id := fun s => by simp [Example.flMemEnv, Mat.map]

/-- The states of the example. -/
structure FlMem (s : St (Fl φ) (Unit → Fl φ)) : Prop where
  plain : MemPlain s
  M : s.M = 1
  N : s.N = 2
  full : s.active.length = s.M
  lamda : s.lamda = 1
  sigma : s.sigma = 0
  dt : s.dt = 1
  saveInt : s.saveInt ≠ 0

theorem flMem_init (φ : FloatFmt) : ∃ s, memInit (Example.flMemEnv φ) (Example.flMemArgs φ) = .ok s ∧ FlMem s ∧
    (∀ j, s.x.get 0 j = fun _ => if j = 0 then Example.flTiny φ else 1) ∧ (∀ j, s.aux1.get 0 j = s.x.get 0 j) ∧ ∀ j, s.energy.get 0 j = (Example.flMemEnv φ).f (s.x.get 0 j) := by
  obtain ⟨s, h0, -⟩ := init_total (Example.flMemEnv φ) (a := Example.flMemArgs φ) (by simp [Example.flMemArgs])
  have h : ∃ s', memInit (Example.flMemEnv φ) (Example.flMemArgs φ) = .ok s' := by
    unfold memInit
    rw [h0]
    exact ⟨_, rfl⟩
  obtain ⟨s', h⟩ := h
  have w := memInit_plain (by rfl) h
  refine ⟨s', h, ?_⟩
  simp only [memInit, bind_ok, pure_ok] at h
  obtain ⟨s₀, h0, rfl⟩ := h
  unfold init at h0
  split_ifs at h0 with hz hc
  · cases hc
  · injection h0 with h0
    subst h0
    exact ⟨⟨w, rfl, rfl, rfl, rfl, rfl, rfl, show (1 : ℕ) ≠ 0 from one_ne_zero⟩, fun _ => rfl, fun _ => rfl, fun _ => rfl⟩

theorem flMem_step {s : St (Fl φ) (Unit → Fl φ)} (w : FlMem s) : ∃ s', memStep (Example.flMemEnv φ) 0 0 s = .ok s' ∧ FlMem s' ∧
    (∀ j < 2, s'.x.get 0 j = fun _ => flGoes (s.x.get 0 j ()) (s.aux1.get 0 0 ())) ∧
    (∀ j < 2, s'.aux1.get 0 j = fun _ => if Flt.gt (s.energy.get 0 j) ((Example.flMemEnv φ).f (s'.x.get 0 j)) then
      s.aux1.get 0 j () + (s'.x.get 0 j () - s.aux1.get 0 j ()) else s.aux1.get 0 j ()) ∧
    ∀ j < 2, s'.energy.get 0 j = Flt.minimum (s.energy.get 0 j) ((Example.flMemEnv φ).f (s'.x.get 0 j)) := by
  obtain ⟨s', h⟩ := memStep_total (flMemEnv_ok φ) 0 0 w.plain w.full w.saveInt
  have ha : s.active ≠ [] := by
    intro h0
    have := w.full
    rw [h0, w.M] at this
    simp at this
  have q := memStep_runs rfl (g := fun l => (l.map fun q => q.2.2).headD 0) rfl (flNoise φ) (flPost φ) w.plain ha h
  have f := q.frame
  have hN : s'.N = 2 := by rw [f.N, w.N]
  have r := q.runs 0 (by rw [w.M]; norm_num)
  have hpt : ∀ (e : ℕ → Flt (Fl φ)) (y : ℕ → Unit → Fl φ) (al : Fl φ), ((((List.range 2).map fun j => (al, e j, y j)).map fun q => q.2.2).headD 0) = y 0 := fun _ _ _ => rfl
  have hx : ∀ j < 2, s'.x.get 0 j = fun _ => flGoes (s.x.get 0 j ()) (s.aux1.get 0 0 ()) := by
    intro j hj
    rw [r.x j (by omega)]
    funext u
    simp only [id_eq, RunPar.memNext, RunPar.remember, RunPar.memMove, RunPar.point, St.runPar, St.memRun, w.lamda, w.sigma, w.dt, w.N, hpt, Pi.add_apply, Pi.smul_apply, Pi.sub_apply, smul_eq_mul,
      Fl.zero_mul', Fl.neg_zero', Fl.add_zero', Fl.neg_one_mul']
    exact Fl.ext (by rw [Fl.val_add, Fl.val_neg, Fl.val_sub, ← sub_eq_add_neg]; rfl)
  refine ⟨s', h, ⟨q.shape, by rw [f.M, w.M], hN, ?_, ?_, ?_, ?_, ?_⟩, hx, ?_, ?_⟩
  · rw [f.active, f.M]; exact w.full
  · rw [f.lamda, w.lamda]
  · rw [f.sigma, w.sigma]
  · rw [f.dt, w.dt]
  · rw [f.saveInt]; exact w.saveInt
  · intro j hj
    have e : (fun n => id (((s.runPar (Example.flMemEnv φ) (fun l => (l.map fun q => q.2.2).headD 0) (fun _ _ _ _ v => v) 0).memNext 0 0 (s.memRun 0)).x n)) j = s'.x.get 0 j := (r.x j (by omega)).symm
    rw [r.y j (by omega)]
    funext u
    simp only [id_eq, RunPar.memNext, RunPar.remember] at e
    simp only [RunPar.memNext, RunPar.remember]
    rw [e]
    show s.aux1.get 0 j u + (if Flt.gt (s.energy.get 0 j) ((Example.flMemEnv φ).f (s'.x.get 0 j)) then (1 : Fl φ) else 0) * (s'.x.get 0 j u - s.aux1.get 0 j u) = _
    split_ifs
    · rw [Fl.one_mul']
    · rw [Fl.zero_mul', Fl.add_zero']
  · intro j hj
    have e := (r.x j (by omega)).symm
    rw [r.e j (by omega)]
    simp only [id_eq, RunPar.memNext, RunPar.remember] at e
    simp only [RunPar.memNext, RunPar.remember]
    rw [e]
    rfl

/-- The finitely many evaluated positions are bounded. -/
theorem evaluated_bound (s : St (Fl φ) (Unit → Fl φ)) : ∃ B, ∀ m v, Evaluated s m v → ∀ i, |(v i).val| ≤ B := by
  unfold Evaluated
  induction s.log with
  | nil => exact ⟨0, fun m v h => absurd h (List.not_mem_nil)⟩
  | cons q l ih =>
    obtain ⟨B, hB⟩ := ih
    refine ⟨max |(q.2.2 ()).val| B, fun m v h i => ?_⟩
    rcases List.mem_cons.1 h with h | h
    · rw [← h]; exact le_max_left _ _
    · exact (hB m v h i).trans (le_max_right _ _)

theorem flTiny_val : (Example.flTiny φ).val = 2 ^ (-(φ.p : ℤ) - 2) := by
  show ((1 : ℤ) : ℝ) * 2 ^ (-(φ.p : ℤ) - 2) = _
  rw [Int.cast_one, one_mul]

/-- The example as a dynamics without memory. -/
theorem flCbo_init (env : Env (Fl φ) (Unit → Fl φ)) (hp : PermOK env) : ∃ s, init env (Example.flMemArgs φ) = .ok s ∧ WF s ∧ s.saveInt ≠ 0 ∧ s.M = 1 ∧ s.N = 2 ∧ s.batchSize = 2 ∧
    s.batched = false ∧ s.active = [0] ∧ s.sigma = 0 ∧ s.lamda = 1 ∧ s.dt = 1 ∧ s.x = (Example.flMemArgs φ).x0 := by
  obtain ⟨s, h0, -⟩ := init_total env (a := Example.flMemArgs φ) (by simp [Example.flMemArgs])
  have w := init_wf hp h0
  refine ⟨s, h0, w, ?_⟩
  unfold init at h0
  split_ifs at h0 with hz hc
  · cases hc
  · injection h0 with h0
    subst h0
    exact ⟨show (1 : ℕ) ≠ 0 from one_ne_zero, rfl, rfl, rfl, rfl, rfl, rfl, rfl, rfl, rfl⟩

end

end Verif
