import Verif.Spec.Retime
import Verif.Proofs.Step

/-! Lemmas for C124. -/

set_option linter.unusedSectionVars false

namespace Verif

variable {V : Type} [AddCommGroup V] [Module ℝ V] {env : Env ℝ V} {c : ℝ}

theorem cboUpdate_retime (hc : 0 < c) (lamda dt sigma : ℝ) (d n : V) : cboUpdate (lamda / c) (c * dt) (sigma / √c) d (√c • n) = cboUpdate lamda dt sigma d n := by
  have h : √c ≠ 0 := (Real.sqrt_pos.2 hc).ne'
  unfold cboUpdate
  rw [smul_smul]
  congr 2 <;> field_simp

theorem bin_map_right {α β γ β' : Type} (f : α → β' → γ) (g : β → β') (a : Mat α) (b : Mat β) : Mat.bin f a (b.map g) = Mat.bin (fun x y => f x (g y)) a b := by
  unfold Mat.bin
  rfl

theorem preStep_retime (s : St ℝ V) : preStep env (s.retime c) = (preStep env s).retime c := by
  unfold preStep setBatch
  show (if s.batched = true then _ else _) = St.retime c (if s.batched = true then _ else _)
  by_cases h : s.batched = true
  · rw [if_pos h, if_pos h]
    have hr : ∀ q : St ℝ V, refill env (q.retime c) = (refill env q).retime c := by
      intro q
      unfold refill
      show (if q.indices.cols < q.batchSize then _ else _) = St.retime c (if q.indices.cols < q.batchSize then _ else _)
      by_cases h2 : q.indices.cols < q.batchSize
      · rw [if_pos h2, if_pos h2]; rfl
      · rw [if_neg h2, if_neg h2]
    unfold setBatchBatched
    rw [show ({ s.retime c with xOld := some (s.retime c).x } : St ℝ V) = St.retime c { s with xOld := some s.x } from rfl, hr]
    rfl
  · rw [if_neg h, if_neg h]
    rfl

theorem cons_retime (s : St ℝ V) : computeConsensus env (s.retime c) = (computeConsensus env s).map (St.retime c) := by
  unfold computeConsensus
  simp only [evalF, callF, alphaActive, St.retime]
  cases s.x.gather s.cIdx with
  | error e => rfl
  | ok xb =>
    simp only [bind, Except.bind]
    cases emptyCheck env xb with
    | error e => rfl
    | ok u =>
      simp only
      cases Mat.bin (fun (a : ℝ) (e : Flt ℝ) => (a, e)) (⟨s.active.length, 1, fun i _ => s.alpha (s.active.getD i 0)⟩ : Mat ℝ) (xb.map env.f) with
      | error e => rfl
      | ok w =>
        simp only
        cases Mat.bin (fun (p : ℝ × Flt ℝ) (v : V) => (p.1, p.2, v)) w xb with
        | error e => rfl
        | ok wx =>
          simp only
          cases s.energy.scatter s.cIdx (xb.map env.f) with
          | error e => rfl
          | ok en => rfl

theorem corr_retime (hu : Unitless env c) (d : Mat V) (s : St ℝ V) : correction env d (s.retime c) = (correction env d s).map fun q => (q.1, q.2.retime c) := by
  unfold correction
  cases hco : env.corr with
  | none => rfl
  | custom g =>
    simp only [hu.corr g hco]
    cases g s d <;> rfl
  | heavi g =>
    cases hcs : s.cons with
    | none => simp only [show (s.retime c).cons = none from hcs]; rfl
    | some cc =>
      simp only [show (s.retime c).cons = some cc from hcs, callF]
      simp only [St.retime, bind, Except.bind]
      cases Mat.bin Flt.sub s.energy (cc.map env.f) with
      | error e => rfl
      | ok z =>
        simp only
        cases Mat.bin (fun v z => g z v) d z with
        | error e => rfl
        | ok d' => rfl

theorem move_retime (hc : 0 < c) (hu : Unitless env c) (s : St ℝ V) : cboMove env (s.retime c) = (cboMove env s).map (St.retime c) := by
  unfold cboMove
  cases hcs : s.cons with
  | none => simp only [show (s.retime c).cons = none from hcs]; rfl
  | some cc =>
    simp only [show (s.retime c).cons = some cc from hcs, show (s.retime c).x = s.x from rfl, show (s.retime c).pIdx = s.pIdx from rfl]
    simp only [bind, Except.bind]
    cases s.x.gather s.pIdx with
    | error e => rfl
    | ok xp =>
      simp only
      cases Mat.bin (fun a b => a - b) xp cc with
      | error e => rfl
      | ok d =>
        simp only [corr_retime hu]
        cases correction env d s with
        | error e => rfl
        | ok q =>
          obtain ⟨d', q⟩ := q
          simp only [Except.map]
          have hn := hu.noise { q with drift := some d' }
          have e : ({ q.retime c with drift := some d' } : St ℝ V) = St.retime c { q with drift := some d' } := rfl
          rw [e, hn]
          cases env.noise { q with drift := some d' } with
          | error e => rfl
          | ok n =>
            simp only [Except.map, bin_map_right]
            have e2 : (fun (x y : V) => cboUpdate (q.retime c).lamda (q.retime c).dt (q.retime c).sigma x (√c • y)) = cboUpdate q.lamda q.dt q.sigma := by
              funext x y
              exact cboUpdate_retime hc _ _ _ _ _
            rw [e2]
            cases Mat.bin (cboUpdate q.lamda q.dt q.sigma) d' n with
            | error e => rfl
            | ok u =>
              simp only [show (q.retime c).x = q.x from rfl, show (q.retime c).pIdx = q.pIdx from rfl]
              cases q.x.scatterAdd q.pIdx u with
              | error e => rfl
              | ok x => rfl

theorem track_retime (s : St ℝ V) : track (s.retime c) = (track s).map (St.retime c) := by
  unfold track
  show (if s.saveInt = 0 then _ else if s.it % s.saveInt = 0 then _ else _) = _
  by_cases h1 : s.saveInt = 0
  · rw [if_pos h1, if_pos h1]; rfl
  · rw [if_neg h1, if_neg h1]
    by_cases h2 : s.it % s.saveInt = 0
    · rw [if_pos h2, if_pos h2]
      have : ∀ (l : List Track) (h : Track → List (Entry ℝ V)), applyTracks (s.retime c) l h = applyTracks s l h := by
        intro l h
        unfold applyTracks
        congr 1
      rw [this]
      rfl
    · rw [if_neg h2, if_neg h2]; rfl

theorem post_retime (hu : Unitless env c) (s : St ℝ V) : postStep env (s.retime c) = (postStep env s).map (St.retime c) := by
  unfold postStep
  rw [hu.post]
  simp only [bind, Except.bind]
  cases env.post s with
  | error e => rfl
  | ok x =>
    simp only
    rw [show ({ s.retime c with x := x } : St ℝ V) = St.retime c { s with x := x } from rfl]
    generalize ({ s with x := x } : St ℝ V) = q
    have h1 : updateDiff env (q.retime c) = (updateDiff env q).map (St.retime c) := by
      unfold updateDiff
      cases hxo : q.xOld with
      | none => simp only [show (q.retime c).xOld = none from hxo]; rfl
      | some o =>
        simp only [show (q.retime c).xOld = some o from hxo, show (q.retime c).x = q.x from rfl, bind, Except.bind]
        cases Mat.bin (fun a b => (a, b)) q.x o <;> rfl
    rw [h1]
    cases updateDiff env q with
    | error e => rfl
    | ok q =>
      simp only [Except.map]
      have h2 : updateBestCur (q.retime c) = (updateBestCur q).map (St.retime c) := by
        unfold updateBestCur
        show (if q.energy.cols = 0 then _ else _) = _
        by_cases h : q.energy.cols = 0
        · rw [if_pos h, if_pos h]; rfl
        · rw [if_neg h, if_neg h]; rfl
      rw [h2]
      cases updateBestCur q with
      | error e => rfl
      | ok q =>
        simp only [Except.map]
        rw [show updateBest (q.retime c) = St.retime c (updateBest q) from rfl, track_retime]
        cases track (updateBest q) with
        | error e => rfl
        | ok q =>
          simp only [Except.map]
          show Except.ok _ = Except.ok _
          congr 1
          unfold St.retime
          congr 1
          show c * q.t + c * q.dt = c * (q.t + q.dt)
          ring

theorem step_retime (hc : 0 < c) (hu : Unitless env c) (s : St ℝ V) : step env (cboInner env) (s.retime c) = (step env (cboInner env) s).map (St.retime c) := by
  unfold step cboInner
  rw [preStep_retime, cons_retime]
  simp only [bind, Except.bind]
  cases computeConsensus env (preStep env s) with
  | error e => rfl
  | ok q =>
    simp only [Except.map]
    rw [move_retime hc hu]
    cases cboMove env q with
    | error e => rfl
    | ok q =>
      simp only [Except.map]
      rw [post_retime hu]
      rfl

theorem sched_retime (hu : Unitless env c) (s : St ℝ V) : schedUpdate env (s.retime c) = (schedUpdate env s).map (St.retime c) := by
  unfold schedUpdate
  rw [hu.sched]
  cases env.sched s <;> rfl

theorem evalTerm_retime (hc : 0 < c) (hu : Unitless env c) (tm : Term ℝ) (s : St ℝ V) :
    evalTerm env (tm.retime c) (s.retime c) = (evalTerm env tm s).map fun q => (q.1, q.2.1.retime c, q.2.2.retime c) := by
  cases tm with
  | energyTol tol => rfl
  | diffTol tol => rfl
  | maxEval n => rfl
  | maxIt n => cases n <;> rfl
  | maxTime T =>
    show Except.ok _ = Except.ok _
    congr 2
    funext m
    show decide (c * T ≤ c * s.t) = decide (T ≤ s.t)
    exact decide_eq_decide.2 (mul_le_mul_iff_right₀ hc)
  | custom i =>
    show Except.ok _ = Except.ok _
    rw [hu.custom]
  | energyStag p th l =>
    show evalStag env p th l (s.retime c) = (evalStag env p th l s).map _
    unfold evalStag
    cases hcs : s.cons with
    | none => simp only [show (s.retime c).cons = none from hcs]; rfl
    | some cc =>
      simp only [show (s.retime c).cons = some cc from hcs, show (s.retime c).active = s.active from rfl, show (s.retime c).it = s.it from rfl, callF]
      by_cases h0 : ∀ m ∈ s.active, m < cc.rows
      · rw [if_pos h0, if_pos h0]
        by_cases h1 : p = 0
        · rw [if_pos h1, if_pos h1]; rfl
        · rw [if_neg h1, if_neg h1]
          by_cases h2 : s.active.length = 1 ∧ cc.cols = 1
          · rw [if_pos h2, if_pos h2]; simp only [Except.map, pure, Except.pure, St.retime, Term.retime, hcs]
          · rw [if_neg h2, if_neg h2]; rfl
      · rw [if_neg h0, if_neg h0]; rfl

theorem evalTerms_retime (hc : 0 < c) (hu : Unitless env c) (l : List (Term ℝ)) (s : St ℝ V) :
    evalTerms env (l.map (Term.retime c)) (s.retime c) = (evalTerms env l s).map fun q => (q.1, q.2.1.map (Term.retime c), q.2.2.retime c) := by
  induction l generalizing s with
  | nil => rfl
  | cons tm l ih =>
    simp only [List.map_cons, evalTerms, evalTerm_retime hc hu, bind, Except.bind]
    cases evalTerm env tm s with
    | error e => rfl
    | ok q =>
      obtain ⟨b, tm', q⟩ := q
      simp only [Except.map, ih]
      cases evalTerms env l q with
      | error e => rfl
      | ok r => rfl

theorem select_retime (hc : 0 < c) (hu : Unitless env c) (s : St ℝ V) : selectActive env (s.retime c) = (selectActive env s).map (St.retime c) := by
  unfold selectActive
  rw [show (s.retime c).terms = s.terms.map (Term.retime c) from rfl, evalTerms_retime hc hu]
  simp only [bind, Except.bind]
  cases evalTerms env s.terms s with
  | error e => rfl
  | ok q => rfl

theorem exec_retime (hc : 0 < c) (hu : Unitless env c) (o : Op) (s : St ℝ V) : exec env (cboInner env) o (s.retime c) = (exec env (cboInner env) o s).map (St.retime c) := by
  cases o with
  | step => exact step_retime hc hu s
  | select => exact select_retime hc hu s
  | sched => exact sched_retime hu s
  | reset =>
    show Except.ok _ = Except.ok _
    congr 1
    unfold reset initHistory St.retime
    simp only [mul_zero]
    congr 1

end Verif
