import Verif.Proofs.Term
import Verif.Model.Moves
import Verif.Model.FullMoves
import Verif.Model.Memory
import Verif.Spec.Resume

/-! Helper lemmas: steps commute with changes of attributes they do not read. -/

set_option linter.unusedSectionVars false

namespace Verif

variable {K V : Type} [Zero K] [One K] [Neg K] [Add K] [Sub K] [Mul K] [Inv K] [Div K] [NatCast K] [Pow K ℕ] [LinearOrder K] [Add V] [Sub V] [SMul K V]

theorem map_bind_ex {α β γ : Type} (φ : β → γ) (x : Except Err α) (g : α → Except Err β) :
    Except.map φ (x >>= g) = x >>= fun a => Except.map φ (g a) := by cases x <;> rfl

theorem bind_map_congr {α β γ : Type} {φ : β → γ} {x : Except Err α} {F : α → Except Err γ} {G : α → Except Err β}
    (h : ∀ a, F a = (G a).map φ) : (x >>= F) = Except.map φ (x >>= G) := by
  cases x with
  | error e => rfl
  | ok a => exact h a

theorem bind_map_congr2 {α α' β γ : Type} {φ : β → γ} {ψ : α → α'} {x : Except Err α} {F : α' → Except Err γ} {G : α → Except Err β}
    (h : ∀ a, F (ψ a) = (G a).map φ) : (x.map ψ >>= F) = Except.map φ (x >>= G) := by
  cases x with
  | error e => rfl
  | ok a => exact h a

theorem map_pure_ex {β γ : Type} (φ : β → γ) (b : β) : Except.map φ (pure b : Except Err β) = pure (φ b) := rfl

variable {f : K → K} {g : List (Term K) → List (Term K)} {h : (ℕ → Option (List ℕ)) → ℕ → Option (List ℕ)}

theorem preStep_tweak (env : Env K V) (s : St K V) :
    preStep env (s.tweak f g h) = (preStep env s).tweak f g h := by
  have hr : ∀ q : St K V, refill env (q.tweak f g h) = (refill env q).tweak f g h := by
    intro q
    unfold refill
    by_cases c : q.indices.cols < q.batchSize
    · rw [if_pos c, if_pos (show (q.tweak f g h).indices.cols < (q.tweak f g h).batchSize from c)]
      rfl
    · rw [if_neg c, if_neg (show ¬ (q.tweak f g h).indices.cols < (q.tweak f g h).batchSize from c)]
  unfold preStep setBatch
  show (if s.batched = true then setBatchBatched env (St.tweak f g h { s with xOld := some s.x })
    else setBatchUnbatched (St.tweak f g h { s with xOld := some s.x })) =
    St.tweak f g h (if s.batched = true then setBatchBatched env { s with xOld := some s.x } else setBatchUnbatched { s with xOld := some s.x })
  by_cases c : s.batched = true
  · rw [if_pos c, if_pos c]
    unfold setBatchBatched
    rw [hr]
    rfl
  · rw [if_neg c, if_neg c]
    rfl

theorem updateDiff_tweak (env : Env K V) : StepIgnores (updateDiff env) (St.tweak f g h) := by
  intro s
  obtain ⟨M, N, x, xOld, energy, bestE, bestCurE, fMin, fMinIdx, bestCurP, bestP, updDiff, nEval, log, alpha, lamda, sigma, dt, t,
    it, active, reason, terms, cons, drift, batchSize, batched, batchPartial, batchConcat, indices, perms, cIdx, pIdx,
    saveInt, trackIt, tracks, hist, draws, aux1, aux2⟩ := s
  cases xOld with
  | none => rfl
  | some o => exact bind_map_congr fun _ => rfl

theorem updateBestCur_tweak : StepIgnores (updateBestCur (K := K) (V := V)) (St.tweak f g h) := by
  intro s
  unfold updateBestCur
  by_cases c : s.energy.cols = 0
  · rw [if_pos c, if_pos (show (s.tweak f g h).energy.cols = 0 from c)]
    rfl
  · rw [if_neg c, if_neg (show ¬ (s.tweak f g h).energy.cols = 0 from c)]
    rfl

theorem track_tweak : StepIgnores (track (K := K) (V := V)) (St.tweak f g h) := by
  intro s
  have ht : ∀ l, applyTracks (s.tweak f g h) l = applyTracks s l := by
    intro l
    have : trackEntry (s.tweak f g h) = trackEntry s := by funext t; cases t <;> rfl
    unfold applyTracks
    rw [this]
  unfold track
  by_cases c : s.saveInt = 0
  · rw [if_pos c, if_pos (show (s.tweak f g h).saveInt = 0 from c)]
    rfl
  · rw [if_neg c, if_neg (show ¬ (s.tweak f g h).saveInt = 0 from c)]
    by_cases d : s.it % s.saveInt = 0
    · rw [if_pos d, if_pos (show (s.tweak f g h).it % (s.tweak f g h).saveInt = 0 from d), ht]
      rfl
    · rw [if_neg d, if_neg (show ¬ (s.tweak f g h).it % (s.tweak f g h).saveInt = 0 from d)]
      rfl

theorem bind_ignores {α β : Type} {φ : α → β} {F : β → Except Err β} {G : α → Except Err α} {x : Except Err α}
    (hF : ∀ s, F (φ s) = (G s).map φ) : (x.map φ >>= F) = Except.map φ (x >>= G) := by
  cases x with
  | error e => rfl
  | ok a => exact hF a

theorem postStep_tweak {env : Env K V} (he : env.Ignores (St.tweak f g h)) : StepIgnores (postStep env) (St.tweak f g h) := by
  intro s
  simp only [postStep, he.post]
  cases env.post s with
  | error e => rfl
  | ok x =>
    show (updateDiff env (St.tweak f g h { s with x := x }) >>= _) = _
    rw [updateDiff_tweak]
    show _ = Except.map _ (updateDiff env { s with x := x } >>= _)
    refine bind_ignores fun s => ?_
    rw [updateBestCur_tweak]
    refine bind_ignores fun s => ?_
    show (track (St.tweak f g h (updateBest s)) >>= _) = _
    rw [track_tweak]
    exact bind_ignores fun s => rfl

theorem step_tweak {env : Env K V} (he : env.Ignores (St.tweak f g h)) {inner : St K V → Except Err (St K V)}
    (hi : StepIgnores inner (St.tweak f g h)) : StepIgnores (step env inner) (St.tweak f g h) := by
  intro s
  simp only [step]
  rw [preStep_tweak, hi]
  exact bind_ignores (postStep_tweak he)

theorem computeConsensus_tweak (env : Env K V) : StepIgnores (computeConsensus env) (St.tweak f g h) := by
  intro s
  simp only [computeConsensus, St.tweak, map_bind_ex]
  rfl

theorem consThen_tweak {env : Env K V} {move : St K V → Except Err (St K V)} (hm : StepIgnores move (St.tweak f g h)) :
    StepIgnores (consThen env move) (St.tweak f g h) := by
  intro s
  simp only [consThen]
  rw [computeConsensus_tweak]
  exact bind_ignores hm

theorem correction_tweak {env : Env K V} (he : env.Ignores (St.tweak f g h)) (d : Mat V) (s : St K V) :
    correction env d (s.tweak f g h) = (correction env d s).map fun q => (q.1, q.2.tweak f g h) := by
  unfold correction
  cases hc : env.corr with
  | none => rfl
  | custom c =>
    simp only [he.corr c hc]
    exact bind_map_congr fun _ => rfl
  | heavi k =>
    obtain ⟨M, N, x, xOld, energy, bestE, bestCurE, fMin, fMinIdx, bestCurP, bestP, updDiff, nEval, log, alpha, lamda, sigma, dt, t,
      it, active, reason, terms, cons, drift, batchSize, batched, batchPartial, batchConcat, indices, perms, cIdx, pIdx,
      saveInt, trackIt, tracks, hist, draws, aux1, aux2⟩ := s
    cases cons with
    | none => rfl
    | some c => exact bind_map_congr fun _ => bind_map_congr fun _ => rfl

theorem hyperMove_tweak {env : Env K V} (he : env.Ignores (St.tweak f g h)) (S : SurfOps K V) :
    StepIgnores (hyperMove env S) (St.tweak f g h) := by
  intro s
  obtain ⟨M, N, x, xOld, energy, bestE, bestCurE, fMin, fMinIdx, bestCurP, bestP, updDiff, nEval, log, alpha, lamda, sigma, dt, t,
    it, active, reason, terms, cons, drift, batchSize, batched, batchPartial, batchConcat, indices, perms, cIdx, pIdx,
    saveInt, trackIt, tracks, hist, draws, aux1, aux2⟩ := s
  cases cons with
  | none => rfl
  | some c =>
    refine bind_map_congr fun d => ?_
    refine (congrArg (fun z => z >>= _) (he.noise
      ⟨M, N, x, xOld, energy, bestE, bestCurE, fMin, fMinIdx, bestCurP, bestP, updDiff, nEval, log, alpha, lamda, sigma, dt,
      t, it, active, reason, terms, (some c), (some d), batchSize, batched, batchPartial, batchConcat, indices, perms, cIdx,
      pIdx, saveInt, trackIt, tracks, hist, draws, aux1, aux2⟩)).trans ?_
    exact bind_map_congr fun n => bind_map_congr fun e => bind_map_congr fun a => bind_map_congr fun k => bind_map_congr fun xt =>
      bind_map_congr fun x => rfl

/-- Criteria and reasons are read by no step. -/
theorem cboMove_tweak {env : Env K V} (he : env.Ignores (St.tweak id g h)) : StepIgnores (cboMove env) (St.tweak id g h) := by
  intro s
  unfold cboMove
  rw [show (s.tweak id g h).cons = s.cons from rfl]
  cases hc : s.cons with
  | none => rfl
  | some c =>
    dsimp only
    refine bind_map_congr fun xp => bind_map_congr fun d => ?_
    rw [correction_tweak he]
    cases correction env d s with
    | error e => rfl
    | ok q =>
      show (env.noise (St.tweak id g h { q.2 with drift := some q.1 }) >>= _) =
        Except.map _ (env.noise { q.2 with drift := some q.1 } >>= _)
      rw [he.noise]
      exact bind_map_congr fun n => bind_map_congr fun u => bind_map_congr fun x => rfl

theorem dcMove_tweak {env : Env K V} (he : env.Ignores (St.tweak id g h)) (G : ConOps K V) (eps : K) :
    StepIgnores (dcMove env G eps) (St.tweak id g h) := by
  intro s
  obtain ⟨M, N, x, xOld, energy, bestE, bestCurE, fMin, fMinIdx, bestCurP, bestP, updDiff, nEval, log, alpha, lamda, sigma, dt, t,
    it, active, reason, terms, cons, drift, batchSize, batched, batchPartial, batchConcat, indices, perms, cIdx, pIdx,
    saveInt, trackIt, tracks, hist, draws, aux1, aux2⟩ := s
  cases cons with
  | none => rfl
  | some c =>
    refine bind_map_congr fun d => ?_
    refine (congrArg (fun z => z >>= _) (he.noise
      ⟨M, N, x, xOld, energy, bestE, bestCurE, fMin, fMinIdx, bestCurP, bestP, updDiff, nEval, log, alpha, lamda, sigma, dt,
      t, it, active, reason, terms, (some c), (some d), batchSize, batched, batchPartial, batchConcat, indices, perms, cIdx,
      pIdx, saveInt, trackIt, tracks, hist, draws, aux1, aux2⟩)).trans ?_
    exact bind_map_congr fun n => bind_map_congr fun q => bind_map_congr fun a => bind_map_congr fun xt => bind_map_congr fun z =>
      bind_map_congr fun z => bind_map_congr fun z => rfl

theorem regMove_tweak {env : Env K V} (he : env.Ignores (St.tweak id g h)) (G : ConOps K V) (eps : K) :
    StepIgnores (regMove env G eps) (St.tweak id g h) := by
  intro s
  obtain ⟨M, N, x, xOld, energy, bestE, bestCurE, fMin, fMinIdx, bestCurP, bestP, updDiff, nEval, log, alpha, lamda, sigma, dt, t,
    it, active, reason, terms, cons, drift, batchSize, batched, batchPartial, batchConcat, indices, perms, cIdx, pIdx,
    saveInt, trackIt, tracks, hist, draws, aux1, aux2⟩ := s
  cases cons with
  | none => rfl
  | some c =>
    refine bind_map_congr fun d => ?_
    refine (congrArg (fun z => z >>= _) (he.noise
      ⟨M, N, x, xOld, energy, bestE, bestCurE, fMin, fMinIdx, bestCurP, bestP, updDiff, nEval, log, alpha, lamda, sigma, dt,
      t, it, active, reason, terms, (some c), (some d), batchSize, batched, batchPartial, batchConcat, indices, perms, cIdx,
      pIdx, saveInt, trackIt, tracks, hist, draws, aux1, aux2⟩)).trans ?_
    refine bind_map_congr fun n => bind_map_congr fun a => bind_map_congr fun xt => ?_
    by_cases c : eps < ((10 ^ 15 : ℕ) : K)
    · rw [if_pos c, if_pos c]
      exact bind_map_congr fun q => bind_map_congr fun z => bind_map_congr fun z => bind_map_congr fun x => rfl
    · rw [if_neg c, if_neg c]
      exact bind_map_congr fun x => rfl

theorem mirrorMove_tweak {env : Env K V} (he : env.Ignores (St.tweak id g h)) (gc : V → V) :
    StepIgnores (mirrorMove env gc) (St.tweak id g h) := by
  intro s
  unfold mirrorMove
  rw [show (s.tweak id g h).cons = s.cons from rfl]
  cases hc : s.cons with
  | none => rfl
  | some c =>
    dsimp only
    refine bind_map_congr fun xp => bind_map_congr fun d => ?_
    rw [correction_tweak he]
    cases correction env d s with
    | error e => rfl
    | ok q =>
      show (env.noise (St.tweak id g h { q.2 with drift := some q.1 }) >>= _) =
        Except.map _ (env.noise { q.2 with drift := some q.1 } >>= _)
      rw [he.noise]
      exact bind_map_congr fun n => bind_map_congr fun u => bind_map_congr fun x => rfl

theorem adamMove_tweak {env : Env K V} (he : env.Ignores (St.tweak id g h)) (A : AdamOps V) (β1 β2 : K) :
    StepIgnores (adamMove env A β1 β2) (St.tweak id g h) := by
  intro s
  obtain ⟨M, N, x, xOld, energy, bestE, bestCurE, fMin, fMinIdx, bestCurP, bestP, updDiff, nEval, log, alpha, lamda, sigma, dt, t,
    it, active, reason, terms, cons, drift, batchSize, batched, batchPartial, batchConcat, indices, perms, cIdx, pIdx,
    saveInt, trackIt, tracks, hist, draws, aux1, aux2⟩ := s
  cases cons with
  | none => rfl
  | some c =>
    refine bind_map_congr fun xp => bind_map_congr fun d => bind_map_congr fun m => bind_map_congr fun v => bind_map_congr fun mf =>
      bind_map_congr fun vf => bind_map_congr fun mp => bind_map_congr fun vp => bind_map_congr fun q => ?_
    refine (congrArg (fun z => z >>= _) (he.noise
      ⟨M, N, x, xOld, energy, bestE, bestCurE, fMin, fMinIdx, bestCurP, bestP, updDiff, nEval, log, alpha, lamda, sigma, dt,
      t, it, active, reason, terms, (some c), (some d), batchSize, batched, batchPartial, batchConcat, indices, perms, cIdx,
      pIdx, saveInt, trackIt, tracks, hist, draws, m, v⟩)).trans ?_
    exact bind_map_congr fun n => bind_map_congr fun u => bind_map_congr fun x => rfl

theorem psoInner_tweak {env : Env K V} (he : env.Ignores (St.tweak id g h)) (p : PsoPar K) :
    StepIgnores (psoInner env p) (St.tweak id g h) := by
  have h1 : StepIgnores (psoVelocity env p) (St.tweak id g h) := by
    intro s
    obtain ⟨M, N, x, xOld, energy, bestE, bestCurE, fMin, fMinIdx, bestCurP, bestP, updDiff, nEval, log, alpha, lamda, sigma, dt, t,
      it, active, reason, terms, cons, drift, batchSize, batched, batchPartial, batchConcat, indices, perms, cIdx, pIdx,
      saveInt, trackIt, tracks, hist, draws, aux1, aux2⟩ := s
    refine bind_map_congr fun yb => bind_map_congr fun eb => bind_map_congr fun w => bind_map_congr fun wx => bind_map_congr fun xp =>
      bind_map_congr fun dc => bind_map_congr fun yp => bind_map_congr fun dm => ?_
    refine (congrArg (fun z => z >>= _) (he.noise
      ⟨M, N, x, xOld, energy, bestE, bestCurE, fMin, fMinIdx, bestCurP, bestP, updDiff, nEval, log, alpha, lamda, sigma, dt,
      t, it, active, reason, terms, (some (env.cons.apply wx)), (some dc), batchSize, batched, batchPartial, batchConcat,
      indices, perms, cIdx, pIdx, saveInt, trackIt, tracks, hist, draws, aux1, aux2⟩)).trans ?_
    refine bind_map_congr fun n1 => ?_
    refine (congrArg (fun z => z >>= _) (he.noise
      ⟨M, N, x, xOld, energy, bestE, bestCurE, fMin, fMinIdx, bestCurP, bestP, updDiff, nEval, log, alpha, lamda, sigma, dt,
      t, it, active, reason, terms, (some (env.cons.apply wx)), (some dm), batchSize, batched, batchPartial, batchConcat,
      indices, perms, cIdx, pIdx, saveInt, trackIt, tracks, hist, (draws + 1), aux1, aux2⟩)).trans ?_
    refine bind_map_congr fun n2 => ?_
    by_cases c : p.m + p.gamma * dt = 0
    · refine (if_pos c).trans (Eq.trans ?_ (congrArg (Except.map (St.tweak id g h)) (if_pos c)).symm)
      rfl
    · refine (if_neg c).trans (Eq.trans ?_ (congrArg (Except.map (St.tweak id g h)) (if_neg c)).symm)
      refine bind_map_congr fun vp => ?_
      refine (congrArg (fun z => z >>= _) (correction_tweak he (dc.map fun d => (lamda * dt) • d)
        ⟨M, N, x, xOld, energy, bestE, bestCurE, fMin, fMinIdx, bestCurP, bestP, updDiff, nEval, log, alpha, lamda, sigma, dt,
        t, it, active, reason, terms, (some (env.cons.apply wx)), (some dm), batchSize, batched, batchPartial, batchConcat,
        indices, perms, cIdx, pIdx, saveInt, trackIt, tracks, hist, (draws + 1 + 1), aux1, aux2⟩)).trans ?_
      exact bind_map_congr2 fun q => bind_map_congr fun a => bind_map_congr fun a => bind_map_congr fun a => bind_map_congr fun a =>
        bind_map_congr fun v => rfl
  have h2 : StepIgnores (psoPosition (K := K) (V := V)) (St.tweak id g h) := fun s =>
    bind_map_congr fun xp => bind_map_congr fun vp => bind_map_congr fun x => bind_map_congr fun x => rfl
  have h3 : StepIgnores (psoUpdate env) (St.tweak id g h) := fun s =>
    bind_map_congr fun xp => bind_map_congr fun yp => bind_map_congr fun b => bind_map_congr fun d => bind_map_congr fun u =>
      bind_map_congr fun y => bind_map_congr fun y => bind_map_congr fun en => rfl
  intro s
  unfold psoInner
  rw [h1]
  refine bind_ignores fun s => ?_
  rw [h2]
  exact bind_ignores h3

end Verif
