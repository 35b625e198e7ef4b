import Verif.Proofs.Term
import Verif.Proofs.Best
import Verif.Spec.Base

/-! Helper lemmas for the base class. -/

set_option linter.unusedSectionVars false

namespace Verif

variable {K V : Type} [Zero K] [One K] [Neg K] [Add K] [Sub K] [Mul K] [Inv K] [Div K] [NatCast K] [Pow K ℕ] [LinearOrder K] [Add V] [Sub V] [SMul K V]

/-- What the base-class step does. -/
structure BaseFacts (env : Env K V) (s v s' : St K V) : Prop where
  frame : s' = { s with
    x := s'.x, xOld := some s.x, drift := s'.drift, draws := s'.draws, aux1 := s'.aux1, aux2 := s'.aux2
    nEval := s'.nEval, log := s'.log, cons := s'.cons, energy := v.energy
    updDiff := s'.updDiff, fMin := s'.fMin, fMinIdx := s'.fMinIdx, bestCurP := s'.bestCurP
    bestCurE := s'.bestCurE, bestE := s'.bestE, bestP := s'.bestP, hist := s'.hist
    trackIt := s'.trackIt, it := s.it + 1 }
  ecols : v.energy.cols ≠ 0
  fMinIdx : ∀ m, s'.fMinIdx m = Flt.rowArgmin v.energy.cols (v.energy.get m)
  bestCurE : ∀ m, s'.bestCurE m = v.energy.get m (s'.fMinIdx m)
  bestCurP : ∀ m, s'.bestCurP m = s.x.get m (s'.fMinIdx m)
  bestE : ∀ m, s'.bestE m = if Flt.gt (s.bestE m) (s'.bestCurE m) then s'.bestCurE m else s.bestE m
  bestP : ∀ m, s'.bestP m = if Flt.gt (s.bestE m) (s'.bestCurE m) then s'.bestCurP m else s.bestP m
  post : ∃ q r : St K V, env.post q = .ok s'.x ∧ q.x = v.x ∧ r.x = v.x ∧
    s'.hist = (if s.it % s.saveInt = 0 then applyTracks r s.tracks s.hist else s.hist)

theorem track_ok {s s' : St K V} (h : track s = .ok s') : s' = { s with hist := s'.hist, trackIt := s'.trackIt } ∧
    s'.hist = (if s.it % s.saveInt = 0 then applyTracks s s.tracks s.hist else s.hist) := by
  unfold track at h
  split_ifs at h with k1 k2
  · rw [pure_ok] at h
    subst h
    exact ⟨rfl, by rw [if_pos k2]⟩
  · rw [pure_ok] at h
    subst h
    exact ⟨rfl, by rw [if_neg k2]⟩

theorem baseStep_facts {env : Env K V} {inner : St K V → Except Err (St K V)} (hi : InnerFrame inner) {s s' : St K V}
    (h : baseStep env inner s = .ok s') : ∃ v, inner (basePreStep s) = .ok v ∧ BaseFacts env s v s' := by
  simp only [baseStep, bind_ok] at h
  obtain ⟨v, hv, h⟩ := h
  refine ⟨v, hv, ?_⟩
  have hf := hi _ _ hv
  simp only [basePostStep, bind_ok, pure_ok] at h
  obtain ⟨s1, h1, s2, h2, s3, h3, x, hx, h4⟩ := h
  have e1 : ∃ u, s1 = { v with updDiff := u } := by
    unfold updateDiff at h1
    split at h1
    · exact ⟨v.updDiff, by rw [pure_ok] at h1; rw [← h1]⟩
    · simp only [bind_ok, pure_ok] at h1
      obtain ⟨p, -, h1⟩ := h1
      exact ⟨_, h1.symm⟩
  obtain ⟨u, rfl⟩ := e1
  unfold updateBestCur at h2
  split_ifs at h2 with hc
  rw [pure_ok] at h2
  have ho : v.xOld = some s.x := by rw [hf]; rfl
  have hb : v.bestE = s.bestE ∧ v.bestP = s.bestP ∧ v.it = s.it ∧ v.saveInt = s.saveInt ∧ v.tracks = s.tracks ∧ v.hist = s.hist := by
    rw [hf]; exact ⟨rfl, rfl, rfl, rfl, rfl, rfl⟩
  obtain ⟨b1, b2, b3, b4, b5, b6⟩ := hb
  obtain ⟨t1, t2⟩ := track_ok h3
  subst h2
  generalize hr : updateBest (K := K) (V := V) _ = r at t1 t2
  have r1 : r.x = v.x := by rw [← hr]; rfl
  have r2 : r.energy = v.energy := by rw [← hr]; rfl
  have r3 : r.it = s.it ∧ r.saveInt = s.saveInt ∧ r.tracks = s.tracks ∧ r.hist = s.hist := by
    rw [← hr]; exact ⟨b3, b4, b5, b6⟩
  obtain ⟨r3, r4, r5, r6⟩ := r3
  subst h4
  refine ⟨?_, hc, ?_, ?_, ?_, ?_, ?_, s3, r, hx, by rw [t1]; exact r1, r1, ?_⟩
  · simp only
    rw [t1, ← hr, hf]
    rfl
  all_goals first
    | (intro m; simp only; rw [t1, ← hr]; simp only [updateBest, ho, Option.getD_some, b1, b2])
    | (simp only; rw [t2, r3, r4, r5, r6])

theorem baseEvalTerms_raise {env : Env K V} : ∀ {l : List (Term K)} {s : St K V}, (∃ tm ∈ l, NeedsCBX tm) →
    baseEvalTerms env l s = .error .attribute
  | [], s, ⟨tm, h, _⟩ => by simp at h
  | tm :: l, s, ⟨t, h, hn⟩ => by
    simp only [baseEvalTerms, bind, Except.bind]
    by_cases hb : NeedsCBX tm
    · cases tm <;> simp_all [NeedsCBX, baseEvalTerm]
    · have ht : t ∈ l := by
        rcases List.mem_cons.1 h with rfl | h
        · exact absurd hn hb
        · exact h
      have ih := fun s => baseEvalTerms_raise (env := env) (l := l) (s := s) ⟨t, ht, hn⟩
      cases tm with
      | maxIt o => cases o <;> simp [baseEvalTerm, evalTerm, pure, Except.pure, ih]
      | energyTol _ => simp [baseEvalTerm, evalTerm, pure, Except.pure, ih]
      | diffTol _ => simp [baseEvalTerm, evalTerm, pure, Except.pure, ih]
      | custom _ => simp [baseEvalTerm, evalTerm, pure, Except.pure, ih]
      | maxEval _ => exact absurd trivial hb
      | maxTime _ => exact absurd trivial hb
      | energyStag _ _ _ => exact absurd trivial hb

theorem baseEvalTerms_eq {env : Env K V} : ∀ {l : List (Term K)} {s : St K V}, (∀ tm ∈ l, ¬ NeedsCBX tm) →
    baseEvalTerms env l s = evalTerms env l s
  | [], s, _ => rfl
  | tm :: l, s, h => by
    have h1 := h tm List.mem_cons_self
    have e : baseEvalTerm env tm s = evalTerm env tm s := by
      cases tm <;> first | rfl | exact absurd trivial h1
    have ih := fun s => baseEvalTerms_eq (env := env) (l := l) (s := s) (fun t ht => h t (List.mem_cons_of_mem _ ht))
    simp only [baseEvalTerms, evalTerms, e, ih]

theorem baseSelect_eq {env : Env K V} {s : St K V} (h : ∀ tm ∈ s.terms, ¬ NeedsCBX tm) : baseSelect env s = selectActive env s := by
  simp only [baseSelect, selectActive, baseEvalTerms_eq h]

end Verif
