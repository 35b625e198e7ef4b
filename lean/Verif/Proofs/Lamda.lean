import Verif.Proofs.Resume
import Mathlib.Tactic.Module

/-! Helper lemmas: whole executions that do not read `lamda`, and how `lamda` enters the step of `CBO`. -/

set_option linter.unusedSectionVars false

namespace Verif

section
variable {K V : Type} [Zero K] [One K] [Neg K] [Add K] [Sub K] [Mul K] [Inv K] [Div K] [NatCast K] [Pow K ℕ] [LinearOrder K] [Add V] [Sub V] [SMul K V]

theorem evalTerm_lamda {env : Env K V} (he : env.NoLamda) (l : K) (tm : Term K) (s : St K V) :
    evalTerm env tm (s.withLamda l) = (evalTerm env tm s).map fun v => (v.1, v.2.1, v.2.2.withLamda l) := by
  cases tm with
  | maxIt b => cases b <;> rfl
  | custom i =>
    have : env.custom i (s.withLamda l) = env.custom i s := by funext m; exact he.custom i l s m
    simp only [evalTerm, this]
    rfl
  | energyStag p th L =>
    unfold evalTerm
    simp only
    unfold evalStag
    rw [show (s.withLamda l).cons = s.cons from rfl]
    cases hc : s.cons with
    | none => rfl
    | some c =>
      dsimp only
      by_cases h1 : ∀ m ∈ s.active, m < c.rows
      · rw [if_pos h1, if_pos (show ∀ m ∈ (s.withLamda l).active, m < c.rows from h1)]
        by_cases h2 : p = 0
        · rw [if_pos h2, if_pos h2]; rfl
        · rw [if_neg h2, if_neg h2]
          by_cases h3 : s.active.length = 1 ∧ c.cols = 1
          · rw [if_pos h3, if_pos (show (s.withLamda l).active.length = 1 ∧ c.cols = 1 from h3)]
            rfl
          · rw [if_neg h3, if_neg (show ¬ ((s.withLamda l).active.length = 1 ∧ c.cols = 1) from h3)]
            rfl
      · rw [if_neg h1, if_neg (show ¬ ∀ m ∈ (s.withLamda l).active, m < c.rows from h1)]
        rfl
  | _ => rfl

theorem evalTerms_lamda {env : Env K V} (he : env.NoLamda) (l : K) : ∀ (T : List (Term K)) (s : St K V),
    evalTerms env T (s.withLamda l) = (evalTerms env T s).map fun v => (v.1, v.2.1, v.2.2.withLamda l)
  | [], s => rfl
  | tm :: T, s => by
    unfold evalTerms
    rw [evalTerm_lamda he]
    cases evalTerm env tm s with
    | error e => rfl
    | ok v =>
      show (evalTerms env T (v.2.2.withLamda l) >>= _) = Except.map _ (evalTerms env T v.2.2 >>= _)
      rw [evalTerms_lamda he l T v.2.2]
      exact bind_map_congr2 fun _ => rfl

theorem select_lamda {env : Env K V} (he : env.NoLamda) (l : K) : StepIgnores (selectActive env) (St.withLamda l) := by
  intro s
  unfold selectActive
  rw [show (s.withLamda l).terms = s.terms from rfl, evalTerms_lamda he]
  exact bind_map_congr2 fun _ => rfl

theorem exec_lamda {env : Env K V} (he : env.NoLamda) {inner : St K V → Except Err (St K V)}
    (hi : ∀ l, StepIgnores inner (St.withLamda l)) (o : Op) (l : K) (s : St K V) :
    ∃ l', exec env inner o (s.withLamda l) = (exec env inner o s).map (St.withLamda l') := by
  cases o with
  | step => exact ⟨l, step_tweak (f := fun _ => l) (g := id) (h := id) (he.ignores l) (hi l) s⟩
  | select => exact ⟨l, select_lamda he l s⟩
  | reset => exact ⟨l, rfl⟩
  | sched =>
    have h := he.sched l s
    show ∃ l', schedUpdate env (s.withLamda l) = (schedUpdate env s).map (St.withLamda l')
    unfold schedUpdate
    cases h1 : env.sched s with
    | error e =>
      cases h2 : env.sched (s.withLamda l) with
      | error e' =>
        rw [h1, h2] at h
        injection h with h
        exact ⟨l, by rw [h]; rfl⟩
      | ok p => rw [h1, h2] at h; exact nomatch h
    | ok p =>
      cases h2 : env.sched (s.withLamda l) with
      | error e' => rw [h1, h2] at h; exact nomatch h
      | ok p' =>
        rw [h1, h2] at h
        injection h with h
        simp only [Prod.mk.injEq] at h
        obtain ⟨h3, h4, h5⟩ := h
        refine ⟨p'.lamda, ?_⟩
        show Except.ok _ = Except.ok _
        rw [← h3, ← h4, ← h5]
        rfl

theorem execAll_lamda {env : Env K V} (he : env.NoLamda) {inner : St K V → Except Err (St K V)}
    (hi : ∀ l, StepIgnores inner (St.withLamda l)) : ∀ (ops : List Op) (l : K) (s : St K V),
    ∃ l', execAll env inner ops (s.withLamda l) = (execAll env inner ops s).map (St.withLamda l')
  | [], l, s => ⟨l, rfl⟩
  | o :: ops, l, s => by
    obtain ⟨l', h⟩ := exec_lamda he hi o l s
    unfold execAll
    rw [h]
    cases exec env inner o s with
    | error e => exact ⟨l', rfl⟩
    | ok q => exact execAll_lamda he hi ops l' q

theorem execAll_congr_env {env env' : Env K V} {inner inner' : St K V → Except Err (St K V)}
    (h : ∀ o s, exec env inner o s = exec env' inner' o s) : ∀ (ops : List Op) (s : St K V),
    execAll env inner ops s = execAll env' inner' ops s
  | [], _ => rfl
  | o :: ops, s => by
    unfold execAll
    rw [h o s]
    cases exec env' inner' o s with
    | error e => rfl
    | ok q => exact execAll_congr_env h ops q

/-- The slot that is written does not depend on the values. -/
theorem scatterAdd_pos {a v r : Mat V} {ix : Idx} (h : a.scatterAdd ix v = .ok r) {m n : ℕ} {p : ℕ × ℕ}
    (hp : ix.lastPos m n = some p) : r.get m n = a.get m n + v.get (Mat.bpos v.rows p.1) (Mat.bpos v.cols p.2) := by
  unfold Mat.scatterAdd at h
  cases hg : a.gather ix with
  | error e => rw [hg] at h; simp at h
  | ok g =>
    rw [hg] at h
    simp only at h
    obtain ⟨_, g1, g2, g3⟩ := Mat.gather_ok hg
    cases hv : Mat.bto g.rows g.cols v with
    | error e => rw [hv] at h; simp at h
    | ok v' =>
      rw [hv] at h
      simp only at h
      obtain ⟨_, _, v1, v2, v3⟩ := Mat.bto_ok hv
      unfold Mat.scatter at h
      split_ifs at h with hb
      obtain ⟨h1, h2, h3, h4⟩ := Idx.lastPos_some hp
      cases hw : Mat.bto ix.rows ix.cols (⟨g.rows, g.cols, fun i j => g.get i j + v'.get i j⟩ : Mat V) with
      | error e => rw [hw] at h; simp at h
      | ok w =>
        rw [hw] at h
        simp only at h
        injection h with h
        subst h
        obtain ⟨_, _, w1, w2, w3⟩ := Mat.bto_ok hw
        simp only [hp]
        rw [w3]
        simp only
        rw [Mat.bpos_lt (by omega : p.1 < g.rows), Mat.bpos_lt (by omega : p.2 < g.cols), g3, v3, h3, h4]

end

section
variable {K V : Type} [Field K] [LinearOrder K] [AddCommGroup V] [Module K V]

/-- How another `lamda` moves a selected particle in the step of `CBO`. -/
theorem cboMove_lamda {env : Env K V} {l : K} (he : env.Ignores (St.withLamda l)) {s v v' : St K V} (h : cboMove env s = .ok v)
    (h' : cboMove env (s.withLamda l) = .ok v') {m n : ℕ} (hs : s.pIdx.Sel m n) :
    ∃ d i j, v.drift = some d ∧ i < s.pIdx.rows ∧ j < s.pIdx.cols ∧ s.pIdx.run i = m ∧ s.pIdx.par i j = n ∧
      v'.x.get m n = v.x.get m n + ((s.lamda - l) * s.dt) • d.get (Mat.bpos d.rows i) (Mat.bpos d.cols j) := by
  obtain ⟨p, hp⟩ := Idx.lastPos_of_sel hs
  obtain ⟨h1, h2, h3, h4⟩ := Idx.lastPos_some hp
  unfold cboMove at h h'
  rw [show (s.withLamda l).cons = s.cons from rfl] at h'
  cases hc : s.cons with
  | none => rw [hc] at h; exact nomatch h
  | some c =>
    rw [hc] at h h'
    simp only [bind_ok, pure_ok] at h h'
    obtain ⟨xp, a1, d, a2, ⟨d', s1⟩, a3, nn, a4, u, a5, x, a6, rfl⟩ := h
    obtain ⟨xp', b1, e, b2, ⟨e', s2⟩, b3, nn', b4, u', b5, x', b6, rfl⟩ := h'
    have : xp' = xp := by
      have : s.x.gather s.pIdx = .ok xp' := b1
      rw [a1] at this; injection this with this; exact this.symm
    subst this
    rw [a2] at b2
    injection b2 with b2
    subst b2
    have ct := correction_tweak (f := fun _ => l) (g := id) (h := id) (he : env.Ignores (St.tweak (fun _ => l) id id)) d s
    have b3' : correction env d (s.tweak (fun _ => l) id id) = .ok (e', s2) := b3
    rw [ct, a3] at b3'
    injection b3' with b3'
    simp only [Prod.mk.injEq] at b3'
    obtain ⟨rfl, rfl⟩ := b3'
    simp only at a4 b4 a5 b5 a6 b6
    have b4' : env.noise (St.withLamda l { s1 with drift := some d' }) = .ok nn' := b4
    rw [he.noise, a4] at b4'
    injection b4' with b4'
    subst b4'
    obtain ⟨c1, -, -⟩ := correction_facts a3
    simp only at c1
    have q1 : s1.x = s.x := by rw [c1]
    have q2 : s1.pIdx = s.pIdx := by rw [c1]
    have q3 : s1.lamda = s.lamda := by rw [c1]
    have q4 : s1.dt = s.dt := by rw [c1]
    have q5 : s1.sigma = s.sigma := by rw [c1]
    have r1 := scatterAdd_pos (m := m) (n := n) (p := p) a6 (by rw [q2]; exact hp)
    have r2 := scatterAdd_pos (m := m) (n := n) (p := p) b6 (by show s1.pIdx.lastPos m n = _; rw [q2]; exact hp)
    obtain ⟨u1, u2, u3⟩ := Mat.bin_ok a5
    obtain ⟨u1', u2', u3'⟩ := Mat.bin_ok b5
    rw [u1] at u1'; injection u1' with u1'
    rw [u2] at u2'; injection u2' with u2'
    have rr := (Mat.scatterAdd_ok a6).2.2.2.2.2
    rw [q2] at rr
    refine ⟨d', p.1, p.2, rfl, h1, h2, h3, h4, ?_⟩
    show x'.get m n = x.get m n + _
    have hx : (St.tweak (fun _ => l) id id s1).x = s1.x := rfl
    simp only [hx] at r2
    have e1 : Mat.bpos d'.rows (Mat.bpos u.rows p.1) = Mat.bpos d'.rows p.1 := by
      unfold Mat.bpos
      have := Mat.bdim_eq_some u1
      split_ifs <;> omega
    have e2 : Mat.bpos d'.cols (Mat.bpos u.cols p.2) = Mat.bpos d'.cols p.2 := by
      unfold Mat.bpos
      have := Mat.bdim_eq_some u2
      split_ifs <;> omega
    rw [r1, r2, u3, u3', ← u1', ← u2', e1, e2]
    simp only [cboUpdate, St.tweak, id]
    rw [q3, q4, q5]
    module

end
end Verif
