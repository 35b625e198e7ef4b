import Verif.Model.FullMoves
import Verif.Proofs.MoveTotal
import Verif.Proofs.Count
import Verif.Spec.Post

/-! Helper lemmas for the moves that compute with the whole ensemble. -/

set_option linter.unusedSectionVars false

namespace Verif

namespace Mat

theorem allOk_ok {α : Type} {fb : Mat α} {m : Mat (Except Err α)} {r : Mat α} (h : allOk fb m = .ok r) :
    r.rows = m.rows ∧ r.cols = m.cols ∧ ∀ i < m.rows, ∀ j < m.cols, m.get i j = .ok (r.get i j) := by
  unfold allOk at h
  split_ifs at h with hc
  injection h with h
  subst h
  refine ⟨rfl, rfl, fun i hi j hj => ?_⟩
  have := hc i hi j hj
  simp only
  cases hm : m.get i j with
  | error e => rw [hm] at this; simp [Except.isOk, Except.toBool] at this
  | ok v => rfl

theorem allOk_of {α : Type} {fb : Mat α} {m : Mat (Except Err α)} (h : ∀ i < m.rows, ∀ j < m.cols, ∃ v, m.get i j = .ok v) :
    ∃ r, allOk fb m = .ok r := by
  unfold allOk
  rw [if_pos]
  · exact ⟨_, rfl⟩
  · intro i hi j hj
    obtain ⟨v, hv⟩ := h i hi j hj
    rw [hv]; rfl

theorem rebind_ok {α : Type} {a b r : Mat α} (h : rebind a b = .ok r) :
    b.rows = a.rows ∧ b.cols = a.cols ∧ r.rows = a.rows ∧ r.cols = a.cols ∧
      ∀ i < a.rows, ∀ j < a.cols, r.get i j = b.get i j := by
  unfold rebind at h
  split_ifs at h with hc
  injection h with h
  subst h
  exact ⟨hc.1, hc.2, rfl, rfl, fun i hi j hj => by simp [hi, hj]⟩

theorem rebind_of {α : Type} {a b : Mat α} (h1 : b.rows = a.rows) (h2 : b.cols = a.cols) : ∃ r, rebind a b = .ok r := by
  unfold rebind; rw [if_pos ⟨h1, h2⟩]; exact ⟨_, rfl⟩

/-- Entries of a broadcast operation with a column. -/
theorem bin_col {α β γ : Type} {f : α → β → γ} {a : Mat α} {b : Mat β} {r : Mat γ} (h : bin f a b = .ok r) (h1 : b.rows = a.rows)
    (h2 : b.cols = 1) : r.rows = a.rows ∧ r.cols = a.cols ∧ ∀ i < a.rows, ∀ j < a.cols, r.get i j = f (a.get i j) (b.get i 0) := by
  obtain ⟨e1, e2, e3⟩ := bin_ok h
  rw [h1, bdim_self] at e1
  rw [h2, bdim_one_right] at e2
  injection e1 with e1
  injection e2 with e2
  refine ⟨e1.symm, e2.symm, fun i hi j hj => ?_⟩
  rw [e3, bpos_lt hi, bpos_lt hj, bpos_lt (by omega), h2]
  rfl

theorem bin_col' {α β γ : Type} {f : α → β → γ} {a : Mat α} {b : Mat β} {r : Mat γ} (h : bin f a b = .ok r) (h1 : a.rows = b.rows)
    (h2 : a.cols = 1) : r.rows = b.rows ∧ r.cols = b.cols ∧ ∀ i < b.rows, ∀ j < b.cols, r.get i j = f (a.get i 0) (b.get i j) := by
  obtain ⟨e1, e2, e3⟩ := bin_ok h
  rw [h1, bdim_self] at e1
  rw [h2, bdim_one_left] at e2
  injection e1 with e1
  injection e2 with e2
  refine ⟨e1.symm, e2.symm, fun i hi j hj => ?_⟩
  rw [e3, bpos_lt hi, bpos_lt hj, bpos_lt (by omega), h2]
  rfl

theorem bin_same {α β γ : Type} {f : α → β → γ} {a : Mat α} {b : Mat β} {r : Mat γ} (h : bin f a b = .ok r) (h1 : b.rows = a.rows)
    (h2 : b.cols = a.cols) : r.rows = a.rows ∧ r.cols = a.cols ∧ ∀ i < a.rows, ∀ j < a.cols, r.get i j = f (a.get i j) (b.get i j) := by
  obtain ⟨e1, e2, e3⟩ := bin_ok h
  rw [h1, bdim_self] at e1
  rw [h2, bdim_self] at e2
  injection e1 with e1
  injection e2 with e2
  refine ⟨e1.symm, e2.symm, fun i hi j hj => ?_⟩
  rw [e3, bpos_lt hi, bpos_lt hj, bpos_lt (by omega), bpos_lt (by omega)]

theorem bin_col_total {α β γ : Type} (f : α → β → γ) {a : Mat α} {b : Mat β} (h1 : b.rows = a.rows) (h2 : b.cols = 1) :
    ∃ r, bin f a b = .ok r :=
  ⟨_, bin_of_dims (r := a.rows) (c := a.cols) (by rw [h1]; exact bdim_self _) (by rw [h2]; exact bdim_one_right _)⟩

theorem bin_col_total' {α β γ : Type} (f : α → β → γ) {a : Mat α} {b : Mat β} (h1 : a.rows = b.rows) (h2 : a.cols = 1) :
    ∃ r, bin f a b = .ok r :=
  ⟨_, bin_of_dims (r := b.rows) (c := b.cols) (by rw [h1]; exact bdim_self _) (by rw [h2]; exact bdim_one_left _)⟩

theorem bin_same_total {α β γ : Type} (f : α → β → γ) {a : Mat α} {b : Mat β} (h1 : b.rows = a.rows) (h2 : b.cols = a.cols) :
    ∃ r, bin f a b = .ok r :=
  ⟨_, bin_of_dims (r := a.rows) (c := a.cols) (by rw [h1]; exact bdim_self _) (by rw [h2]; exact bdim_self _)⟩

end Mat

variable {K V : Type} [Zero K] [One K] [Neg K] [Add K] [Sub K] [Mul K] [Inv K] [Div K] [NatCast K] [Pow K ℕ] [LinearOrder K] [Add V] [Sub V] [SMul K V]

/-- A move that replaces every particle `x` by `F λ dt σ x c n`, where `c` is the consensus of its run and `n` its noise, provided all runs
are active; whatever it does otherwise, it keeps the shape and everything but position, drift and number of draws. -/
structure FullMove (env : Env K V) (F : K → K → K → V → V → V → Except Err V) (move : St K V → Except Err (St K V)) : Prop where
  frame : ∀ s v, move s = .ok v → v = { s with x := v.x, drift := v.drift, draws := s.draws + 1 }
  shape : ∀ s v, move s = .ok v → v.x.rows = s.x.rows ∧ v.x.cols = s.x.cols
  drift : ∀ s v, move s = .ok v → ∃ c d n, s.cons = some c ∧ Mat.bin (fun a b => a - b) s.x c = .ok d ∧ v.drift = some d ∧
    env.noise { s with drift := some d } = .ok n ∧
    (c.rows = s.x.rows → c.cols = 1 → n.rows = s.x.rows → n.cols = s.x.cols →
      ∀ i < s.x.rows, ∀ j < s.x.cols, F s.lamda s.dt s.sigma (s.x.get i j) (c.get i 0) (n.get i j) = .ok (v.x.get i j))
  total : ∀ (s : St K V) c d n, 0 < s.x.rows → 0 < s.x.cols → s.cons = some c → c.rows = s.x.rows → c.cols = 1 → Mat.bin (fun a b => a - b) s.x c = .ok d →
    env.noise { s with drift := some d } = .ok n → n.rows = s.x.rows → n.cols = s.x.cols →
    (∀ i < s.x.rows, ∀ j < s.x.cols, ∃ v, F s.lamda s.dt s.sigma (s.x.get i j) (c.get i 0) (n.get i j) = .ok v) →
    ∃ v, move s = .ok v
  raises : ∀ (s : St K V) c, s.cons = some c → Mat.bin (fun a b => a - b) s.x c = .error .value → move s = .error .value

theorem FullMove.ok {env : Env K V} {F : K → K → K → V → V → V → Except Err V} {move : St K V → Except Err (St K V)}
    (h : FullMove env F move) : MoveOK move where
  frame s v hv := by unfold MoveFrame; rw [h.frame s v hv]
  rows s v hv := (h.shape s v hv).1
  cols s v hv := (h.shape s v hv).2
  log s v hv := ⟨[], by rw [h.frame s v hv]; simp, by simp⟩

theorem FullMove.quiet {env : Env K V} {F : K → K → K → V → V → V → Except Err V} {move : St K V → Except Err (St K V)}
    (h : FullMove env F move) : MoveQuiet move := by
  intro s v hv
  rw [h.frame s v hv]
  exact ⟨rfl, rfl⟩

/-- The update of one particle by `DriftConstrainedCBO`. -/
def dcUpdate (G : ConOps K V) (eps lamda dt sigma : K) (x c n : V) : Except Err V := do
  let q ← divEps dt eps
  let z ← G.solveHess q x ((lamda * dt) • (x - c) + q • G.gradSq x + sigma • n)
  pure (x - z)

/-- The update of one particle by `RegCombinationCBO`. -/
def regUpdate (G : ConOps K V) (eps lamda dt sigma : K) (x c n : V) : Except Err V :=
  if eps < ((10 ^ 15 : ℕ) : K) then do
    let q ← divEps dt eps
    G.solvePlus q x (x - (lamda * dt) • (x - c) + sigma • n)
  else pure (x - (lamda * dt) • (x - c) + sigma • n)

/-- The update of one particle by `HyperSurfaceCBO`. -/
def hyperUpdate (S : SurfOps K V) (_lamda dt sigma : K) (x c n : V) : Except Err V :=
  .ok (S.proj (x + S.tangent x (dt • c + sigma • n) - S.noiseConstr dt sigma x (x - c)))

theorem dcMove_full (env : Env K V) (G : ConOps K V) (eps : K) : FullMove env (dcUpdate G eps) (dcMove env G eps) where
  frame s v h := by
    unfold dcMove at h
    split at h
    · simp at h
    · simp only [bind_ok, pure_ok] at h
      obtain ⟨d, hd, n, hn, q, hq, a, ha, xt, hxt, z, hz, z', hz', z2, hz2, rfl⟩ := h
      rfl
  shape s v h := by
    unfold dcMove at h
    split at h
    · simp at h
    · simp only [bind_ok, pure_ok] at h
      obtain ⟨d, hd, n, hn, q, hq, a, ha, xt, hxt, z, hz, z', hz', z2, hz2, rfl⟩ := h
      exact ⟨rfl, rfl⟩
  drift s v h := by
    unfold dcMove at h
    split at h
    · simp at h
    next c hc =>
      simp only [bind_ok, pure_ok] at h
      obtain ⟨d, hd, n, hn, q, hq, a, ha, xt, hxt, z, hz, z', hz', z2, hz2, rfl⟩ := h
      refine ⟨c, d, n, hc, hd, rfl, hn, fun c1 c2 n1 n2 i hi j hj => ?_⟩
      obtain ⟨d1, d2, d3⟩ := Mat.bin_col hd c1 c2
      obtain ⟨a1, a2, a3⟩ := Mat.bin_same ha (by omega) (by omega)
      obtain ⟨t1, t2, t3⟩ := Mat.bin_same hxt (by omega) (by omega)
      obtain ⟨y1, y2, y3⟩ := Mat.bin_same hz (by omega) (by omega)
      obtain ⟨w1, w2, w3⟩ := Mat.allOk_ok hz'
      obtain ⟨u1, u2, -, -, u3⟩ := Mat.bto_ok hz2
      have e := w3 i (by omega) j (by omega)
      rw [y3 i hi j hj, t3 i (by omega) j (by omega), a3 i (by omega) j (by omega), d3 i hi j hj] at e
      simp only [dcUpdate, hq, bind, Except.bind, pure, Except.pure, hi, hj, and_self, if_true]
      rw [e, u3, Mat.bpos_lt (by omega), Mat.bpos_lt (by omega)]
  total s c d n p1 p2 hc c1 c2 hd hn n1 n2 hF := by
    obtain ⟨d1, d2, d3⟩ := Mat.bin_col hd c1 c2
    obtain ⟨w, hw⟩ := hF 0 p1 0 p2
    simp only [dcUpdate, bind_ok, pure_ok] at hw
    obtain ⟨q, hq, -⟩ := hw
    obtain ⟨a, ha⟩ := Mat.bin_same_total (fun d x : V => (s.lamda * s.dt) • d + q • G.gradSq x) (a := d) (b := s.x) d1.symm d2.symm
    obtain ⟨a1, a2, a3⟩ := Mat.bin_same ha d1.symm d2.symm
    obtain ⟨xt, hxt⟩ := Mat.bin_same_total (fun a n : V => a + s.sigma • n) (a := a) (b := n) (by omega) (by omega)
    obtain ⟨t1, t2, t3⟩ := Mat.bin_same hxt (by omega) (by omega)
    obtain ⟨z, hz⟩ := Mat.bin_same_total (fun x t : V => G.solveHess q x t) (a := s.x) (b := xt) (by omega) (by omega)
    obtain ⟨y1, y2, y3⟩ := Mat.bin_same hz (by omega) (by omega)
    obtain ⟨z', hz'⟩ := Mat.allOk_of (fb := s.x) (m := z) (by
      intro i hi j hj
      obtain ⟨w, hw⟩ := hF i (by omega) j (by omega)
      simp only [dcUpdate, hq, bind_ok, pure_ok] at hw
      obtain ⟨q', e, u, hu, -⟩ := hw
      injection e with e
      subst e
      refine ⟨u, ?_⟩
      rw [y3 i (by omega) j (by omega), t3 i (by omega) j (by omega), a3 i (by omega) j (by omega), d3 i (by omega) j (by omega)]
      exact hu)
    obtain ⟨w1, w2, -⟩ := Mat.allOk_ok hz'
    obtain ⟨z2, hz2, -⟩ := Mat.bto_same (b := z') (r := s.x.rows) (c := s.x.cols) (by omega) (by omega)
    unfold dcMove
    rw [hc]
    simp only [hc] at hn
    simp only [hd, hn, hq, ha, hxt, hz, hz', hz2, bind, Except.bind, pure, Except.pure]
    exact ⟨_, rfl⟩
  raises s c hc h := by
    unfold dcMove
    rw [hc]
    simp only [h, bind, Except.bind]

theorem regMove_full (env : Env K V) (G : ConOps K V) (eps : K) : FullMove env (regUpdate G eps) (regMove env G eps) where
  frame s v h := by
    unfold regMove at h
    split at h
    · simp at h
    · simp only [bind_ok] at h
      obtain ⟨d, hd, n, hn, a, ha, xt, hxt, h⟩ := h
      split_ifs at h <;> simp only [bind_ok, pure_ok] at h
      · obtain ⟨q, hq, z, hz, z', hz', x, hx, rfl⟩ := h
        rfl
      · obtain ⟨x, hx, rfl⟩ := h
        rfl
  shape s v h := by
    unfold regMove at h
    split at h
    · simp at h
    · simp only [bind_ok] at h
      obtain ⟨d, hd, n, hn, a, ha, xt, hxt, h⟩ := h
      split_ifs at h <;> simp only [bind_ok, pure_ok] at h
      · obtain ⟨q, hq, z, hz, z', hz', x, hx, rfl⟩ := h
        obtain ⟨-, -, e1, e2, -⟩ := Mat.rebind_ok hx
        exact ⟨e1, e2⟩
      · obtain ⟨x, hx, rfl⟩ := h
        obtain ⟨-, -, e1, e2, -⟩ := Mat.rebind_ok hx
        exact ⟨e1, e2⟩
  drift s v h := by
    unfold regMove at h
    split at h
    · simp at h
    next c hc =>
      simp only [bind_ok] at h
      obtain ⟨d, hd, n, hn, a, ha, xt, hxt, h⟩ := h
      split_ifs at h with he <;> simp only [bind_ok, pure_ok] at h
      · obtain ⟨q, hq, z, hz, z', hz', x, hx, rfl⟩ := h
        refine ⟨c, d, n, hc, hd, rfl, hn, fun c1 c2 n1 n2 i hi j hj => ?_⟩
        obtain ⟨d1, d2, d3⟩ := Mat.bin_col hd c1 c2
        obtain ⟨a1, a2, a3⟩ := Mat.bin_same ha (by omega) (by omega)
        obtain ⟨t1, t2, t3⟩ := Mat.bin_same hxt (by omega) (by omega)
        obtain ⟨y1, y2, y3⟩ := Mat.bin_same hz (by omega) (by omega)
        obtain ⟨w1, w2, w3⟩ := Mat.allOk_ok hz'
        obtain ⟨-, -, u1, u2, u3⟩ := Mat.rebind_ok hx
        have e := w3 i (by omega) j (by omega)
        rw [y3 i hi j hj, t3 i (by omega) j (by omega), a3 i (by omega) j (by omega), d3 i hi j hj] at e
        simp only [regUpdate, hq, he, if_true, bind, Except.bind]
        rw [e, u3 i hi j hj]
      · obtain ⟨x, hx, rfl⟩ := h
        refine ⟨c, d, n, hc, hd, rfl, hn, fun c1 c2 n1 n2 i hi j hj => ?_⟩
        obtain ⟨d1, d2, d3⟩ := Mat.bin_col hd c1 c2
        obtain ⟨a1, a2, a3⟩ := Mat.bin_same ha (by omega) (by omega)
        obtain ⟨t1, t2, t3⟩ := Mat.bin_same hxt (by omega) (by omega)
        obtain ⟨-, -, u1, u2, u3⟩ := Mat.rebind_ok hx
        simp only [regUpdate, he, if_false, pure, Except.pure]
        rw [u3 i hi j hj, t3 i (by omega) j (by omega), a3 i (by omega) j (by omega), d3 i hi j hj]
  total s c d n p1 p2 hc c1 c2 hd hn n1 n2 hF := by
    obtain ⟨d1, d2, d3⟩ := Mat.bin_col hd c1 c2
    obtain ⟨a, ha⟩ := Mat.bin_same_total (fun x d : V => x - (s.lamda * s.dt) • d) (a := s.x) (b := d) d1 d2
    obtain ⟨a1, a2, a3⟩ := Mat.bin_same ha d1 d2
    obtain ⟨xt, hxt⟩ := Mat.bin_same_total (fun a n : V => a + s.sigma • n) (a := a) (b := n) (by omega) (by omega)
    obtain ⟨t1, t2, t3⟩ := Mat.bin_same hxt (by omega) (by omega)
    by_cases he : eps < ((10 ^ 15 : ℕ) : K)
    · obtain ⟨w, hw⟩ := hF 0 p1 0 p2
      simp only [regUpdate, he, if_true, bind_ok] at hw
      obtain ⟨q, hq, -⟩ := hw
      obtain ⟨z, hz⟩ := Mat.bin_same_total (fun x t : V => G.solvePlus q x t) (a := s.x) (b := xt) (by omega) (by omega)
      obtain ⟨y1, y2, y3⟩ := Mat.bin_same hz (by omega) (by omega)
      obtain ⟨z', hz'⟩ := Mat.allOk_of (fb := s.x) (m := z) (by
        intro i hi j hj
        obtain ⟨w, hw⟩ := hF i (by omega) j (by omega)
        simp only [regUpdate, hq, he, if_true, bind_ok] at hw
        obtain ⟨q', e, hu⟩ := hw
        injection e with e
        subst e
        refine ⟨w, ?_⟩
        rw [y3 i (by omega) j (by omega), t3 i (by omega) j (by omega), a3 i (by omega) j (by omega), d3 i (by omega) j (by omega)]
        exact hu)
      obtain ⟨w1, w2, -⟩ := Mat.allOk_ok hz'
      obtain ⟨x, hx⟩ := Mat.rebind_of (a := s.x) (b := z') (by omega) (by omega)
      unfold regMove
      rw [hc]
      simp only [hc] at hn
      simp only [hd, hn, hq, ha, hxt, hz, hz', hx, he, if_true, bind, Except.bind, pure, Except.pure]
      exact ⟨_, rfl⟩
    · obtain ⟨x, hx⟩ := Mat.rebind_of (a := s.x) (b := xt) (by omega) (by omega)
      unfold regMove
      rw [hc]
      simp only [hc] at hn
      simp only [hd, hn, ha, hxt, hx, he, if_false, bind, Except.bind, pure, Except.pure]
      exact ⟨_, rfl⟩
  raises s c hc h := by
    unfold regMove
    rw [hc]
    simp only [h, bind, Except.bind]

theorem hyperMove_full (env : Env K V) (S : SurfOps K V) : FullMove env (hyperUpdate S) (hyperMove env S) where
  frame s v h := by
    unfold hyperMove at h
    split at h
    · simp at h
    · simp only [bind_ok, pure_ok] at h
      obtain ⟨d, hd, n, hn, e, he, a, ha, k, hk, xt, hxt, x, hx, rfl⟩ := h
      rfl
  shape s v h := by
    unfold hyperMove at h
    split at h
    · simp at h
    · simp only [bind_ok, pure_ok] at h
      obtain ⟨d, hd, n, hn, e, he, a, ha, k, hk, xt, hxt, x, hx, rfl⟩ := h
      obtain ⟨-, -, e1, e2, -⟩ := Mat.rebind_ok hx
      exact ⟨e1, e2⟩
  drift s v h := by
    unfold hyperMove at h
    split at h
    · simp at h
    next c hc =>
      simp only [bind_ok, pure_ok] at h
      obtain ⟨d, hd, n, hn, e, he, a, ha, k, hk, xt, hxt, x, hx, rfl⟩ := h
      refine ⟨c, d, n, hc, hd, rfl, hn, fun c1 c2 n1 n2 i hi j hj => ?_⟩
      obtain ⟨d1, d2, d3⟩ := Mat.bin_col hd c1 c2
      obtain ⟨e1, e2, e3⟩ := Mat.bin_col' he (by omega) c2
      obtain ⟨a1, a2, a3⟩ := Mat.bin_same ha (by omega) (by omega)
      obtain ⟨k1, k2, k3⟩ := Mat.bin_same hk (by omega) (by omega)
      obtain ⟨t1, t2, t3⟩ := Mat.bin_same hxt (by omega) (by omega)
      obtain ⟨-, -, u1, u2, u3⟩ := Mat.rebind_ok hx
      simp only [hyperUpdate]
      rw [u3 i hi j hj]
      simp only [Mat.map]
      rw [t3 i (by omega) j (by omega), a3 i (by omega) j (by omega), e3 i (by omega) j (by omega), k3 i (by omega) j (by omega),
        d3 i hi j hj]
  total s c d n p1 p2 hc c1 c2 hd hn n1 n2 hF := by
    obtain ⟨d1, d2, d3⟩ := Mat.bin_col hd c1 c2
    obtain ⟨e, he⟩ := Mat.bin_col_total' (fun c n : V => s.dt • c + s.sigma • n) (a := c) (b := n) (by omega) c2
    obtain ⟨e1, e2, e3⟩ := Mat.bin_col' he (by omega) c2
    obtain ⟨a, ha⟩ := Mat.bin_same_total (fun x e : V => x + S.tangent x e) (a := s.x) (b := e) (by omega) (by omega)
    obtain ⟨a1, a2, a3⟩ := Mat.bin_same ha (by omega) (by omega)
    obtain ⟨k, hk⟩ := Mat.bin_same_total (fun x d : V => S.noiseConstr s.dt s.sigma x d) (a := s.x) (b := d) (by omega) (by omega)
    obtain ⟨k1, k2, k3⟩ := Mat.bin_same hk (by omega) (by omega)
    obtain ⟨xt, hxt⟩ := Mat.bin_same_total (fun a k : V => a - k) (a := a) (b := k) (by omega) (by omega)
    obtain ⟨t1, t2, t3⟩ := Mat.bin_same hxt (by omega) (by omega)
    obtain ⟨x, hx⟩ := Mat.rebind_of (a := s.x) (b := xt.map S.proj) (by simp only [Mat.map]; omega) (by simp only [Mat.map]; omega)
    unfold hyperMove
    rw [hc]
    simp only [hc] at hn
    simp only [hd, hn, he, ha, hk, hxt, hx, bind, Except.bind, pure, Except.pure]
    exact ⟨_, rfl⟩
  raises s c hc h := by
    unfold hyperMove
    rw [hc]
    simp only [h, bind, Except.bind]

/-- What a step with all runs active does. -/
theorem fullStep_facts {env : Env K V} {F : K → K → K → V → V → V → Except Err V} {move : St K V → Except Err (St K V)}
    (hF : FullMove env F move) {r : List (K × Flt K × V) → V} (hr : env.cons = .mean r) (hn : NoiseOK env) (hp : PermOK env)
    {p : V → V} (hpm : PostMap env p) {s s' : St K V} (hw : WF s) (hall : s.active.length = s.M)
    (h : step env (consThen env move) s = .ok s') :
    ∃ d n : Mat V, (d.rows = s.M ∧ d.cols = s.N ∧ n.rows = s.M ∧ n.cols = s.N) ∧
      (∃ q : St K V, env.noise q = .ok n ∧ q.drift = some d ∧ q.draws = s.draws ∧ q.dt = s.dt) ∧
      ∀ i < s.M, ∀ j < s.N,
        d.get i j = s.x.get i j - r (sampleOf env { s with cIdx := s'.cIdx } i) ∧
        ∃ y, F s.lamda s.dt s.sigma (s.x.get i j) (r (sampleOf env { s with cIdx := s'.cIdx } i)) (n.get i j) = .ok y ∧
          s'.x.get i j = p y := by
  have f := step_frame (consThen_frame hF.ok) h
  obtain ⟨v, hv, hs⟩ := step_split.1 h
  obtain ⟨c, hcc, hmv⟩ := consThen_split.1 hv
  have hix := preStep_idx env hp hw
  have p1 := preStep_frame env s
  have pact : (preStep env s).active = s.active := by rw [p1]
  have cf := computeConsensus_frame hcc
  obtain ⟨cm, hcm, cm1, cm2, cm3⟩ := computeConsensus_mean hr (by rw [pact]; exact hix.cRows) hcc
  have cx : c.x = s.x := by rw [cf]; simp only; rw [p1]
  have cdt : c.dt = s.dt := by rw [cf]; simp only; rw [p1]
  have clam : c.lamda = s.lamda := by rw [cf]; simp only; rw [p1]
  have csig : c.sigma = s.sigma := by rw [cf]; simp only; rw [p1]
  have cdr : c.draws = s.draws := by rw [cf]; simp only; rw [p1]
  obtain ⟨cm', d, n, hc', hd, -, hnn, hent⟩ := hF.drift _ _ hmv
  rw [hcm] at hc'
  injection hc' with hc'
  subst hc'
  have xr := hw.xr
  have xc := hw.xc
  rw [pact] at cm1 cm3
  obtain ⟨d1, d2, d3⟩ := Mat.bin_col hd (by rw [cx]; omega) cm2
  obtain ⟨n', hn', n1, n2⟩ := hn { c with drift := some d } d rfl
  rw [hnn] at hn'
  injection hn' with hn'
  subst hn'
  rw [cx] at d1 d2
  have key := hent (by rw [cx]; omega) cm2 (by rw [cx]; omega) (by rw [cx]; omega)
  have hsamp : ∀ i, sampleOf env (preStep env s) i = sampleOf env { s with cIdx := s'.cIdx } i := by
    intro i
    have e1 : s'.cIdx = (preStep env s).cIdx := f.cIdx
    unfold sampleOf
    rw [e1, p1]
  refine ⟨d, n, ⟨by omega, by omega, by omega, by omega⟩, ⟨{ c with drift := some d }, hnn, rfl, cdr, cdt⟩, fun i hi j hj => ?_⟩
  have pf := postStep_facts hs
  have hx := pf.post
  rw [hpm v] at hx
  injection hx with hx
  have ec := cm3 i (by omega)
  rw [hsamp] at ec
  constructor
  · rw [d3 i (by rw [cx]; omega) j (by rw [cx]; omega), cx, ec]
  · refine ⟨v.x.get i j, ?_, by rw [← hx]; rfl⟩
    have := key i (by rw [cx]; omega) j (by rw [cx]; omega)
    rw [cx, clam, cdt, csig, ec] at this
    exact this

/-- The step raises if more than one but not all runs are active. -/
theorem fullStep_raises {env : Env K V} {F : K → K → K → V → V → V → Except Err V} {move : St K V → Except Err (St K V)}
    (hF : FullMove env F move) {r : List (K × Flt K × V) → V} (hr : env.cons = .mean r) (hp : PermOK env)
    {s : St K V} (hw : WF s) (h1 : 1 < s.active.length) (h2 : s.active.length < s.M) :
    step env (consThen env move) s = .error .value := by
  have hix := preStep_idx env hp hw
  have p1 := preStep_frame env s
  have pact : (preStep env s).active = s.active := by rw [p1]
  have px : (preStep env s).x = s.x := by rw [p1]
  have pe : (preStep env s).energy = s.energy := by rw [p1]
  by_cases hne : NonEmpty env s
  swap
  · unfold NonEmpty at hne
    push Not at hne
    obtain ⟨n1, n2⟩ := hne
    have n3 := n2 (by intro h0; rw [h0] at h1; simp at h1)
    exact step_empty hp hw n1 (.inr n3)
  obtain ⟨c, hc⟩ := computeConsensus_total (env := env) (s := preStep env s) hne.pre
    (by rw [px, hw.xr, hw.xc]; exact hix.cIn) (by rw [pe, hw.er, hw.ec]; exact hix.cIn)
    (by rw [pact]; exact hix.cRows) (by rw [preStep_batchSize]; exact hix.cCols)
  have cf := computeConsensus_frame hc
  obtain ⟨cm, hcm, cm1, cm2, -⟩ := computeConsensus_mean hr (by rw [pact]; exact hix.cRows) hc
  have cx : c.x = s.x := by rw [cf]; exact px
  have xr := hw.xr
  rw [pact] at cm1
  have hb : Mat.bin (fun a b : V => a - b) c.x cm = .error .value := by
    unfold Mat.bin
    have : Mat.bdim c.x.rows cm.rows = none := by
      unfold Mat.bdim
      rw [cx, if_neg (by omega), if_neg (by omega), if_neg (by omega)]
    rw [this]
  have hm := hF.raises c cm hcm hb
  simp only [step, consThen, hc, hm, bind, Except.bind]

/-- A step with all runs active does not raise if the particle update does not. -/
theorem fullStep_total {env : Env K V} {F : K → K → K → V → V → V → Except Err V} {move : St K V → Except Err (St K V)}
    (hF : FullMove env F move) {r : List (K × Flt K × V) → V} (hr : env.cons = .mean r) (hn : NoiseOK env) (hp : PermOK env)
    (hpost : ∀ s, ∃ x', env.post s = .ok x' ∧ x'.rows = s.x.rows ∧ x'.cols = s.x.cols)
    {s : St K V} (hw : WF s) (hM : 0 < s.M) (hall : s.active.length = s.M) (hsi : s.saveInt ≠ 0) (hne : NonEmpty env s)
    (hu : ∀ x c n, ∃ y, F s.lamda s.dt s.sigma x c n = .ok y) :
    ∃ s', step env (consThen env move) s = .ok s' := by
  refine step_total_of hF.ok ⟨r, hr⟩ hpost hp hw hsi hne fun c cm _ hm => ?_
  have xr := hw.xr
  have xc := hw.xc
  have e1 := hm.x
  have e2 := hm.crows
  have hN := hw.pos
  obtain ⟨q1, q2, q3⟩ := hm.par
  obtain ⟨d, hd⟩ := Mat.bin_col_total (fun a b : V => a - b) (a := c.x) (b := cm) (by rw [e1]; omega) hm.ccols
  obtain ⟨d1, d2, -⟩ := Mat.bin_col hd (by rw [e1]; omega) hm.ccols
  obtain ⟨n, hnn, n1, n2⟩ := hn { c with drift := some d } d rfl
  exact hF.total c cm d n (by rw [e1]; omega) (by rw [e1]; omega) hm.cons (by rw [e1]; omega) hm.ccols hd hnn (by omega) (by omega)
    (fun i _ j _ => by rw [q1, q2, q3]; exact hu _ _ _)

end Verif
