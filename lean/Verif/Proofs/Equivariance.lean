import Verif.Spec.Equivariance
import Verif.Proofs.Run
import Verif.Proofs.Hull
import Verif.Proofs.Rng
import Verif.Model.Noise
import Verif.Model.Post

/-! Lemmas for C25: executions related by a map of the space. -/

set_option linter.unusedSectionVars false

namespace Verif

theorem ExRel.bind {α β α' β' : Type} {R : α → β → Prop} {S : α' → β' → Prop} {a : Except Err α} {b : Except Err β} {f : α → Except Err α'} {g : β → Except Err β'}
    (h : ExRel R a b) (hf : ∀ x y, a = .ok x → R x y → ExRel S (f x) (g y)) : ExRel S (a >>= f) (b >>= g) := by
  cases a with
  | error e =>
    cases b with
    | error e' => exact h
    | ok y => exact h.elim
  | ok x =>
    cases b with
    | error e' => exact h.elim
    | ok y => exact hf x y rfl h

theorem ExRel.rfl' {α : Type} {R : α → α → Prop} (hR : ∀ a, R a a) (a : Except Err α) : ExRel R a a := by
  cases a with
  | error e => rfl
  | ok x => exact hR x

theorem ExRel.mono {α β : Type} {R S : α → β → Prop} {a : Except Err α} {b : Except Err β} (h : ExRel R a b) (hRS : ∀ x y, R x y → S x y) : ExRel S a b := by
  cases a with
  | error e =>
    cases b with
    | error e' => exact h
    | ok y => exact h.elim
  | ok x =>
    cases b with
    | error e' => exact h.elim
    | ok y => exact hRS x y h

theorem ExRel.eq {α : Type} {a b : Except Err α} (h : a = b) : ExRel Eq a b := by
  subst h
  exact ExRel.rfl' (fun _ => rfl) a

namespace Mat

variable {α β γ α' β' γ' : Type}

theorem gather_rel (φ : α → β) (a : Mat α) (ix : Idx) : ExRel (fun u v => v = u.map φ) (a.gather ix) ((a.map φ).gather ix) := by
  unfold gather
  by_cases hb : ix.InBounds a.rows a.cols
  · rw [if_pos hb, if_pos (show ix.InBounds (a.map φ).rows (a.map φ).cols from hb)]
    rfl
  · rw [if_neg hb, if_neg (show ¬ ix.InBounds (a.map φ).rows (a.map φ).cols from hb)]
    rfl

theorem bin_rel {f : α → β → γ} {f' : α' → β' → γ'} {φ : α → α'} {ψ : β → β'} {h : γ → γ'} (hf : ∀ a b, f' (φ a) (ψ b) = h (f a b)) (a : Mat α) (b : Mat β) :
    ExRel (fun u v => v = u.map h) (bin f a b) (bin f' (a.map φ) (b.map ψ)) := by
  unfold bin
  simp only [Mat.map]
  split
  · simp only [ExRel, hf]
  · rfl

theorem bto_rel (φ : α → β) (r c : ℕ) (a : Mat α) : ExRel (fun u v => v = u.map φ) (bto r c a) (bto r c (a.map φ)) := by
  unfold bto
  by_cases hb : (a.rows = r ∨ a.rows = 1) ∧ (a.cols = c ∨ a.cols = 1)
  · rw [if_pos hb, if_pos (show ((a.map φ).rows = r ∨ (a.map φ).rows = 1) ∧ ((a.map φ).cols = c ∨ (a.map φ).cols = 1) from hb)]
    rfl
  · rw [if_neg hb, if_neg (show ¬ (((a.map φ).rows = r ∨ (a.map φ).rows = 1) ∧ ((a.map φ).cols = c ∨ (a.map φ).cols = 1)) from hb)]
    rfl

theorem scatter_rel (φ : α → β) (a v : Mat α) (ix : Idx) : ExRel (fun u w => w = u.map φ) (a.scatter ix v) ((a.map φ).scatter ix (v.map φ)) := by
  unfold scatter
  by_cases hb : ix.InBounds a.rows a.cols
  · have hb' : ix.InBounds (a.map φ).rows (a.map φ).cols := hb
    rw [if_pos hb, if_pos hb']
    have := bto_rel φ ix.rows ix.cols v
    cases h1 : bto ix.rows ix.cols v with
    | error e =>
      cases h2 : bto ix.rows ix.cols (v.map φ) with
      | error e' => rw [h1, h2] at this; exact this
      | ok w => rw [h1, h2] at this; exact this.elim
    | ok u =>
      cases h2 : bto ix.rows ix.cols (v.map φ) with
      | error e' => rw [h1, h2] at this; exact this.elim
      | ok w =>
        rw [h1, h2] at this
        simp only [ExRel] at this ⊢
        subst this
        unfold Mat.map
        simp only
        congr 1
        funext m n
        cases ix.lastPos m n <;> rfl
  · have hb' : ¬ ix.InBounds (a.map φ).rows (a.map φ).cols := hb
    rw [if_neg hb, if_neg hb']
    rfl

theorem scatterAdd_rel [Add α] {φ ψ : α → α} (h : ∀ v u, φ (v + u) = φ v + ψ u) (a u : Mat α) (ix : Idx) :
    ExRel (fun p q => q = p.map φ) (a.scatterAdd ix u) ((a.map φ).scatterAdd ix (u.map ψ)) := by
  unfold scatterAdd
  have hg := gather_rel φ a ix
  cases h1 : a.gather ix with
  | error e =>
    cases h2 : (a.map φ).gather ix with
    | error e' => rw [h1, h2] at hg; exact hg
    | ok w => rw [h1, h2] at hg; exact hg.elim
  | ok g =>
    cases h2 : (a.map φ).gather ix with
    | error e' => rw [h1, h2] at hg; exact hg.elim
    | ok g' =>
      rw [h1, h2] at hg
      simp only [ExRel] at hg
      subst hg
      simp only
      have hb := bto_rel ψ g.rows g.cols u
      have e1 : (g.map φ).rows = g.rows := rfl
      have e2 : (g.map φ).cols = g.cols := rfl
      rw [e1, e2]
      cases h3 : bto g.rows g.cols u with
      | error e =>
        cases h4 : bto g.rows g.cols (u.map ψ) with
        | error e' => rw [h3, h4] at hb; exact hb
        | ok w => rw [h3, h4] at hb; exact hb.elim
      | ok v =>
        cases h4 : bto g.rows g.cols (u.map ψ) with
        | error e' => rw [h3, h4] at hb; exact hb.elim
        | ok w =>
          rw [h3, h4] at hb
          simp only [ExRel] at hb
          subst hb
          simp only
          have : (⟨g.rows, g.cols, fun i j => (g.map φ).get i j + (v.map ψ).get i j⟩ : Mat α) = Mat.map φ ⟨g.rows, g.cols, fun i j => g.get i j + v.get i j⟩ := by
            unfold Mat.map
            simp only [h]
          rw [this]
          exact scatter_rel φ a _ ix

end Mat

variable {K V : Type} [Zero K] [One K] [Neg K] [Add K] [Sub K] [Mul K] [Inv K] [Div K] [NatCast K] [Pow K ℕ] [LinearOrder K] [Add V] [Sub V] [SMul K V]

/-- The state with positions mapped by `φ`, differences by `ψ`, norms by `κ`, and given ghost and extra data. -/
def imageOf (φ ψ : V → V) (κ : Flt K → Flt K) (L : List (Site × ℕ × V)) (A B : Mat V) (s : St K V) : St K V :=
  { s with
    x := s.x.map φ, xOld := s.xOld.map (Mat.map φ), cons := s.cons.map (Mat.map φ), drift := s.drift.map (Mat.map ψ)
    bestP := fun m => φ (s.bestP m), bestCurP := fun m => φ (s.bestCurP m), updDiff := fun m => κ (s.updDiff m)
    hist := fun tr => (s.hist tr).map (Entry.image φ ψ κ), terms := s.terms.map (Term.image κ), log := L, aux1 := A, aux2 := B }

theorem image_iff {φ ψ : V → V} {κ : Flt K → Flt K} {s t : St K V} : Image φ ψ κ s t ↔ ∃ L A B, t = imageOf φ ψ κ L A B s := by
  constructor
  · rintro ⟨h1, h2, h3, h4, h5, h6, h7, ⟨h8, h9⟩, h10, h11, ⟨a1, a2, a3, a4, a5, a6⟩, ⟨b1, b2, b3, b4⟩, ⟨c1, c2, c3⟩, ⟨d1, d2, d3, d4, d5, d6, d7, d8⟩, ⟨e1, e2, e3⟩⟩
    refine ⟨t.log, t.aux1, t.aux2, ?_⟩
    have f1 : t.bestP = fun m => φ (s.bestP m) := funext fun m => (h5 m).1
    have f2 : t.bestE = s.bestE := funext fun m => (h5 m).2
    have f3 : t.bestCurP = fun m => φ (s.bestCurP m) := funext fun m => (h6 m).1
    have f4 : t.bestCurE = s.bestCurE := funext fun m => (h6 m).2
    have f5 : t.updDiff = fun m => κ (s.updDiff m) := funext h10
    have f6 : t.hist = fun tr => (s.hist tr).map (Entry.image φ ψ κ) := funext h11
    cases t
    simp only at *
    subst_vars
    rfl
  · rintro ⟨L, A, B, rfl⟩
    exact ⟨rfl, rfl, rfl, rfl, fun _ => ⟨rfl, rfl⟩, fun _ => ⟨rfl, rfl⟩, rfl, ⟨rfl, rfl⟩, fun _ => rfl, fun _ => rfl, ⟨rfl, rfl, rfl, rfl, rfl, rfl⟩, ⟨rfl, rfl, rfl, rfl⟩,
      ⟨rfl, rfl, rfl⟩, ⟨rfl, rfl, rfl, rfl, rfl, rfl, rfl, rfl⟩, ⟨rfl, rfl, rfl⟩⟩

theorem Image.of_eq {φ ψ : V → V} {κ : Flt K → Flt K} {s t : St K V} (h : t = imageOf φ ψ κ t.log t.aux1 t.aux2 s) : Image φ ψ κ s t :=
  image_iff.2 ⟨_, _, _, h⟩

/-- A correction of the drifts that commutes with `ψ`: the Heaviside corrections do when their factor does (it does, being a multiplication with a number), custom
corrections when their result for the second state is the image of their result for the first. -/
def CorrSym (φ ψ : V → V) (κ : Flt K → Flt K) : Corr K V → Prop
  | .none => True
  | .heavi g => ∀ z v, g z (ψ v) = ψ (g z v)
  | .custom c => ∀ s t d, Image φ ψ κ s t → ExRel (fun u v => v = u.map ψ) (c s d) (c t (d.map ψ))

/-- What the surroundings of two dynamics have to satisfy so that the dynamics stay images of each other. -/
structure EnvSym (φ ψ : V → V) (κ : Flt K → Flt K) (env env' : Env K V) : Prop where
  sub : ∀ a b, φ a - φ b = ψ (a - b)
  add : ∀ v u, φ (v + u) = φ v + ψ u
  upd : ∀ (c s : K) (d n : V), ψ (c • d + s • n) = c • ψ d + s • ψ n
  f : ∀ v, env'.f (φ v) = env.f v
  cons : ∃ r r', env.cons = .mean r ∧ env'.cons = .mean r' ∧ ∀ l : List (K × Flt K × V), l ≠ [] → (∀ p ∈ l, ∃ v, p.2.1 = env.f v) →
    r' (l.map fun p => (p.1, p.2.1, φ p.2.2)) = φ (r l)
  noise : ∀ s t, Image φ ψ κ s t → ExRel (fun u v => v = u.map ψ) (env.noise s) (env'.noise t)
  corr : env'.corr = env.corr ∧ CorrSym φ ψ κ env.corr
  post : ∀ s t, Image φ ψ κ s t → ExRel (fun u v => v = u.map φ) (env.post s) (env'.post t)
  norm : ∀ l, env'.normDiff (l.map fun q => (φ q.1, φ q.2)) = κ (env.normDiff l)
  inf : κ .pinf = .pinf
  lt : ∀ u tol, Flt.lt (κ u) (κ tol) = Flt.lt u tol
  sqrtK : env'.sqrtK = env.sqrtK
  empty : env'.emptyRaises = env.emptyRaises
  perm : env'.perm = env.perm
  custom : ∀ i s t, Image φ ψ κ s t → env'.custom i t = env.custom i s
  sched : ∀ s t, Image φ ψ κ s t → env'.sched t = env.sched s

section
variable {φ ψ : V → V} {κ : Flt K → Flt K} {env env' : Env K V}

theorem preStep_image (h : env'.perm = env.perm) (L : List (Site × ℕ × V)) (A B : Mat V) (s : St K V) :
    preStep env' (imageOf φ ψ κ L A B s) = imageOf φ ψ κ L A B (preStep env s) := by
  have hr : ∀ q : St K V, refill env' (imageOf φ ψ κ L A B q) = imageOf φ ψ κ L A B (refill env q) := by
    intro q
    by_cases hc : q.indices.cols < q.batchSize
    · have hc' : (imageOf φ ψ κ L A B q).indices.cols < (imageOf φ ψ κ L A B q).batchSize := hc
      unfold refill
      rw [if_pos hc, if_pos hc']
      unfold freshIndices
      rw [h]
      rfl
    · have hc' : ¬ (imageOf φ ψ κ L A B q).indices.cols < (imageOf φ ψ κ L A B q).batchSize := hc
      unfold refill
      rw [if_neg hc, if_neg hc']
  unfold preStep setBatch
  by_cases hb : s.batched = true
  · have hb' : (imageOf φ ψ κ L A B s).batched = true := hb
    rw [if_pos hb, if_pos hb']
    unfold setBatchBatched
    have := hr { s with xOld := some s.x }
    have e : refill env' { imageOf φ ψ κ L A B s with xOld := some (imageOf φ ψ κ L A B s).x } = imageOf φ ψ κ L A B (refill env { s with xOld := some s.x }) := this
    rw [e]
    rfl
  · have hb' : ¬ (imageOf φ ψ κ L A B s).batched = true := hb
    rw [if_neg hb, if_neg hb']
    rfl

theorem map_map_mat {α β γ : Type} (g : β → γ) (f : α → β) (a : Mat α) : (a.map f).map g = a.map fun x => g (f x) := rfl

theorem map_id_mat {α : Type} (a : Mat α) : a.map (fun x => x) = a := rfl

theorem computeConsensus_image (h : EnvSym φ ψ κ env env') {s : St K V} (hc : 0 < s.cIdx.cols) {t : St K V} (ht : Image φ ψ κ s t) :
    ExRel (Image φ ψ κ) (computeConsensus env s) (computeConsensus env' t) := by
  obtain ⟨L, A, B, rfl⟩ := image_iff.1 ht
  obtain ⟨r, r', hr, hr', hrr⟩ := h.cons
  unfold computeConsensus
  refine ExRel.bind (Mat.gather_rel φ s.x s.cIdx) ?_
  rintro xb _ hxb rfl
  have hcols : xb.cols = s.cIdx.cols := by
    unfold Mat.gather at hxb
    split_ifs at hxb
    injection hxb with hxb
    rw [← hxb]
  refine ExRel.bind (R := fun _ _ => True) ?_ ?_
  · have e : emptyCheck env' (xb.map φ) = emptyCheck env xb := by simp only [emptyCheck, h.empty, Mat.map]
    rw [e]
    cases emptyCheck env xb <;> simp [ExRel]
  intro _ _ _ _
  have hf : (xb.map φ).map env'.f = xb.map env.f := by
    rw [map_map_mat]
    simp only [h.f]
  simp only [evalF, callF, hf]
  refine ExRel.bind (ExRel.eq rfl) ?_
  rintro w _ hw rfl
  refine ExRel.bind (R := fun u v => v = u.map fun p : K × Flt K × V => (p.1, p.2.1, φ p.2.2))
    (Mat.bin_rel (f := fun (p : K × Flt K) (v : V) => (p.1, p.2, v)) (f' := fun (p : K × Flt K) (v : V) => (p.1, p.2, v)) (h := fun p => (p.1, p.2.1, φ p.2.2))
      (φ := fun p : K × Flt K => p) (ψ := φ) (fun _ _ => rfl) w xb) ?_
  rintro wx _ hwx rfl
  refine ExRel.bind (ExRel.eq rfl) ?_
  rintro en _ hen rfl
  rw [hr, hr']
  have hrow : ∀ i, r' ((wx.map fun p : K × Flt K × V => (p.1, p.2.1, φ p.2.2)).row i) = φ (r (wx.row i)) := by
    intro i
    have e : (wx.map fun p : K × Flt K × V => (p.1, p.2.1, φ p.2.2)).row i = (wx.row i).map fun p => (p.1, p.2.1, φ p.2.2) := by
      simp [Mat.row, Mat.map]
    rw [e]
    obtain ⟨b1, b2, b3⟩ := Mat.bin_ok hw
    obtain ⟨c1, c2, c3⟩ := Mat.bin_ok hwx
    refine hrr _ ?_ ?_
    · intro h0
      have : (wx.row i).length = 0 := by rw [h0]; rfl
      have h0 : wx.cols = 0 := by simpa [Mat.row] using this
      have hp : 0 < xb.cols := hcols ▸ hc
      simp only [alphaActive, Mat.map] at b2
      rw [h0] at c2
      unfold Mat.bdim at b2 c2
      split_ifs at b2 c2 <;> simp at b2 c2 <;> omega
    · intro p hp
      simp only [Mat.row, List.mem_map] at hp
      obtain ⟨j, _, rfl⟩ := hp
      rw [c3, b3]
      exact ⟨_, rfl⟩
  have hap : (Cons.mean r').apply (wx.map fun p : K × Flt K × V => (p.1, p.2.1, φ p.2.2)) = ((Cons.mean r).apply wx).map φ := by
    simp only [Cons.apply, hrow]
    rfl
  rw [hap]
  exact Image.of_eq rfl

theorem correction_image (h : EnvSym φ ψ κ env env') {s t : St K V} (ht : Image φ ψ κ s t) (d : Mat V) :
    ExRel (fun p q => q.1 = p.1.map ψ ∧ Image φ ψ κ p.2 q.2) (correction env d s) (correction env' (d.map ψ) t) := by
  obtain ⟨hc, hs⟩ := h.corr
  unfold correction
  rw [hc]
  cases he : env.corr with
  | none => exact ⟨rfl, ht⟩
  | custom c =>
    rw [he] at hs
    refine ExRel.bind (hs s t d ht) ?_
    rintro d' _ _ rfl
    exact ⟨rfl, ht⟩
  | heavi g =>
    rw [he] at hs
    obtain ⟨L, A, B, rfl⟩ := image_iff.1 ht
    cases hcs : s.cons with
    | none =>
      have hc' : (imageOf φ ψ κ L A B s).cons = none := by simp [imageOf, hcs]
      simp only [hc']
      rfl
    | some c =>
      have hc' : (imageOf φ ψ κ L A B s).cons = some (c.map φ) := by simp [imageOf, hcs]
      have hf : (c.map φ).map env'.f = c.map env.f := by
        rw [map_map_mat]
        simp only [h.f]
      simp only [hc', callF, hf]
      refine ExRel.bind (ExRel.eq rfl) ?_
      rintro z _ _ rfl
      refine ExRel.bind (R := fun u v => v = u.map ψ) (Mat.bin_rel (f := fun v z => g z v) (f' := fun v z => g z v) (φ := ψ) (ψ := fun z => z) (h := ψ) (fun v z => hs z v) d z) ?_
      rintro d' _ _ rfl
      exact ⟨rfl, Image.of_eq rfl⟩

theorem cboMove_image (h : EnvSym φ ψ κ env env') {s t : St K V} (ht : Image φ ψ κ s t) : ExRel (Image φ ψ κ) (cboMove env s) (cboMove env' t) := by
  obtain ⟨L, A, B, rfl⟩ := image_iff.1 ht
  unfold cboMove
  cases hc : s.cons with
  | none =>
    have hc' : (imageOf φ ψ κ L A B s).cons = none := by simp [imageOf, hc]
    simp only [hc']
    rfl
  | some c =>
    have hc' : (imageOf φ ψ κ L A B s).cons = some (c.map φ) := by simp [imageOf, hc]
    simp only [hc']
    refine ExRel.bind (Mat.gather_rel φ s.x s.pIdx) ?_
    rintro xp _ hxp rfl
    refine ExRel.bind (Mat.bin_rel (f := fun a b : V => a - b) (f' := fun a b : V => a - b) (φ := φ) (ψ := φ) (h := ψ) h.sub xp c) ?_
    rintro d _ hd rfl
    refine ExRel.bind (correction_image h ht d) ?_
    rintro ⟨d, s₁⟩ ⟨d', t₁⟩ - ⟨rfl, ht₁⟩
    obtain ⟨L, A, B, rfl⟩ := image_iff.1 ht₁
    have hi : Image φ ψ κ { s₁ with drift := some d } { imageOf φ ψ κ L A B s₁ with drift := some (d.map ψ) } := Image.of_eq rfl
    refine ExRel.bind (h.noise _ _ hi) ?_
    rintro n _ hn rfl
    refine ExRel.bind (Mat.bin_rel (f := cboUpdate s₁.lamda s₁.dt s₁.sigma) (f' := cboUpdate s₁.lamda s₁.dt s₁.sigma) (φ := ψ) (ψ := ψ) (h := ψ)
      (fun a b => (h.upd _ _ a b).symm) d n) ?_
    rintro u _ hu rfl
    refine ExRel.bind (Mat.scatterAdd_rel h.add s₁.x u s₁.pIdx) ?_
    rintro x _ hx rfl
    exact Image.of_eq rfl

theorem updateDiff_image (h : EnvSym φ ψ κ env env') {s t : St K V} (ht : Image φ ψ κ s t) : ExRel (Image φ ψ κ) (updateDiff env s) (updateDiff env' t) := by
  obtain ⟨L, A, B, rfl⟩ := image_iff.1 ht
  unfold updateDiff
  cases hc : s.xOld with
  | none =>
    have hc' : (imageOf φ ψ κ L A B s).xOld = none := by simp [imageOf, hc]
    simp only [hc']
    exact ht
  | some o =>
    have hc' : (imageOf φ ψ κ L A B s).xOld = some (o.map φ) := by simp [imageOf, hc]
    simp only [hc']
    refine ExRel.bind (Mat.bin_rel (f := fun a b : V => (a, b)) (f' := fun a b : V => (a, b)) (φ := φ) (ψ := φ) (h := fun q => (φ q.1, φ q.2)) (fun _ _ => rfl) s.x o) ?_
    rintro p _ hp rfl
    have e : ∀ m, env'.normDiff ((p.map fun q => (φ q.1, φ q.2)).row m) = κ (env.normDiff (p.row m)) := by
      intro m
      rw [← h.norm]
      simp [Mat.row, Mat.map, Function.comp_def]
    simp only [e]
    exact Image.of_eq rfl

theorem updateBestCur_image {s t : St K V} (ht : Image φ ψ κ s t) : ExRel (Image φ ψ κ) (updateBestCur s) (updateBestCur t) := by
  obtain ⟨L, A, B, rfl⟩ := image_iff.1 ht
  unfold updateBestCur
  by_cases hc : s.energy.cols = 0
  · rw [if_pos hc, if_pos (show (imageOf φ ψ κ L A B s).energy.cols = 0 from hc)]
    rfl
  · rw [if_neg hc, if_neg (show ¬ (imageOf φ ψ κ L A B s).energy.cols = 0 from hc)]
    have e : (imageOf φ ψ κ L A B s).xOld.getD (imageOf φ ψ κ L A B s).x = (s.xOld.getD s.x).map φ := by
      simp only [imageOf]
      cases s.xOld <;> rfl
    simp only [e]
    exact Image.of_eq rfl

theorem updateBest_image {s t : St K V} (ht : Image φ ψ κ s t) : Image φ ψ κ (updateBest s) (updateBest t) := by
  obtain ⟨L, A, B, rfl⟩ := image_iff.1 ht
  refine ⟨rfl, rfl, rfl, rfl, fun m => ⟨?_, rfl⟩, fun _ => ⟨rfl, rfl⟩, rfl, ⟨rfl, rfl⟩, fun _ => rfl, fun _ => rfl, ⟨rfl, rfl, rfl, rfl, rfl, rfl⟩, ⟨rfl, rfl, rfl, rfl⟩,
      ⟨rfl, rfl, rfl⟩, ⟨rfl, rfl, rfl, rfl, rfl, rfl, rfl, rfl⟩, ⟨rfl, rfl, rfl⟩⟩
  by_cases hc : Flt.gt (s.bestE m) (s.bestCurE m) = true
  · simp [updateBest, imageOf, hc]
  · simp [updateBest, imageOf, hc]

theorem trackEntry_image {s t : St K V} (ht : Image φ ψ κ s t) (tr : Track) : trackEntry t tr = (trackEntry s tr).map (Entry.image φ ψ κ) := by
  obtain ⟨L, A, B, rfl⟩ := image_iff.1 ht
  cases tr <;> rfl

theorem applyTracks_image {s t : St K V} (ht : Image φ ψ κ s t) : ∀ (l : List Track) (hs : Track → List (Entry K V)),
    applyTracks t l (fun tr => (hs tr).map (Entry.image φ ψ κ)) = fun tr => (applyTracks s l hs tr).map (Entry.image φ ψ κ)
  | [], _ => rfl
  | tr :: l, hs => by
    have ih := applyTracks_image ht l (fun t' => if t' = tr then hs tr ++ trackEntry s tr else hs t')
    unfold applyTracks at ih ⊢
    simp only [List.foldl_cons]
    rw [← ih]
    congr 1
    funext t'
    split_ifs
    · rw [trackEntry_image ht, List.map_append]
    · rfl

theorem track_image {s t : St K V} (ht : Image φ ψ κ s t) : ExRel (Image φ ψ κ) (track s) (track t) := by
  have ha := applyTracks_image ht s.tracks s.hist
  obtain ⟨L, A, B, rfl⟩ := image_iff.1 ht
  unfold track
  by_cases h0 : s.saveInt = 0
  · rw [if_pos h0, if_pos (show (imageOf φ ψ κ L A B s).saveInt = 0 from h0)]
    rfl
  · rw [if_neg h0, if_neg (show ¬ (imageOf φ ψ κ L A B s).saveInt = 0 from h0)]
    by_cases h1 : s.it % s.saveInt = 0
    · rw [if_pos h1, if_pos (show (imageOf φ ψ κ L A B s).it % (imageOf φ ψ κ L A B s).saveInt = 0 from h1)]
      have ha' : applyTracks (imageOf φ ψ κ L A B s) (imageOf φ ψ κ L A B s).tracks (imageOf φ ψ κ L A B s).hist = fun tr => (applyTracks s s.tracks s.hist tr).map (Entry.image φ ψ κ) := ha
      rw [ha']
      exact Image.of_eq rfl
    · rw [if_neg h1, if_neg (show ¬ (imageOf φ ψ κ L A B s).it % (imageOf φ ψ κ L A B s).saveInt = 0 from h1)]
      exact ht

theorem postStep_image (h : EnvSym φ ψ κ env env') {s t : St K V} (ht : Image φ ψ κ s t) : ExRel (Image φ ψ κ) (postStep env s) (postStep env' t) := by
  unfold postStep
  refine ExRel.bind (h.post _ _ ht) ?_
  rintro x _ hx rfl
  have h1 : Image φ ψ κ { s with x := x } { t with x := x.map φ } := by
    obtain ⟨L, A, B, rfl⟩ := image_iff.1 ht
    exact Image.of_eq rfl
  refine ExRel.bind (updateDiff_image h h1) ?_
  intro s2 t2 _ h2
  refine ExRel.bind (updateBestCur_image h2) ?_
  intro s3 t3 _ h3
  refine ExRel.bind (track_image (updateBest_image h3)) ?_
  intro s4 t4 _ h4
  obtain ⟨L, A, B, rfl⟩ := image_iff.1 h4
  exact Image.of_eq rfl

theorem step_imageOf (h : EnvSym φ ψ κ env env') (hp : PermOK env) {s t : St K V} (hw : WF s) (hb : 0 < s.batchSize) (ht : Image φ ψ κ s t) :
    ExRel (Image φ ψ κ) (step env (cboInner env) s) (step env' (cboInner env') t) := by
  unfold step cboInner
  have hpre : Image φ ψ κ (preStep env s) (preStep env' t) := by
    obtain ⟨L, A, B, rfl⟩ := image_iff.1 ht
    exact image_iff.2 ⟨L, A, B, preStep_image h.perm L A B s⟩
  refine ExRel.bind ?_ fun s1 t1 _ h1 => postStep_image h h1
  refine ExRel.bind (computeConsensus_image h ?_ hpre) fun s1 t1 _ h1 => cboMove_image h h1
  rw [(preStep_idx env hp hw).cCols]
  exact hb

theorem evalTerm_image (h : EnvSym φ ψ κ env env') (tm : Term K) {s t : St K V} (ht : Image φ ψ κ s t) :
    ExRel (fun p q => q.1 = p.1 ∧ q.2.1 = p.2.1.image κ ∧ Image φ ψ κ p.2.2 q.2.2) (evalTerm env tm s) (evalTerm env' (tm.image κ) t) := by
  have ht0 := ht
  obtain ⟨L, A, B, rfl⟩ := image_iff.1 ht
  cases tm with
  | energyTol tol => exact ⟨rfl, rfl, ht⟩
  | diffTol tol =>
    refine ⟨?_, rfl, ht⟩
    funext m
    exact h.lt _ _
  | maxEval n => exact ⟨rfl, rfl, ht⟩
  | maxIt n => cases n <;> exact ⟨rfl, rfl, ht⟩
  | maxTime T => exact ⟨rfl, rfl, ht⟩
  | custom i => exact ⟨h.custom i _ _ ht, rfl, ht⟩
  | energyStag p th l =>
    simp only [evalTerm, Term.image]
    unfold evalStag
    cases hc : s.cons with
    | none =>
      have hc' : (imageOf φ ψ κ L A B s).cons = none := by simp [imageOf, hc]
      simp only [hc']
      exact ⟨rfl, rfl, ht⟩
    | some c =>
      have hc' : (imageOf φ ψ κ L A B s).cons = some (c.map φ) := by simp [imageOf, hc]
      simp only [hc']
      by_cases h1 : ∀ m ∈ s.active, m < c.rows
      · rw [if_pos h1, if_pos (show ∀ m ∈ (imageOf φ ψ κ L A B s).active, m < (c.map φ).rows from h1)]
        by_cases h2 : p = 0
        · rw [if_pos h2, if_pos h2]
          rfl
        · rw [if_neg h2, if_neg h2]
          by_cases h3 : s.active.length = 1 ∧ c.cols = 1
          · rw [if_pos h3, if_pos (show (imageOf φ ψ κ L A B s).active.length = 1 ∧ (c.map φ).cols = 1 from h3)]
            have e : ∀ i j, env'.f ((c.map φ).get i j) = env.f (c.get i j) := fun i j => h.f _
            simp only [e, h.sqrtK]
            exact ⟨rfl, rfl, Image.of_eq rfl⟩
          · rw [if_neg h3, if_neg (show ¬ ((imageOf φ ψ κ L A B s).active.length = 1 ∧ (c.map φ).cols = 1) from h3)]
            rfl
      · rw [if_neg h1, if_neg (show ¬ ∀ m ∈ (imageOf φ ψ κ L A B s).active, m < (c.map φ).rows from h1)]
        rfl

theorem evalTerms_image (h : EnvSym φ ψ κ env env') : ∀ (l : List (Term K)) {s t : St K V} (_ : Image φ ψ κ s t),
    ExRel (fun p q => q.1 = p.1 ∧ q.2.1 = p.2.1.map (Term.image κ) ∧ Image φ ψ κ p.2.2 q.2.2) (evalTerms env l s) (evalTerms env' (l.map (Term.image κ)) t)
  | [], _, _, ht => ⟨rfl, rfl, ht⟩
  | tm :: l, s, t, ht => by
    simp only [evalTerms, List.map_cons]
    refine ExRel.bind (evalTerm_image h tm ht) ?_
    rintro ⟨b, tm', s'⟩ ⟨b', tm'', t'⟩ _ ⟨h1, h2, h3⟩
    simp only at h1 h2 h3
    subst h1 h2
    refine ExRel.bind (evalTerms_image h l h3) ?_
    rintro ⟨bs, l', s''⟩ ⟨bs', l'', t''⟩ _ ⟨g1, g2, g3⟩
    simp only at g1 g2 g3
    subst g1 g2
    exact ⟨rfl, rfl, g3⟩

theorem select_image (h : EnvSym φ ψ κ env env') {s t : St K V} (ht : Image φ ψ κ s t) : ExRel (Image φ ψ κ) (selectActive env s) (selectActive env' t) := by
  unfold selectActive
  rw [ht.runs.2.2]
  refine ExRel.bind (evalTerms_image h s.terms ht) ?_
  rintro ⟨bs, l', s''⟩ ⟨bs', l'', t''⟩ _ ⟨g1, g2, g3⟩
  simp only at g1 g2 g3
  subst g1 g2
  obtain ⟨L, A, B, rfl⟩ := image_iff.1 g3
  exact Image.of_eq rfl

theorem sched_image (h : EnvSym φ ψ κ env env') {s t : St K V} (ht : Image φ ψ κ s t) : ExRel (Image φ ψ κ) (schedUpdate env s) (schedUpdate env' t) := by
  unfold schedUpdate
  rw [h.sched _ _ ht]
  refine ExRel.bind (ExRel.eq rfl) ?_
  rintro p _ _ rfl
  obtain ⟨L, A, B, rfl⟩ := image_iff.1 ht
  exact Image.of_eq rfl

theorem initHistory_image {s t : St K V} (ht : Image φ ψ κ s t) (tr : List Track) (n : ℕ) : Image φ ψ κ (initHistory tr n s) (initHistory tr n t) := by
  obtain ⟨L, A, B, rfl⟩ := image_iff.1 ht
  refine Image.of_eq ?_
  have e : trackInit (imageOf φ ψ κ L A B s) = fun tr => (trackInit s tr).map (Entry.image φ ψ κ) := by
    funext tr
    cases tr <;> rfl
  unfold initHistory
  rw [e]
  rfl

theorem reset_image {s t : St K V} (ht : Image φ ψ κ s t) : Image φ ψ κ (reset s) (reset t) := by
  unfold reset
  apply initHistory_image
  obtain ⟨L, A, B, rfl⟩ := image_iff.1 ht
  exact Image.of_eq rfl

theorem exec_image (h : EnvSym φ ψ κ env env') (hp : PermOK env) (o : Op) {s t : St K V} (hw : WF s) (hb : 0 < s.batchSize) (ht : Image φ ψ κ s t) :
    ExRel (Image φ ψ κ) (exec env (cboInner env) o s) (exec env' (cboInner env') o t) := by
  cases o with
  | step => exact step_imageOf h hp hw hb ht
  | select => exact select_image h ht
  | sched => exact sched_image h ht
  | reset => exact reset_image ht

theorem init_image (h : EnvSym φ ψ κ env env') (a a' : Args K V)
    (ha : a' = { a with x0 := a.x0.map φ, terms := a.terms.map (Term.image κ), aux1 := a'.aux1, aux2 := a'.aux2 }) :
    ExRel (Image φ ψ κ) (init env a) (init env' a') := by
  unfold init
  have e0 : a'.x0 = a.x0.map φ := by rw [ha]
  have e1 : a'.terms = a.terms.map (Term.image κ) := by rw [ha]
  by_cases h0 : a.x0.cols = 0
  · rw [if_pos h0, if_pos (show a'.x0.cols = 0 by rw [e0]; exact h0)]
    rfl
  · rw [if_neg h0, if_neg (show ¬ a'.x0.cols = 0 by rw [e0]; exact h0)]
    have hbase : Image φ ψ κ (baseSt a) (baseSt a') := by
      rw [ha]
      refine Image.of_eq ?_
      simp only [baseSt, imageOf, h.inf]
      rfl
    have hchk : Image φ ψ κ (if a.checkF then checkFDims env (baseSt a) else baseSt a) (if a'.checkF then checkFDims env' (baseSt a') else baseSt a') := by
      have : a'.checkF = a.checkF := by rw [ha]
      rw [this]
      split_ifs
      · obtain ⟨L, A, B, e⟩ := image_iff.1 hbase
        rw [e]
        exact Image.of_eq rfl
      · exact hbase
    have e2 : a'.tracks = a.tracks := by rw [ha]
    have e3 : a'.saveInt = a.saveInt := by rw [ha]
    have e4 : a'.batchSize = a.batchSize := by rw [ha]
    have e5 : a'.batchPartial = a.batchPartial := by rw [ha]
    have e6 : a'.batchConcat = a.batchConcat := by rw [ha]
    have hh := initHistory_image hchk a.tracks a.saveInt
    obtain ⟨L, A, B, e⟩ := image_iff.1 hh
    rw [e2, e3, e]
    refine Image.of_eq ?_
    unfold initBatch freshIndices
    rw [e4, e5, e6, h.perm]
    rfl

/-- The constructor followed by any sequence of operations. -/
theorem execAll_image (h : EnvSym φ ψ κ env env') (hpost : PostOK env) (hp : PermOK env) : ∀ (l : List Op) {s t : St K V},
    WF s → 0 < s.batchSize → Image φ ψ κ s t → ExRel (Image φ ψ κ) (execAll env (cboInner env) l s) (execAll env' (cboInner env') l t)
  | [], _, _, _, _, ht => ht
  | o :: l, s, t, hw, hb, ht => by
    simp only [execAll]
    refine ExRel.bind (exec_image h hp o hw hb ht) ?_
    intro s1 t1 hs1 h1
    have hs1' : exec env (consThen env (cboMove env)) o s = .ok s1 := hs1
    have hbs : s1.batchSize = s.batchSize := (exec_bs (consThen_frame (cboMove_ok env)) hs1').1
    exact execAll_image h hpost hp l (exec_wf (cboMove_ok env) hpost hp hw hs1') (hbs ▸ hb) h1

theorem run_image (h : EnvSym φ ψ κ env env') (hpost : PostOK env) (hp : PermOK env) (a a' : Args K V)
    (ha : a' = { a with x0 := a.x0.map φ, terms := a.terms.map (Term.image κ), aux1 := a'.aux1, aux2 := a'.aux2 }) (hb : a.batchSize ≠ some 0) (l : List Op) :
    ExRel (Image φ ψ κ) (do let s ← init env a; execAll env (cboInner env) l s) (do let s ← init env' a'; execAll env' (cboInner env') l s) := by
  refine ExRel.bind (init_image h a a' ha) ?_
  intro s t hs ht
  exact execAll_image h hpost hp l (init_wf hp hs) (init_bs hb hs) ht

end

/-- Another post processing with the same result gives the same state. -/
theorem exec_swap_post {env : Env K V} {P : St K V → Except Err (Mat V)} {o : Op} {s s' : St K V} (h : exec env (cboInner env) o s = .ok s')
    (hP : o = .step → ∀ v, env.post v = .ok s'.x → P v = .ok s'.x) : exec { env with post := P } (cboInner { env with post := P }) o s = .ok s' := by
  cases o with
  | step =>
    simp only [exec, step, bind_ok] at h ⊢
    obtain ⟨v, hv, hp⟩ := h
    refine ⟨v, hv, ?_⟩
    have hx := (postStep_facts hp).post
    have hx' := hP rfl v hx
    unfold postStep at hp ⊢
    simp only [hx'] at *
    simp only [hx] at hp
    exact hp
  | select =>
    simp only [exec] at h ⊢
    exact (select_env_congr (env := { env with post := P }) (env' := env) rfl rfl rfl s).trans h
  | sched => exact h
  | reset => exact h

theorem execAll_swap_post {env : Env K V} {P : St K V → Except Err (Mat V)} : ∀ (ops : List Op) {s s' : St K V}, execAll env (cboInner env) ops s = .ok s' →
    (∀ l o, (l ++ [o]) <+: ops → ∀ q, execAll env (cboInner env) (l ++ [o]) s = .ok q → ∀ v, env.post v = .ok q.x → P v = .ok q.x) →
    execAll { env with post := P } (cboInner { env with post := P }) ops s = .ok s'
  | [], _, _, h, _ => h
  | o :: ops, s, s', h, hP => by
    simp only [execAll, bind_ok] at h ⊢
    obtain ⟨s1, h1, h2⟩ := h
    refine ⟨s1, exec_swap_post h1 fun _ => ?_, ?_⟩
    · refine hP [] o ⟨ops, rfl⟩ s1 ?_
      simp only [List.nil_append, execAll, bind_ok]
      exact ⟨s1, h1, rfl⟩
    · refine execAll_swap_post ops h2 ?_
      intro l o' hl q hq
      refine hP (o :: l) o' ?_ q ?_
      · obtain ⟨r, hr⟩ := hl
        exact ⟨r, by simp [← hr]⟩
      · simp only [List.cons_append, execAll, bind_ok]
        exact ⟨s1, h1, hq⟩

/-- Entries of the position array outside its shape never change. -/
theorem pad_const {env : Env K V} {p : V → V} (hpm : PostMap env p) (hp : PermOK env) {ops : List Op} {s s' : St K V} (hw : WF s)
    (h : execAll env (cboInner env) ops s = .ok s') {i j : ℕ} (hij : ¬ (i < s.M ∧ j < s.N)) (hfix : p (s.x.get i j) = s.x.get i j) :
    s'.x.get i j = s.x.get i j := by
  rw [cboInner_eq] at h
  refine (execAll_induct (cboMove_ok env) hpm.ok hp (P := fun q => q.M = s.M ∧ q.N = s.N ∧ q.x.get i j = s.x.get i j) ?_ ops s s' hw ⟨rfl, rfl, rfl⟩ h).2.2.2
  rintro o q q' hq ⟨h1, h2, h3⟩ he
  obtain ⟨-, e1, e2⟩ := exec_bs (consThen_frame (cboMove_ok env)) he
  refine ⟨by rw [e1, h1], by rw [e2, h2], ?_⟩
  cases o with
  | step =>
    have f := step_frame (consThen_frame (cboMove_ok env)) he
    have := step_unsel (cboMove_ok env) (cboMove_local env) hpm he i j ?_
    · rw [this, h3, hfix]
    · rintro ⟨k, hk, l, hl, r1, r2⟩
      rw [f.pIdx] at hk hl r1 r2
      obtain ⟨b1, b2⟩ := (preStep_idx env hp hq).pIn k hk l hl
      rw [r1, h1] at b1
      rw [r2, h2] at b2
      exact hij ⟨b1, b2⟩
  | select => rw [select_frame he]; exact h3
  | sched => rw [sched_frame he]; exact h3
  | reset =>
    simp only [exec] at he
    injection he with he
    subst he
    exact h3

/-- Initial segments of an execution that succeeds succeed. -/
theorem execAll_prefix {env : Env K V} {inner : St K V → Except Err (St K V)} : ∀ (l r : List Op) {s s' : St K V}, execAll env inner (l ++ r) s = .ok s' →
    ∃ q, execAll env inner l s = .ok q ∧ execAll env inner r q = .ok s'
  | [], _, s, _, h => ⟨s, rfl, h⟩
  | o :: l, r, s, s', h => by
    simp only [List.cons_append, execAll, bind_ok] at h
    obtain ⟨s1, h1, h2⟩ := h
    obtain ⟨q, hq, hr⟩ := execAll_prefix l r h2
    refine ⟨q, ?_, hr⟩
    simp only [execAll, bind_ok]
    exact ⟨s1, h1, hq⟩

section
variable {ι : Type} [Fintype ι]

theorem clip_scale (c T : ℝ) (hT : 0 ≤ T) (v : ι → ℝ) : clipVec (|c| * T) (c • v) = c • clipVec T v := by
  funext i
  simp only [clipVec, Pi.smul_apply, smul_eq_mul]
  rcases le_total 0 c with h | h
  · rw [abs_of_nonneg h, mul_min_of_nonneg _ _ h, mul_max_of_nonneg _ _ h]
    ring_nf
  · rw [abs_of_nonpos h]
    have e : ∀ x, c * x = -((-c) * x) := fun x => by ring
    have hc : 0 ≤ -c := by linarith
    rw [e (v i), e (min _ _), mul_min_of_nonneg _ _ hc, mul_max_of_nonneg _ _ hc]
    have hcT : 0 ≤ -c * T := mul_nonneg hc hT
    generalize -c * v i = y
    have : -c * -T = -(-c * T) := by ring
    rw [this]
    generalize -c * T = z at *
    rcases le_total y z with h1 | h1 <;> rcases le_total y (-z) with h2 | h2
    · rw [max_eq_left (by linarith), min_eq_right (by linarith), max_eq_right h2, min_eq_left (by linarith)]; ring
    · rw [max_eq_left (by linarith), min_eq_left (by linarith), max_eq_left h2, min_eq_left h1]
    · have : y = 0 := by linarith
      have : z = 0 := by linarith
      subst_vars; simp
    · rw [max_eq_right (by linarith), min_eq_left (by linarith), max_eq_left h2, min_eq_right h1]

theorem clip_fixed {T : ℝ} {v : ι → ℝ} (h : ∀ i, |clipVec T v i| < T) : clipVec T v = v := by
  funext i
  have := h i
  simp only [clipVec] at this ⊢
  rw [abs_lt] at this
  rcases le_total (max (v i) (-T)) T with h1 | h1
  · rw [min_eq_left h1] at this ⊢
    rcases le_total (v i) (-T) with h2 | h2
    · rw [max_eq_right h2] at this
      linarith [this.1]
    · rw [max_eq_left h2]
  · rw [min_eq_right h1] at this
    linarith [this.2]

theorem clip_inside {T : ℝ} {v : ι → ℝ} (h : ∀ i, |v i| < T) : clipVec T v = v := by
  funext i
  have := abs_lt.1 (h i)
  simp only [clipVec]
  rw [max_eq_left (by linarith [this.1]), min_eq_left (by linarith [this.2])]

/-- The weights of a sample of finite energies sum to one. -/
theorem coeff_sum {W : Type} (l : List (ℝ × Flt ℝ × W)) (hl : l ≠ []) (hf : ∀ p ∈ l, ∃ e, p.2.1 = .fin e) : (l.map fun p => coeff l p).sum = 1 := by
  have hpos : 0 < (l.map fun p => expWeight p.1 p.2.1).sum := by
    refine list_sum_pos l _ ?_ hl
    intro p hp
    obtain ⟨e, he⟩ := hf p hp
    rw [he]
    exact Real.exp_pos _
  have : (l.map fun p => coeff l p) = l.map fun p => (l.map fun p => expWeight p.1 p.2.1).sum⁻¹ * expWeight p.1 p.2.1 := by
    refine List.map_congr_left fun p hp => ?_
    obtain ⟨e, he⟩ := hf p hp
    have e1 : coeff l p = Real.exp (-p.1 * e - lseWeights l) := by simp only [coeff, he]
    have e2 : expWeight p.1 p.2.1 = Real.exp (-p.1 * e) := by simp only [he, expWeight]
    rw [e1, e2, Real.exp_sub, lseWeights, Real.exp_log hpos, div_eq_inv_mul]
  rw [this, List.sum_map_mul_left]
  exact inv_mul_cancel₀ hpos.ne'

theorem coeff_map {W W' : Type} (g : W → W') (l : List (ℝ × Flt ℝ × W)) (p : ℝ × Flt ℝ × W) :
    coeff (l.map fun p => (p.1, p.2.1, g p.2.2)) (p.1, p.2.1, g p.2.2) = coeff l p := by
  simp only [coeff, lseWeights, List.map_map, Function.comp_def]

theorem coeff_sum_smul (b : ι → ℝ) (l : List (ℝ × Flt ℝ × (ι → ℝ))) (hl : l ≠ []) (hf : ∀ p ∈ l, ∃ e, p.2.1 = .fin e) : (l.map fun p => coeff l p • b).sum = b := by
  have : (l.map fun p => coeff l p • b).sum = (l.map fun p => coeff l p).sum • b := by
    rw [List.sum_smul, List.map_map]
    rfl
  rw [this, coeff_sum l hl hf, one_smul]

theorem consDefault_shift (b : ι → ℝ) (l : List (ℝ × Flt ℝ × (ι → ℝ))) (hl : l ≠ []) (hf : ∀ p ∈ l, ∃ e, p.2.1 = .fin e) :
    consDefault (l.map fun p => (p.1, p.2.1, p.2.2 + b)) = consDefault l + b := by
  unfold consDefault
  rw [List.map_map]
  have e : ((fun p => coeff (l.map fun p => (p.1, p.2.1, p.2.2 + b)) p • p.2.2) ∘ fun p : ℝ × Flt ℝ × (ι → ℝ) => (p.1, p.2.1, p.2.2 + b)) =
      fun p => coeff l p • p.2.2 + coeff l p • b := by
    funext p
    simp only [Function.comp_apply]
    rw [coeff_map (fun v => v + b) l p, smul_add]
  rw [e, List.sum_map_add, coeff_sum_smul b l hl hf]

theorem consDefault_scale (c : ℝ) (l : List (ℝ × Flt ℝ × (ι → ℝ))) : consDefault (l.map fun p => (p.1, p.2.1, c • p.2.2)) = c • consDefault l := by
  unfold consDefault
  rw [List.map_map, List.smul_sum, List.map_map]
  congr 1
  refine List.map_congr_left fun p _ => ?_
  simp only [Function.comp_apply]
  rw [coeff_map (fun v => c • v) l p, smul_comm]

end

end Verif
