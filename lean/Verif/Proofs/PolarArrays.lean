import Verif.Spec.PolarArrays
import Verif.Proofs.Arrays

/-! The array operations of the polarised consensus compute the per-particle rule. Helper lemmas. -/

set_option linter.unusedSectionVars false

namespace Verif

variable {α β γ : Type} {ds : List ℕ}

/-- Array with three leading axes and the trailing axes `ds`. -/
structure Rep3 (ds : List ℕ) (a : Arr α) (n1 n2 n3 : ℕ) (g : ℕ → ℕ → ℕ → List ℕ → α) : Prop where
  shape : a.shape = n1 :: n2 :: n3 :: ds
  get : ∀ i < n1, ∀ j < n2, ∀ l < n3, ∀ K, InR ds K → a.get (i :: j :: l :: K) = g i j l K

theorem bin3 {a : Arr α} {b : Arr β} {f : α → β → γ} {a1 a2 a3 b1 b2 b3 r1 r2 r3 : ℕ} {g : ℕ → ℕ → ℕ → List ℕ → α} {h : ℕ → ℕ → ℕ → List ℕ → β}
    (ha : Rep3 ds a a1 a2 a3 g) (hb : Rep3 ds b b1 b2 b3 h) (h1 : Mat.bdim a1 b1 = some r1) (h2 : Mat.bdim a2 b2 = some r2) (h3 : Mat.bdim a3 b3 = some r3) :
    ∃ c, Arr.bin f a b = .ok c ∧ Rep3 ds c r1 r2 r3 fun i j l K =>
      f (g (Mat.bpos a1 i) (Mat.bpos a2 j) (Mat.bpos a3 l) K) (h (Mat.bpos b1 i) (Mat.bpos b2 j) (Mat.bpos b3 l) K) := by
  refine ⟨⟨r1 :: r2 :: r3 :: ds, fun I => f (a.get (Arr.bindex a.shape I)) (b.get (Arr.bindex b.shape I))⟩, ?_, rfl, ?_⟩
  · unfold Arr.bin
    have : Arr.bshape a.shape b.shape = some (r1 :: r2 :: r3 :: ds) := by
      rw [ha.shape, hb.shape, Arr.bshape_eq (by simp)]
      simp only [Arr.bdims, h1, h2, h3, Arr.bdims_self]
    rw [this]
  · intro i hi j hj l hl K hK
    simp only
    obtain ⟨p1, p2⟩ := bpos_bdim h1 hi
    obtain ⟨p3, p4⟩ := bpos_bdim h2 hj
    obtain ⟨p5, p6⟩ := bpos_bdim h3 hl
    have e : ∀ s1 s2 s3 : ℕ, Arr.bindex (s1 :: s2 :: s3 :: ds) (i :: j :: l :: K) = Mat.bpos s1 i :: Mat.bpos s2 j :: Mat.bpos s3 l :: K := by
      intro s1 s2 s3
      rw [Arr.bindex_len (by simp [hK.len])]
      simp only [List.zipWith_cons_cons, Arr.zipWith_bpos_self hK]
    rw [ha.shape, hb.shape, e, e, ha.get _ p1 _ p3 _ p5 _ hK, hb.get _ p2 _ p4 _ p6 _ hK]

theorem bin3_ones {a : Arr α} {b : Arr β} {f : α → β → γ} {a1 a2 a3 b1 b2 b3 r1 r2 r3 : ℕ} {g : ℕ → ℕ → ℕ → List ℕ → α} {h : ℕ → ℕ → ℕ → β}
    (ha : Rep3 ds a a1 a2 a3 g) (hb : b.shape = b1 :: b2 :: b3 :: List.replicate ds.length 1)
    (hbg : ∀ i < b1, ∀ j < b2, ∀ l < b3, b.get (i :: j :: l :: List.replicate ds.length 0) = h i j l)
    (h1 : Mat.bdim a1 b1 = some r1) (h2 : Mat.bdim a2 b2 = some r2) (h3 : Mat.bdim a3 b3 = some r3) :
    ∃ c, Arr.bin f a b = .ok c ∧ Rep3 ds c r1 r2 r3 fun i j l K =>
      f (g (Mat.bpos a1 i) (Mat.bpos a2 j) (Mat.bpos a3 l) K) (h (Mat.bpos b1 i) (Mat.bpos b2 j) (Mat.bpos b3 l)) := by
  refine ⟨⟨r1 :: r2 :: r3 :: ds, fun I => f (a.get (Arr.bindex a.shape I)) (b.get (Arr.bindex b.shape I))⟩, ?_, rfl, ?_⟩
  · unfold Arr.bin
    have : Arr.bshape a.shape b.shape = some (r1 :: r2 :: r3 :: ds) := by
      rw [ha.shape, hb, Arr.bshape_eq (by simp)]
      simp only [Arr.bdims, h1, h2, h3, Arr.bdims_ones]
    rw [this]
  · intro i hi j hj l hl K hK
    simp only
    obtain ⟨p1, p2⟩ := bpos_bdim h1 hi
    obtain ⟨p3, p4⟩ := bpos_bdim h2 hj
    obtain ⟨p5, p6⟩ := bpos_bdim h3 hl
    rw [ha.shape, hb, Arr.bindex_len (by simp [hK.len]), Arr.bindex_len (by simp [hK.len])]
    simp only [List.zipWith_cons_cons, Arr.zipWith_bpos_self hK]
    rw [Arr.zipWith_bpos_ones _ hK.len, ha.get _ p1 _ p3 _ p5 _ hK, hbg _ p2 _ p4 _ p6]

theorem bin3_scalar {a : Arr α} {b : Arr β} {f : α → β → γ} {b1 b2 b3 : ℕ} {h : ℕ → ℕ → ℕ → List ℕ → β}
    (ha : a.shape = []) (hb : Rep3 [] b b1 b2 b3 h) :
    ∃ c, Arr.bin f a b = .ok c ∧ Rep3 [] c b1 b2 b3 fun i j l K => f (a.get []) (h i j l K) := by
  refine ⟨⟨[b1, b2, b3], fun I => f (a.get (Arr.bindex a.shape I)) (b.get (Arr.bindex b.shape I))⟩, ?_, rfl, ?_⟩
  · unfold Arr.bin
    have : Arr.bshape a.shape b.shape = some [b1, b2, b3] := by
      rw [ha, hb.shape]
      simp [Arr.bshape, Arr.padTo, Arr.bdims, Mat.bdim_one_left]
    rw [this]
  · intro i hi j hj l hl K hK
    simp only
    cases K with
    | cons => exact hK.elim
    | nil =>
      rw [ha, hb.shape, Arr.bindex_self (s := [b1, b2, b3]) (I := [i, j, l]) ⟨hi, hj, hl, trivial⟩, hb.get i hi j hj l hl [] trivial]
      rfl

/-- The coordinates of a family of particles at a multi-index. -/
def atIdx (v : ℕ → ℕ → Fin ds.prod → ℝ) (i j : ℕ) (K : List ℕ) : ℝ := if h : Nd.ravel ds K < ds.prod then v i j ⟨_, h⟩ else 0

theorem atIdx_unravel (v : ℕ → ℕ → Fin ds.prod → ℝ) (i j : ℕ) (q : Fin ds.prod) : atIdx v i j (unravel ds q) = v i j q := by
  unfold atIdx
  simp only [ravel_unravel q.2]
  rw [dif_pos q.2]

theorem rep_at {a : Arr ℝ} {r c : ℕ} {v : ℕ → ℕ → Fin ds.prod → ℝ} (h : Rep ds a ⟨r, c, v⟩) {i j : ℕ} (hi : i < r) (hj : j < c) {K : List ℕ} (hK : InR ds K) :
    a.get (i :: j :: K) = atIdx v i j K := by
  have e := h.get i hi j hj ⟨_, ravel_lt hK⟩
  simp only [unravel_ravel hK] at e
  rw [e]
  unfold atIdx
  rw [dif_pos (ravel_lt hK)]

theorem newAxis1_rep {a : Arr ℝ} {r c : ℕ} {v : ℕ → ℕ → Fin ds.prod → ℝ} (h : Rep ds a ⟨r, c, v⟩) : Rep3 ds a.newAxis1 r 1 c fun i _ l K => atIdx v i l K := by
  refine ⟨by simp [Arr.newAxis1, h.shape], fun i hi j hj l hl K hK => ?_⟩
  simp only [Arr.newAxis1, List.take_succ_cons, List.take_zero, List.drop_succ_cons, List.drop_zero]
  exact rep_at h hi hl hK

theorem newAxis2_rep {a : Arr ℝ} {r c : ℕ} {v : ℕ → ℕ → Fin ds.prod → ℝ} (h : Rep ds a ⟨r, c, v⟩) : Rep3 ds a.newAxis2 r c 1 fun i j _ K => atIdx v i j K := by
  refine ⟨by simp [Arr.newAxis2, h.shape], fun i hi j hj l hl K hK => ?_⟩
  simp only [Arr.newAxis2, List.take_succ_cons, List.take_zero, List.drop_succ_cons, List.drop_zero]
  exact rep_at h hi hj hK

theorem newAxis1_rep2 {a : Arr α} {r c : ℕ} {e : ℕ → ℕ → α} (h : Rep2 a ⟨r, c, e⟩) : Rep3 [] a.newAxis1 r 1 c fun i _ l _ => e i l := by
  refine ⟨by simp [Arr.newAxis1, h.shape], fun i hi j hj l hl K hK => ?_⟩
  cases K with
  | cons => exact hK.elim
  | nil =>
    simp only [Arr.newAxis1, List.take_succ_cons, List.take_zero, List.drop_succ_cons, List.drop_zero]
    exact h.get i hi l hl

theorem expand1_rep3 {a : Arr α} {r : ℕ} {al : ℕ → α} (h : Rep2 a ⟨r, 1, fun i _ => al i⟩) : Rep3 [] (a.expand 1) r 1 1 fun i _ _ _ => al i := by
  refine ⟨by simp [Arr.expand, h.shape], fun i hi j hj l hl K hK => ?_⟩
  simp only [Arr.expand, h.shape, List.length_cons, List.length_nil, List.take_succ_cons, List.take_zero]
  exact h.get i hi j hj

/-- The differences `x[:,None,...] - x[:,:,None,...]`. -/
theorem diff_rep3 {a : Arr ℝ} {r c : ℕ} {v : ℕ → ℕ → Fin ds.prod → ℝ} (h : Rep ds a ⟨r, c, v⟩) :
    ∃ d, Arr.bin (fun a b => a - b) a.newAxis1 a.newAxis2 = .ok d ∧ Rep3 ds d r c c fun i j l K => atIdx v i l K - atIdx v i j K := by
  obtain ⟨d, hd, rd⟩ := bin3 (f := fun a b : ℝ => a - b) (newAxis1_rep h) (newAxis2_rep h) (Mat.bdim_self _) (Mat.bdim_one_left _) (Mat.bdim_one_right _)
  refine ⟨d, hd, rd.shape, fun i hi j hj l hl K hK => ?_⟩
  rw [rd.get i hi j hj l hl K hK, Mat.bpos_lt hi, Mat.bpos_lt hj, Mat.bpos_lt hl]

theorem negLog_gaussian {a : Arr ℝ} {r c : ℕ} {v : ℕ → ℕ → Fin ds.prod → ℝ} (kappa mx : ℝ) (h : Rep ds a ⟨r, c, v⟩) :
    ∃ n, ArrModel.negLog .gaussian kappa a = .ok n ∧ Rep3 [] n r c c fun i j l _ => Kernel.gaussian.negLog kappa mx (v i l) (v i j) := by
  obtain ⟨d, hd, rd⟩ := diff_rep3 h
  refine ⟨(d.map fun v => v ^ 2).sumFrom3.map fun v => .fin (1 / (2 * kappa ^ 2) * v), ?_, ?_, ?_⟩
  · simp only [ArrModel.negLog, hd, bind, Except.bind, pure, Except.pure]
  · simp [Arr.map, Arr.sumFrom3, rd.shape]
  · intro i hi j hj l hl K hK
    cases K with
    | cons => exact hK.elim
    | nil =>
      simp only [Arr.map, Arr.sumFrom3, rd.shape, List.drop_succ_cons, List.drop_zero, Kernel.negLog, sqdist, List.cons_append, List.nil_append]
      rw [sum_range_fin]
      congr 2
      refine Finset.sum_congr rfl fun q _ => ?_
      rw [rd.get i hi j hj l hl _ (unravel_inR q.2), atIdx_unravel, atIdx_unravel]

theorem negLog_row {a : Arr ℝ} {r c n : ℕ} {v : ℕ → ℕ → Fin [n].prod → ℝ} {d : Arr ℝ} (hd : Rep3 [n] d r c c fun i j l K => atIdx v i l K - atIdx v i j K) :
    ∃ m, d.normLast Real.sqrt = .ok m ∧ Rep3 [] m r c c fun i j l _ => pdist (v i l) (v i j) := by
  refine ⟨⟨[r, c, c], fun I => Real.sqrt ((List.range n).map fun j => d.get (I ++ [j]) ^ 2).sum⟩, ?_, rfl, ?_⟩
  · unfold Arr.normLast
    rw [hd.shape]
    rfl
  · intro i hi j hj l hl K hK
    cases K with
    | cons => exact hK.elim
    | nil =>
      simp only [pdist, euclid]
      congr 1
      have hn : List.range n = List.range [n].prod := by simp
      rw [hn, sum_range_fin]
      refine Finset.sum_congr rfl fun q _ => ?_
      have hq : [(q : ℕ)] = unravel [n] q := by simp [unravel]
      rw [hq]
      have := hd.get i hi j hj l hl _ (unravel_inR q.2)
      rw [atIdx_unravel, atIdx_unravel] at this
      rw [← this]
      rfl

theorem arr_max_mem {l : List ℝ} {x : ℝ} (b : ℝ) (h : x ∈ l) : x ≤ l.foldl max b := by
  induction l generalizing b with
  | nil => simp at h
  | cons y l ih =>
    have hb : ∀ (l : List ℝ) (b : ℝ), b ≤ l.foldl max b := by
      intro l
      induction l with
      | nil => exact fun b => le_rfl
      | cons z l ih => exact fun b => (le_max_left b z).trans (ih _)
    rcases List.mem_cons.1 h with rfl | h
    · exact (le_max_right b x).trans (hb l _)
    · exact ih _ h

theorem arr_max_le {l : List ℝ} {b t : ℝ} (hb : b ≤ t) (h : ∀ x ∈ l, x ≤ t) : l.foldl max b ≤ t := by
  induction l generalizing b with
  | nil => exact hb
  | cons y l ih => exact ih (max_le hb (h y (by simp))) fun x hx => h x (by simp [hx])

theorem arr_max_base (l : List ℝ) (b : ℝ) : b ≤ l.foldl max b := by
  induction l generalizing b with
  | nil => exact le_rfl
  | cons z l ih => exact (le_max_left b z).trans (ih _)

theorem maxAll_rep {m : Arr ℝ} {r c : ℕ} {g : ℕ → ℕ → ℕ → ℝ} (h : Rep3 [] m r c c fun i j l _ => g i j l) :
    m.maxAll = ((List.range r).flatMap fun i => (List.range c).flatMap fun j => (List.range c).map fun l => g i j l).foldl max 0 := by
  have hin : ∀ q < m.shape.prod, ∃ i < r, ∃ j < c, ∃ l < c, m.get (unravel m.shape q) = g i j l := by
    intro q hq
    have := unravel_inR hq
    rw [h.shape] at this ⊢
    generalize unravel [r, c, c] q = I at this
    match I, this with
    | [i, j, l], hI => exact ⟨i, hI.1, j, hI.2.1, l, hI.2.2.1, h.get i hI.1 j hI.2.1 l hI.2.2.1 [] trivial⟩
  apply le_antisymm
  · refine arr_max_le (arr_max_base _ _) fun x hx => ?_
    simp only [List.mem_map, List.mem_range] at hx
    obtain ⟨q, hq, rfl⟩ := hx
    obtain ⟨i, hi, j, hj, l, hl, e⟩ := hin q hq
    rw [e]
    refine arr_max_mem _ ?_
    simp only [List.mem_flatMap, List.mem_map, List.mem_range]
    exact ⟨i, hi, j, hj, l, hl, rfl⟩
  · refine arr_max_le (arr_max_base _ _) fun x hx => ?_
    simp only [List.mem_flatMap, List.mem_map, List.mem_range] at hx
    obtain ⟨i, hi, j, hj, l, hl, rfl⟩ := hx
    refine arr_max_mem _ ?_
    simp only [List.mem_map, List.mem_range]
    have hI : InR m.shape [i, j, l] := by rw [h.shape]; exact ⟨hi, hj, hl, trivial⟩
    refine ⟨Nd.ravel m.shape [i, j, l], ravel_lt hI, ?_⟩
    rw [unravel_ravel hI]
    exact h.get i hi j hj l hl [] trivial

theorem negLog_norm {a : Arr ℝ} {r c n : ℕ} {v : ℕ → ℕ → Fin [n].prod → ℝ} (k : Kernel) (kappa : ℝ) (h : Rep [n] a ⟨r, c, v⟩) :
    ∃ m, ArrModel.negLog k kappa a = .ok m ∧ Rep3 [] m r c c fun i j l _ => k.negLog kappa (maxDist ⟨r, c, v⟩) (v i l) (v i j) := by
  by_cases hk : k = .gaussian
  · subst hk
    exact negLog_gaussian kappa _ h
  obtain ⟨d, hd, rd⟩ := diff_rep3 h
  obtain ⟨m, hm, rm⟩ := negLog_row (a := a) rd
  have hmx : m.maxAll = maxDist ⟨r, c, v⟩ := maxAll_rep rm
  refine ⟨m.map (ArrModel.distLog k kappa m.maxAll), ?_, rm.shape, ?_⟩
  · cases k <;> first | exact absurd rfl hk | simp only [ArrModel.negLog, hd, hm, bind, Except.bind, pure, Except.pure]
  · intro i hi j hj l hl K hK
    simp only [Arr.map]
    rw [rm.get i hi j hj l hl K hK, hmx]
    cases k <;> first | exact absurd rfl hk | rfl

theorem arr_softmax {M : ℕ} (ws : List (Flt ℝ)) (w : Flt ℝ) : ArrModel.expSub w (ArrModel.lse ws) = softmax ws w := by
  have h : ArrModel.expW = expFin := by
    funext w
    cases w <;> rfl
  unfold ArrModel.lse
  rw [h]
  cases w <;> rfl

theorem sum2_rep {a : Arr ℝ} {r c b : ℕ} {g : ℕ → ℕ → ℕ → List ℕ → ℝ} (h : Rep3 ds a r c b g) :
    ∃ y, a.sum2 = .ok y ∧ Rep ds y ⟨r, c, fun i j q => ((List.range b).map fun l => g i j l (unravel ds q)).sum⟩ := by
  refine ⟨⟨r :: c :: ds, fun I => ((List.range b).map fun j => a.get (I.take 2 ++ j :: I.drop 2)).sum⟩, ?_, rfl, ?_⟩
  · unfold Arr.sum2
    rw [h.shape]
  · intro i hi j hj q
    simp only [List.take_succ_cons, List.take_zero, List.drop_succ_cons, List.drop_zero]
    congr 1
    refine List.map_congr_left fun l hl => ?_
    exact h.get i hi j hj l (List.mem_range.1 hl) _ (unravel_inR q.2)

theorem polarConsensus_rep {r c : ℕ} {energy nl : Arr (Flt ℝ)} {x alpha kfA : Arr ℝ} {e : ℕ → ℕ → Flt ℝ} {v : ℕ → ℕ → Fin ds.prod → ℝ} {al : ℕ → ℝ}
    {nlv : (Fin ds.prod → ℝ) → (Fin ds.prod → ℝ) → Flt ℝ} {kf : ℝ → ℝ}
    (he : Rep2 energy ⟨r, c, e⟩) (hx : Rep ds x ⟨r, c, v⟩) (ha : Rep2 alpha ⟨r, 1, fun i _ => al i⟩)
    (hn : Rep3 [] nl r c c fun i j l _ => nlv (v i l) (v i j))
    (hkf : ∃ k, Arr.bin (fun a v => Flt.mul (.fin (-a)) v) kfA nl = .ok k ∧ Rep3 [] k r c c fun i j l _ => Flt.mul (.fin (-kf (al i))) (nlv (v i l) (v i j))) :
    ∃ y, ArrModel.polarConsensus energy x nl (alpha.expand 1) kfA = .ok y ∧
      Rep ds y ((Cons.polar (polarRule nlv kf)).apply ⟨r, c, fun i j => (al i, e i j, v i j)⟩) := by
  obtain ⟨k, hk, rk⟩ := hkf
  obtain ⟨u, hu, ru⟩ := bin3 (f := fun a v => Flt.mul (.fin a) v) (expand1_rep3 ha) (newAxis1_rep2 he) (Mat.bdim_self _) (Mat.bdim_self _) (Mat.bdim_one_left _)
  obtain ⟨w, hw, rw0⟩ := bin3 (f := Flt.sub) rk ru (Mat.bdim_self _) (Mat.bdim_one_right _) (Mat.bdim_self _)
  have rw1 : Rep3 [] w r c c fun i j l _ => polarWeight (kf (al i)) (nlv (v i l) (v i j)) (al i) (e i l) := by
    refine ⟨rw0.shape, fun i hi j hj l hl K hK => ?_⟩
    rw [rw0.get i hi j hj l hl K hK]
    simp only [Mat.bpos_lt hi, Mat.bpos_lt hj, Mat.bpos_lt hl]
    rfl
  have hl : w.reduceLast ArrModel.lse = .ok ⟨[r, c, 1], fun I => ArrModel.lse ((List.range c).map fun j => w.get (I.dropLast ++ [j]))⟩ := by
    unfold Arr.reduceLast
    rw [rw1.shape]
    rfl
  have rl : Rep3 [] (⟨[r, c, 1], fun I => ArrModel.lse ((List.range c).map fun j => w.get (I.dropLast ++ [j]))⟩ : Arr ℝ) r c 1 fun i j _ _ =>
      ArrModel.lse ((List.range c).map fun l => polarWeight (kf (al i)) (nlv (v i l) (v i j)) (al i) (e i l)) := by
    refine ⟨rfl, fun i hi j hj l hl K hK => ?_⟩
    cases K with
    | cons => exact hK.elim
    | nil =>
      simp only
      congr 1
      refine List.map_congr_left fun l hl => ?_
      exact rw1.get i hi j hj l (List.mem_range.1 hl) [] trivial
  obtain ⟨co, hco, rco⟩ := bin3 (f := ArrModel.expSub) rw1 rl (Mat.bdim_self _) (Mat.bdim_self _) (Mat.bdim_one_right _)
  obtain ⟨y, hy, ry⟩ := bin3_ones (f := fun a b : ℝ => a * b) (newAxis1_rep hx) (b := co.expand ds.length) (b1 := r) (b2 := c) (b3 := c)
    (h := fun i j l => ArrModel.expSub (polarWeight (kf (al i)) (nlv (v i l) (v i j)) (al i) (e i l))
      (ArrModel.lse ((List.range c).map fun l => polarWeight (kf (al i)) (nlv (v i l) (v i j)) (al i) (e i l))))
    (by simp [Arr.expand, rco.shape]) (by
      intro i hi j hj l hl
      simp only [Arr.expand, rco.shape, List.length_cons, List.length_nil, List.take_succ_cons, List.take_zero]
      rw [rco.get i hi j hj l hl [] trivial]
      simp only [Mat.bpos_lt hi, Mat.bpos_lt hj, Mat.bpos_lt hl]) (Mat.bdim_self _) (Mat.bdim_one_left _) (Mat.bdim_self _)
  obtain ⟨z, hz, rz⟩ := sum2_rep ry
  refine ⟨z, ?_, rz.shape, ?_⟩
  · have hlen : x.shape.length - 2 = ds.length := by rw [hx.shape]; simp
    simp only [ArrModel.polarConsensus, hk, hu, hw, hl, hco, hlen, hy, hz, bind, Except.bind]
  · intro i hi j hj q
    simp only [Cons.apply] at hi hj ⊢
    rw [rz.get i hi j hj q]
    simp only [polarRule, polarAt, polarRow, Mat.row, List.map_map]
    have hxi : ((List.range c).map ((fun p : ℝ × Flt ℝ × (Fin ds.prod → ℝ) => p.2.2) ∘ fun j => (al i, e i j, v i j))).getD j 0 = v i j := by
      simp [List.getD, hj]
    rw [hxi, Pi.list_sum_apply, List.map_map]
    congr 1
    refine List.map_congr_left fun l hl => ?_
    have hl := List.mem_range.1 hl
    simp only [Function.comp, Pi.smul_apply, smul_eq_mul, Mat.bpos_lt hi, Mat.bpos_lt hj, Mat.bpos_lt hl, atIdx_unravel]
    rw [arr_softmax (M := 0), mul_comm]
    rfl

theorem polarCons_rep {k : Kernel} {kappa mx : ℝ} {mode : KernelMode} (hm : mode ≠ .other) {r c : ℕ} {energy : Arr (Flt ℝ)} {x alpha : Arr ℝ} {e : ℕ → ℕ → Flt ℝ}
    {v : ℕ → ℕ → Fin ds.prod → ℝ} {al : ℕ → ℝ} {active : List ℕ} {A : ArrModel.State}
    (he : Rep2 energy ⟨r, c, e⟩) (hx : Rep ds x ⟨r, c, v⟩) (hal : ArrModel.alphaRows A.alpha active = .ok alpha) (ha : Rep2 alpha ⟨r, 1, fun i _ => al i⟩)
    (hn : ∃ n, ArrModel.negLog k kappa x = .ok n ∧ Rep3 [] n r c c fun i j l _ => k.negLog kappa mx (v i l) (v i j)) :
    ∃ y, ArrModel.polarCons k kappa mode active A energy x = .ok y ∧
      Rep ds y ((Cons.polar (polarRule (k.negLog kappa mx) mode.kf)).apply ⟨r, c, fun i j => (al i, e i j, v i j)⟩) := by
  obtain ⟨n, hn1, rn⟩ := hn
  cases mode with
  | other => exact absurd rfl hm
  | const =>
    obtain ⟨y, hy, ry⟩ := polarConsensus_rep (kfA := ⟨[], fun _ => 1⟩) (kf := KernelMode.const.kf) he hx ha rn
      (bin3_scalar rfl rn)
    exact ⟨y, by simp only [ArrModel.polarCons, hn1, hal, ArrModel.kernelFactor, bind, Except.bind]; exact hy, ry⟩
  | alpha =>
    obtain ⟨y, hy, ry⟩ := polarConsensus_rep (kfA := alpha.expand 1) (kf := KernelMode.alpha.kf) he hx ha rn (by
      obtain ⟨k', hk, rk⟩ := bin3 (f := fun a v => Flt.mul (.fin (-a)) v) (expand1_rep3 ha) rn (Mat.bdim_self _) (Mat.bdim_one_left _) (Mat.bdim_one_left _)
      refine ⟨k', hk, rk.shape, fun i hi j hj l hl K hK => ?_⟩
      rw [rk.get i hi j hj l hl K hK]
      simp only [Mat.bpos_lt hi, Mat.bpos_lt hj, Mat.bpos_lt hl]
      rfl)
    exact ⟨y, by simp only [ArrModel.polarCons, hn1, hal, ArrModel.kernelFactor, bind, Except.bind]; exact hy, ry⟩

/-! ### The last axis of a broadcast -/

theorem bdims_last : ∀ {s t r : List ℕ} {a b : ℕ}, s.length = t.length → Arr.bdims (s ++ [a]) (t ++ [b]) = some r → ∃ r' d, r = r' ++ [d] ∧ Mat.bdim a b = some d
  | [], [], r, a, b, _, h => by
    simp only [List.nil_append, Arr.bdims] at h
    cases hd : Mat.bdim a b with
    | none => simp [hd] at h
    | some d =>
      simp only [hd, Option.some.injEq] at h
      exact ⟨[], d, h.symm, rfl⟩
  | x :: s, y :: t, r, a, b, hl, h => by
    simp only [List.cons_append, Arr.bdims] at h
    cases hx : Mat.bdim x y with
    | none => simp [hx] at h
    | some d' =>
      cases hr : Arr.bdims (s ++ [a]) (t ++ [b]) with
      | none => simp [hx, hr] at h
      | some r' =>
        simp only [hx, hr, Option.some.injEq] at h
        obtain ⟨r'', d, e1, e2⟩ := bdims_last (by simpa using hl) hr
        exact ⟨d' :: r'', d, by rw [← h, e1]; rfl, e2⟩
  | [], _ :: _, _, _, _, hl, _ => by simp at hl
  | _ :: _, [], _, _, _, hl, _ => by simp at hl

theorem bshape_last {s t r : List ℕ} {a b : ℕ} (h : Arr.bshape (s ++ [a]) (t ++ [b]) = some r) : ∃ r' d, r = r' ++ [d] ∧ Mat.bdim a b = some d := by
  unfold Arr.bshape Arr.padTo at h
  rw [← List.append_assoc, ← List.append_assoc] at h
  refine bdims_last ?_ h
  simp

theorem bin_last {a : Arr α} {b : Arr β} {f : α → β → γ} {c : Arr γ} {s t : List ℕ} {x y : ℕ} (ha : a.shape = s ++ [x]) (hb : b.shape = t ++ [y])
    (h : Arr.bin f a b = .ok c) : ∃ r d, c.shape = r ++ [d] ∧ Mat.bdim x y = some d := by
  unfold Arr.bin at h
  rw [ha, hb] at h
  cases hr : Arr.bshape (s ++ [x]) (t ++ [y]) with
  | none => rw [hr] at h; simp at h
  | some r =>
    rw [hr] at h
    injection h with h
    subst h
    exact bshape_last hr

theorem bin_error {a : Arr α} {b : Arr β} {f : α → β → γ} {e : Err} (h : Arr.bin f a b = .error e) : e = .value := by
  unfold Arr.bin at h
  split at h
  · simp at h
  · injection h with h
    exact h.symm

theorem negLog_shape {a : Arr ℝ} {r c : ℕ} {es : List ℕ} {d1 d2 : ℕ} {v : ℕ → ℕ → Fin (es ++ [d1, d2]).prod → ℝ} (k : Kernel) (hk : k ≠ .gaussian) (kappa : ℝ)
    (h : Rep (es ++ [d1, d2]) a ⟨r, c, v⟩) : ∃ n, ArrModel.negLog k kappa a = .ok n ∧ n.shape = (r :: c :: c :: es) ++ [d1] := by
  obtain ⟨d, hd, rd⟩ := diff_rep3 h
  have hs : d.shape = ((r :: c :: c :: es) ++ [d1]) ++ [d2] := by rw [rd.shape]; simp
  have hm : ∃ m, d.normLast Real.sqrt = .ok m ∧ m.shape = (r :: c :: c :: es) ++ [d1] := by
    unfold Arr.normLast
    rw [hs, List.reverse_append]
    simp only [List.reverse_cons, List.reverse_nil, List.nil_append, List.singleton_append, List.dropLast_concat]
    exact ⟨_, rfl, rfl⟩
  obtain ⟨m, hm, ms⟩ := hm
  refine ⟨m.map (ArrModel.distLog k kappa m.maxAll), ?_, ms⟩
  cases k <;> first | exact absurd rfl hk | simp only [ArrModel.negLog, hd, hm, bind, Except.bind, pure, Except.pure]

theorem polarConsensus_raises {r c d1 : ℕ} {es : List ℕ} {energy nl : Arr (Flt ℝ)} {x alpha kf : Arr ℝ} (hn : nl.shape = (r :: c :: c :: es) ++ [d1])
    (he : energy.shape = [r, c]) (hkf : kf.shape = [] ∨ kf.shape = [r, 1, 1]) (ha : alpha.shape = [r, 1])
    (hc : c ≠ 1) (h1 : d1 ≠ 1) (h2 : d1 ≠ c) : ArrModel.polarConsensus energy x nl (alpha.expand 1) kf = .error .value := by
  unfold ArrModel.polarConsensus
  cases hk : Arr.bin (fun a v => Flt.mul (.fin (-a)) v) kf nl with
  | error e => rw [bin_error hk]; rfl
  | ok k =>
    have ks : ∃ s, k.shape = s ++ [d1] := by
      rcases hkf with h | h
      · unfold Arr.bin Arr.bshape at hk
        have e1 : ∀ s : List ℕ, Arr.bdims (List.replicate s.length 1) s = some s := by
          intro s
          induction s with
          | nil => rfl
          | cons a s ih => simp only [List.length_cons, List.replicate_succ, Arr.bdims, ih, Mat.bdim_one_left]
        have e2 : Arr.bdims (Arr.padTo (max kf.shape.length nl.shape.length) kf.shape) (Arr.padTo (max kf.shape.length nl.shape.length) nl.shape) = some nl.shape := by
          rw [h, Arr.padTo_of_le (s := nl.shape) (by simp)]
          simp only [Arr.padTo, List.length_nil, List.append_nil, Nat.sub_zero, Nat.zero_max]
          exact e1 _
        rw [e2] at hk
        injection hk with hk
        exact ⟨_, by rw [← hk]; exact hn⟩
      · obtain ⟨s, d, e1, e2⟩ := bin_last (s := [r, 1]) (x := 1) h hn hk
        rw [Mat.bdim_one_left, Option.some.injEq] at e2
        exact ⟨s, by rw [e1, e2]⟩
    obtain ⟨s, ks⟩ := ks
    simp only [bind, Except.bind]
    cases hu : Arr.bin (fun a v => Flt.mul (.fin a) v) (alpha.expand 1) energy.newAxis1 with
    | error e => rw [bin_error hu]
    | ok u =>
      have us : ∃ s, u.shape = s ++ [c] := by
        obtain ⟨s, d, e1, e2⟩ := bin_last (s := [r, 1]) (x := 1) (t := [r, 1]) (y := c) (by simp [Arr.expand, ha]) (by simp [Arr.newAxis1, he]) hu
        rw [Mat.bdim_one_left, Option.some.injEq] at e2
        exact ⟨s, by rw [e1, e2]⟩
      obtain ⟨t, us⟩ := us
      simp only
      cases hw : Arr.bin Flt.sub k u with
      | error e => rw [bin_error hw]
      | ok w =>
        obtain ⟨_, d, -, e2⟩ := bin_last ks us hw
        unfold Mat.bdim at e2
        rw [if_neg h2, if_neg h1, if_neg hc] at e2
        simp at e2

/-! ### The step -/

section
variable {F : Arr ℝ → Except Err (Arr (Flt ℝ))} {kind : ArrModel.Kind} {smp : ℕ → List ℕ → ℝ} {T kappa : ℝ} {k : Kernel} {mode : KernelMode}
  {env : Env ℝ (Fin ds.prod → ℝ)}

theorem polar_step_rep (he : PolarArrEnv ds F k kappa mode kind smp T env) (hm : mode ≠ .other)
    (hn : ∀ r c v (x : Arr ℝ), Rep ds x ⟨r, c, v⟩ → ∃ n, ArrModel.negLog k kappa x = .ok n ∧ Rep3 [] n r c c fun i j l _ => k.negLog kappa 1 (v i l) (v i j))
    (a : Args ℝ (Fin ds.prod → ℝ)) (ops : List Op) {s₀ s s' : St ℝ (Fin ds.prod → ℝ)}
    (h0 : init env a = .ok s₀) (h : execAll env (cboInner env) ops s₀ = .ok s) (hs : step env (cboInner env) s = .ok s')
    (hk : kind = .iso → s.active ≠ [] ∧ s.batchSize ≠ 0)
    (A : ArrModel.State) (hx : Rep ds A.x s.x) (hen : Rep2 A.energy s.energy) (hal : Rep2 A.alpha ⟨s.M, 1, fun i _ => s.alpha i⟩) :
    ∃ A' c d, ArrModel.polarStep F k kappa mode kind (smp s.draws) s.active s'.cIdx s'.pIdx s.lamda s.dt s.sigma A = .ok (A', c, d) ∧
      Rep ds (ArrModel.clip T A'.x) s'.x ∧ Rep2 A'.energy s'.energy ∧ Rep2 A'.alpha ⟨s'.M, 1, fun i _ => s'.alpha i⟩ ∧
      (∃ m, s'.cons = some m ∧ Rep ds c m) ∧ ∃ m, s'.drift = some m ∧ Rep ds d m := by
  have hw : WF s := (execAll_induct (P := fun _ => True) (cboMove_ok env) (fun s x' h => by
    rw [he.post] at h
    injection h with h
    subst h
    exact ⟨rfl, rfl⟩) he.perm (fun _ _ _ _ _ _ => trivial) ops s₀ s (init_wf he.perm h0) trivial h).1
  have hix := preStep_idx env he.perm hw
  have p1 := preStep_frame env s
  have f := step_frame (consThen_frame (cboMove_ok env)) hs
  obtain ⟨v, hv, hpost⟩ := step_split.1 hs
  have pf := postStep_facts hpost
  have hrow : (preStep env s).cIdx.rows = (preStep env s).active.length := by rw [hix.cRows, p1]
  have hact : ∀ m ∈ (preStep env s).active, m < (preStep env s).M := by rw [p1]; exact fun m hm => hw.act_lt hm
  have hal' : Rep2 A.alpha ⟨(preStep env s).M, 1, fun i _ => (preStep env s).alpha i⟩ := by rw [p1]; exact hal
  obtain ⟨al, hal2, ral⟩ := alphaRows_rep hact hal'
  obtain ⟨A', c, d, e1, e2, e3, e4, ⟨m, hm, rm⟩, ⟨m', hm', rm'⟩⟩ := cboInner_rep_of (A := A) he.corr he.noise he.f
    (consA := ArrModel.polarCons k kappa mode (preStep env s).active A) (fun c e v e1 a1 r1 r2 => by
      rw [he.cons]
      exact polarCons_rep hm r1 r2 hal2 ral (hn _ _ _ _ r2)) hrow (by rw [hix.pRows, p1]) (by
      intro hiso
      obtain ⟨k1, k2⟩ := hk hiso
      refine ⟨by rw [hix.pRows]; exact fun h => k1 (List.length_eq_zero_iff.1 h), ?_⟩
      rcases hix.pCols with h | h
      · rw [h]; exact hw.pos.ne'
      · rw [h, hix.cCols]; exact k2) hv (by rw [p1]; exact hx) (by rw [p1]; exact hen)
  have q1 : (preStep env s).draws = s.draws := by rw [p1]
  have q2 : (preStep env s).active = s.active := by rw [p1]
  have q3 : (preStep env s).lamda = s.lamda := by rw [p1]
  have q4 : (preStep env s).dt = s.dt := by rw [p1]
  have q5 : (preStep env s).sigma = s.sigma := by rw [p1]
  rw [q1, q2, q3, q4, q5, ← f.cIdx, ← f.pIdx] at e1
  have hc' : s'.cons = v.cons := by rw [pf.frame]
  have hd' : s'.drift = v.drift := by rw [pf.frame]
  have hE' : s'.energy = v.energy := by rw [pf.frame]
  refine ⟨A', c, d, e1, ?_, by rw [hE']; exact e3, by rw [e4, f.M, f.alpha]; exact hal, ⟨m, by rw [hc']; exact hm, rm⟩, m', by rw [hd']; exact hm', rm'⟩
  have hp := pf.post
  rw [he.post] at hp
  injection hp with hp
  rw [← hp]
  exact map_rep e2 _

end

end Verif
