import Verif.Spec.Arrays
import Verif.Proofs.Arr
import Verif.Proofs.Total
import Mathlib.Tactic.LinearCombination

/-! The array operations compute the per-particle operations. Helper lemmas. -/

set_option linter.unusedSectionVars false

namespace Verif

variable {α β γ : Type} {ds : List ℕ}

theorem bindex_two {r c i j : ℕ} {T K : List ℕ} (h : K.length = T.length) :
    Arr.bindex (r :: c :: T) (i :: j :: K) = Mat.bpos r i :: Mat.bpos c j :: List.zipWith Mat.bpos T K := by
  rw [Arr.bindex_len (by simp [h])]
  rfl

theorem bindex_rep {r c i j : ℕ} {K : List ℕ} (h : InR ds K) :
    Arr.bindex (r :: c :: ds) (i :: j :: K) = Mat.bpos r i :: Mat.bpos c j :: K := by
  rw [bindex_two h.len, Arr.zipWith_bpos_self h]

theorem bpos_bdim {a b r i : ℕ} (h : Mat.bdim a b = some r) (hi : i < r) : Mat.bpos a i < a ∧ Mat.bpos b i < b := by
  obtain ⟨h1, h2⟩ := Mat.bdim_eq_some h
  unfold Mat.bpos
  constructor
  · split_ifs <;> omega
  · split_ifs <;> omega

theorem gather_rep {a : Arr α} {m m' : Mat (Fin ds.prod → α)} {ix : Idx} (h : Rep ds a m) (hg : m.gather ix = .ok m') :
    ∃ a', a.gather ix = .ok a' ∧ Rep ds a' m' := by
  obtain ⟨hin, h1, h2, h3⟩ := Mat.gather_ok hg
  refine ⟨⟨ix.rows :: ix.cols :: ds, fun I => match I with
      | i :: j :: K => a.get (ix.run i :: ix.par i j :: K)
      | _ => a.get I⟩, ?_, ?_, ?_⟩
  · unfold Arr.gather
    rw [h.shape]
    simp only
    rw [if_pos hin]
    rfl
  · simp only [h1, h2]
  · intro i hi j hj q
    rw [h1] at hi
    rw [h2] at hj
    obtain ⟨b1, b2⟩ := hin i hi j hj
    rw [h3]
    exact h.get _ b1 _ b2 q

theorem gather_rep2 {a : Arr α} {m m' : Mat α} {ix : Idx} (h : Rep2 a m) (hg : m.gather ix = .ok m') :
    ∃ a', a.gather ix = .ok a' ∧ Rep2 a' m' := by
  obtain ⟨hin, h1, h2, h3⟩ := Mat.gather_ok hg
  refine ⟨⟨ix.rows :: ix.cols :: [], fun I => match I with
      | i :: j :: K => a.get (ix.run i :: ix.par i j :: K)
      | _ => a.get I⟩, ?_, ?_, ?_⟩
  · unfold Arr.gather
    rw [h.shape]
    simp only
    rw [if_pos hin]
    rfl
  · simp only [h1, h2]
  · intro i hi j hj
    rw [h1] at hi
    rw [h2] at hj
    obtain ⟨b1, b2⟩ := hin i hi j hj
    rw [h3]
    exact h.get _ b1 _ b2

theorem bin_rep {a : Arr α} {b : Arr β} {m : Mat (Fin ds.prod → α)} {n : Mat (Fin ds.prod → β)} {p : Mat (Fin ds.prod → γ)}
    {f : α → β → γ} {g : (Fin ds.prod → α) → (Fin ds.prod → β) → Fin ds.prod → γ} (hfg : ∀ v w q, g v w q = f (v q) (w q))
    (ha : Rep ds a m) (hb : Rep ds b n) (h : Mat.bin g m n = .ok p) : ∃ c, Arr.bin f a b = .ok c ∧ Rep ds c p := by
  obtain ⟨h1, h2, h3⟩ := Mat.bin_ok h
  refine ⟨⟨p.rows :: p.cols :: ds, fun I => f (a.get (Arr.bindex a.shape I)) (b.get (Arr.bindex b.shape I))⟩, ?_, rfl, ?_⟩
  · unfold Arr.bin
    have : Arr.bshape a.shape b.shape = some (p.rows :: p.cols :: ds) := by
      rw [ha.shape, hb.shape, Arr.bshape_eq (by simp)]
      simp only [Arr.bdims, h1, h2, Arr.bdims_self]
    rw [this]
  · intro i hi j hj q
    have hq := unravel_inR q.2
    simp only
    rw [ha.shape, hb.shape, bindex_rep hq, bindex_rep hq, h3, hfg]
    obtain ⟨r1, r2⟩ := bpos_bdim h1 hi
    obtain ⟨c1, c2⟩ := bpos_bdim h2 hj
    rw [ha.get _ r1 _ c1, hb.get _ r2 _ c2]

theorem bin_rep2 {a : Arr α} {b : Arr β} {m : Mat α} {n : Mat β} {p : Mat γ} {f : α → β → γ} 
    (ha : Rep2 a m) (hb : Rep2 b n) (h : Mat.bin f m n = .ok p) : ∃ c, Arr.bin f a b = .ok c ∧ Rep2 c p := by
  obtain ⟨h1, h2, h3⟩ := Mat.bin_ok h
  refine ⟨⟨p.rows :: p.cols :: [], fun I => f (a.get (Arr.bindex a.shape I)) (b.get (Arr.bindex b.shape I))⟩, ?_, rfl, ?_⟩
  · unfold Arr.bin
    have : Arr.bshape a.shape b.shape = some (p.rows :: p.cols :: []) := by
      rw [ha.shape, hb.shape, Arr.bshape_eq (by simp)]
      simp only [Arr.bdims, h1, h2]
    rw [this]
  · intro i hi j hj
    simp only
    rw [ha.shape, hb.shape, bindex_two rfl, bindex_two rfl, h3]
    obtain ⟨r1, r2⟩ := bpos_bdim h1 hi
    obtain ⟨c1, c2⟩ := bpos_bdim h2 hj
    rw [← ha.get _ r1 _ c1, ← hb.get _ r2 _ c2]
    rfl

/-- An array of shape `(rows, cols, 1, ..., 1)` and its entries. -/
structure RepOnes (k : ℕ) (a : Arr α) (m : Mat α) : Prop where
  shape : a.shape = m.rows :: m.cols :: List.replicate k 1
  get : ∀ i < m.rows, ∀ j < m.cols, a.get (i :: j :: List.replicate k 0) = m.get i j

theorem expand_ones {a : Arr α} {m : Mat α} (h : Rep2 a m) (k : ℕ) : RepOnes k (a.expand k) m := by
  refine ⟨by simp [Arr.expand, h.shape], fun i hi j hj => ?_⟩
  simp only [Arr.expand, h.shape]
  exact h.get i hi j hj

theorem bin_ones {a : Arr α} {b : Arr β} {m : Mat (Fin ds.prod → α)} {n : Mat β} {f : α → β → γ} (ha : Rep ds a m)
    (hb : RepOnes ds.length b n) (h1 : n.rows = m.rows) (h2 : n.cols = m.cols) :
    ∃ c, Arr.bin f a b = .ok c ∧ Rep ds c ⟨m.rows, m.cols, fun i j q => f (m.get i j q) (n.get i j)⟩ := by
  refine ⟨⟨m.rows :: m.cols :: ds, fun I => f (a.get (Arr.bindex a.shape I)) (b.get (Arr.bindex b.shape I))⟩, ?_, rfl, ?_⟩
  · unfold Arr.bin
    have : Arr.bshape a.shape b.shape = some (m.rows :: m.cols :: ds) := by
      rw [ha.shape, hb.shape, Arr.bshape_eq (by simp)]
      simp only [Arr.bdims, h1, h2, Mat.bdim_self, Arr.bdims_ones]
    rw [this]
  · intro i hi j hj q
    have hq := unravel_inR q.2
    simp only at hi hj ⊢
    rw [ha.shape, hb.shape, bindex_rep hq, bindex_two (by simp [unravel_len]), Arr.zipWith_bpos_ones _ (unravel_len _ _), h1, h2,
      Mat.bpos_lt hi, Mat.bpos_lt hj, ha.get i hi j hj, hb.get i (by omega) j (by omega)]

theorem scatter_rep2 {a v : Arr α} {m w m' : Mat α} {ix : Idx} (ha : Rep2 a m) (hv : Rep2 v w) (hr : w.rows = ix.rows)
    (hc : w.cols = ix.cols) (h : m.scatter ix w = .ok m') : ∃ a', a.scatter ix v = .ok a' ∧ Rep2 a' m' := by
  have hin := (Mat.scatter_ok h).1
  unfold Mat.scatter at h
  rw [if_pos hin] at h
  unfold Mat.bto at h
  rw [if_pos ⟨.inl hr, .inl hc⟩] at h
  simp only at h
  injection h with h
  subst h
  refine ⟨⟨m.rows :: m.cols :: [], fun I => match I with
      | i :: j :: K => match ix.lastPos i j with
        | some p => v.get (Arr.bindex v.shape (p.1 :: p.2 :: K))
        | none => a.get I
      | _ => a.get I⟩, ?_, rfl, ?_⟩
  · unfold Arr.scatter
    rw [ha.shape]
    simp only
    rw [if_pos hin, if_pos (by rw [hv.shape, hr, hc]; exact Arr.assignable_self _)]
    rfl
  · intro i hi j hj
    simp only
    cases hp : ix.lastPos i j with
    | none => exact ha.get i hi j hj
    | some p =>
      obtain ⟨p1, p2, -, -⟩ := Idx.lastPos_some hp
      simp only
      rw [hv.shape, bindex_two rfl, hr, hc, Mat.bpos_lt p1, Mat.bpos_lt p2]
      exact hv.get _ (by omega) _ (by omega)

theorem scatter_rep {a v : Arr α} {m w m' : Mat (Fin ds.prod → α)} {ix : Idx} (ha : Rep ds a m) (hv : Rep ds v w) (hr : w.rows = ix.rows)
    (hc : w.cols = ix.cols) (h : m.scatter ix w = .ok m') : ∃ a', a.scatter ix v = .ok a' ∧ Rep ds a' m' := by
  have hin := (Mat.scatter_ok h).1
  unfold Mat.scatter at h
  rw [if_pos hin] at h
  unfold Mat.bto at h
  rw [if_pos ⟨.inl hr, .inl hc⟩] at h
  simp only at h
  injection h with h
  subst h
  refine ⟨⟨m.rows :: m.cols :: ds, fun I => match I with
      | i :: j :: K => match ix.lastPos i j with
        | some p => v.get (Arr.bindex v.shape (p.1 :: p.2 :: K))
        | none => a.get I
      | _ => a.get I⟩, ?_, rfl, ?_⟩
  · unfold Arr.scatter
    rw [ha.shape]
    simp only
    rw [if_pos hin, if_pos (by rw [hv.shape, hr, hc]; exact Arr.assignable_self _)]
    rfl
  · intro i hi j hj q
    simp only
    cases hp : ix.lastPos i j with
    | none => exact ha.get i hi j hj q
    | some p =>
      obtain ⟨p1, p2, -, -⟩ := Idx.lastPos_some hp
      simp only
      rw [hv.shape, bindex_rep (unravel_inR q.2), hr, hc, Mat.bpos_lt p1, Mat.bpos_lt p2]
      exact hv.get _ (by omega) _ (by omega) q

theorem scatterAdd_rep {a v : Arr ℝ} {m w m' : Mat (Fin ds.prod → ℝ)} {ix : Idx} (ha : Rep ds a m) (hv : Rep ds v w)
    (hr : w.rows = ix.rows) (hc : w.cols = ix.cols) (h : m.scatterAdd ix w = .ok m') :
    ∃ a', a.scatterAdd ix v = .ok a' ∧ Rep ds a' m' := by
  unfold Mat.scatterAdd at h
  cases hg : m.gather ix with
  | error e => rw [hg] at h; simp at h
  | ok g =>
    rw [hg] at h
    simp only at h
    obtain ⟨-, g1, g2, -⟩ := Mat.gather_ok hg
    cases hb : Mat.bto g.rows g.cols w with
    | error e => rw [hb] at h; simp at h
    | ok w' =>
      rw [hb] at h
      simp only at h
      obtain ⟨b1, b2, -, -, b5⟩ := Mat.bto_ok hb
      obtain ⟨ga, hga, hgr⟩ := gather_rep ha hg
      have hbin : Mat.bin (fun a b => a + b) g w = .ok ⟨g.rows, g.cols, fun i j =>
          g.get (Mat.bpos g.rows i) (Mat.bpos g.cols j) + w.get (Mat.bpos w.rows i) (Mat.bpos w.cols j)⟩ :=
        Mat.bin_of_dims (by rw [hr, g1]; exact Mat.bdim_self _) (by rw [hc, g2]; exact Mat.bdim_self _)
      obtain ⟨u, hu, hur⟩ := bin_rep (f := fun a b => a + b) (fun _ _ _ => rfl) hgr hv hbin
      have hur' : Rep ds u ⟨g.rows, g.cols, fun i j => g.get i j + w'.get i j⟩ := by
        refine ⟨hur.shape, fun i hi j hj q => ?_⟩
        rw [hur.get i hi j hj q]
        simp only at hi hj ⊢
        rw [b5, Mat.bpos_lt hi, Mat.bpos_lt hj]
      obtain ⟨a', h1, h2⟩ := scatter_rep ha hur' g1 g2 h
      refine ⟨a', ?_, h2⟩
      unfold Arr.scatterAdd
      simp only [hga, hu, bind, Except.bind]
      rw [if_pos (by rw [hur.shape, hgr.shape]), h1]

theorem sum1_rep {a : Arr ℝ} {m : Mat (Fin ds.prod → ℝ)} (h : Rep ds a m) :
    ∃ a', a.sum1 = .ok a' ∧ Rep ds a' ⟨m.rows, 1, fun i _ => ((List.range m.cols).map fun j => m.get i j).sum⟩ := by
  refine ⟨⟨m.rows :: 1 :: ds, fun I => ((List.range m.cols).map fun j => a.get (I.set 1 j)).sum⟩, ?_, rfl, ?_⟩
  · unfold Arr.sum1
    rw [h.shape]
  · intro i hi j hj q
    simp only at hi hj ⊢
    rw [Pi.list_sum_apply]
    congr 1
    rw [List.map_map]
    refine List.map_congr_left fun k hk => ?_
    exact h.get i hi k (List.mem_range.1 hk) q

/-! ### Consensus -/

theorem expW_mul (a : ℝ) (e : Flt ℝ) : ArrModel.expW (Flt.mul (.fin (-a)) e) = expWeight a e := by
  cases e with
  | nan => rfl
  | fin b => rfl
  | ninf => simp only [Flt.mul, Flt.infTimes, expWeight]; split_ifs <;> rfl
  | pinf => simp only [Flt.mul, Flt.infTimes, expWeight]; split_ifs <;> rfl

theorem expSub_mul {V : Type} (l : List (ℝ × Flt ℝ × V)) (a : ℝ) (e : Flt ℝ) (v : V) :
    ArrModel.expSub (Flt.mul (.fin (-a)) e) (lseWeights l) = coeff l (a, e, v) := by
  cases e with
  | nan => rfl
  | fin b => rfl
  | ninf => simp only [Flt.mul, Flt.infTimes, coeff]; split_ifs <;> rfl
  | pinf => simp only [Flt.mul, Flt.infTimes, coeff]; split_ifs <;> rfl

theorem reduceLast_rep2 {a : Arr α} {m : Mat α} (h : Rep2 a m) (g : List α → β) :
    ∃ b, a.reduceLast g = .ok b ∧ Rep2 b ⟨m.rows, 1, fun i _ => g (m.row i)⟩ := by
  refine ⟨⟨[m.rows, 1], fun I => g ((List.range m.cols).map fun j => a.get (I.dropLast ++ [j]))⟩, ?_, rfl, ?_⟩
  · unfold Arr.reduceLast
    rw [h.shape]
    rfl
  · intro i hi j hj
    simp only at hi ⊢
    congr 1
    refine List.map_congr_left fun k hk => ?_
    exact h.get i hi k (List.mem_range.1 hk)

theorem consensus_rep {r c : ℕ} {energy : Arr (Flt ℝ)} {x alpha : Arr ℝ} {e : ℕ → ℕ → Flt ℝ} {v : ℕ → ℕ → Fin ds.prod → ℝ} {al : ℕ → ℝ}
    (he : Rep2 energy ⟨r, c, e⟩) (hx : Rep ds x ⟨r, c, v⟩) (ha : Rep2 alpha ⟨r, 1, fun i _ => al i⟩) :
    ∃ y, ArrModel.consensus energy x alpha = .ok y ∧
      Rep ds y ⟨r, 1, fun i _ => consDefault ((List.range c).map fun j => (al i, e i j, v i j))⟩ := by
  obtain ⟨w, hw, hwr⟩ := bin_rep2 (f := fun a e => Flt.mul (.fin (-a)) e) ha he
    (Mat.bin_of_dims (Mat.bdim_self _) (Mat.bdim_one_left _))
  have hwr' : Rep2 w ⟨r, c, fun i j => Flt.mul (.fin (-al i)) (e i j)⟩ := by
    refine ⟨hwr.shape, fun i hi j hj => ?_⟩
    rw [hwr.get i hi j hj]
    simp only at hi hj ⊢
    rw [Mat.bpos_lt hi, Mat.bpos_lt hj]
  obtain ⟨l, hl, hlr⟩ := reduceLast_rep2 hwr' ArrModel.lse
  obtain ⟨co, hco, hcor⟩ := bin_rep2 (f := ArrModel.expSub) hwr' hlr (Mat.bin_of_dims (Mat.bdim_self _) (Mat.bdim_one_right _))
  have hcor' : Rep2 co ⟨r, c, fun i j => coeff ((List.range c).map fun k => (al i, e i k, v i k)) (al i, e i j, v i j)⟩ := by
    refine ⟨hcor.shape, fun i hi j hj => ?_⟩
    rw [hcor.get i hi j hj]
    simp only at hi hj ⊢
    rw [Mat.bpos_lt hi, Mat.bpos_lt hj, ← expSub_mul]
    congr 1
    unfold ArrModel.lse lseWeights Mat.row
    simp only [List.map_map]
    congr 2
    refine List.map_congr_left fun k _ => ?_
    simp only [Function.comp]
    rw [expW_mul]
  obtain ⟨y, hy, hyr⟩ := bin_ones (f := fun a b => a * b) hx (expand_ones hcor' ds.length) rfl rfl
  obtain ⟨z, hz, hzr⟩ := sum1_rep hyr
  refine ⟨z, ?_, hzr.shape, ?_⟩
  · have hlen : x.shape.length - 2 = ds.length := by rw [hx.shape]; simp
    simp only [ArrModel.consensus, hw, hl, hco, hlen, hy, hz, bind, Except.bind]
  · intro i hi j hj q
    rw [hzr.get i hi j hj q]
    simp only [consDefault, List.map_map]
    refine congrFun (congrArg List.sum ?_) q
    refine List.map_congr_left fun k _ => ?_
    funext q
    simp only [Function.comp, Pi.smul_apply, smul_eq_mul]
    ring

/-! ### Noise -/

theorem sum_range_fin {n : ℕ} (g : ℕ → ℝ) : ((List.range n).map g).sum = ∑ q : Fin n, g q := by
  rw [Fin.sum_univ_eq_sum_range]
  rfl

theorem sample_const {a : Arr ℝ} {m : Mat (Fin ds.prod → ℝ)} (h : Rep ds a m) (z : List ℕ → ℝ) :
    Rep ds ⟨a.shape, z⟩ ⟨m.rows, m.cols, fun i j q => z (i :: j :: unravel ds q)⟩ := ⟨h.shape, fun _ _ _ _ _ => rfl⟩

theorem sample_iso {a : Arr ℝ} {m : Mat (Fin ds.prod → ℝ)} (h : Rep ds a m) (z : List ℕ → ℝ) (hr : m.rows ≠ 0) (hc : m.cols ≠ 0) :
    ∃ b, ArrModel.isoSample a z = .ok b ∧
      Rep ds b ⟨m.rows, m.cols, fun i j q => z (i :: j :: unravel ds q) * Real.sqrt (∑ p, m.get i j p ^ 2)⟩ := by
  have hrc : m.rows * m.cols ≠ 0 := Nat.mul_ne_zero hr hc
  have e1 : a.shape.take 2 = [m.rows, m.cols] := by rw [h.shape]; rfl
  have e2 : a.shape.length - 2 = ds.length := by rw [h.shape]; simp
  have e3 : a.shape.prod = m.rows * m.cols * ds.prod := by rw [h.shape]; simp [mul_assoc]
  have p1 : a.reshapeInfer [m.rows, m.cols] = .ok ⟨[m.rows, m.cols, ds.prod],
      fun I => a.get (unravel a.shape (Nd.ravel [m.rows, m.cols, ds.prod] I))⟩ := by
    unfold Arr.reshapeInfer
    have d1 : [m.rows, m.cols].prod = m.rows * m.cols := by simp
    have d2 : m.rows * m.cols * ds.prod / (m.rows * m.cols) = ds.prod := Nat.mul_div_cancel_left _ (Nat.pos_of_ne_zero hrc)
    rw [d1, e3, if_neg hrc, if_neg (by simp), d2]
    unfold Arr.reshape
    rw [if_pos (by rw [e3]; simp [mul_assoc])]
    rfl
  have g1 : ∀ i < m.rows, ∀ j < m.cols, ∀ q : Fin ds.prod,
      a.get (unravel a.shape (Nd.ravel [m.rows, m.cols, ds.prod] [i, j, q])) = m.get i j q := by
    intro i hi j hj q
    have hq := unravel_inR q.2
    have : Nd.ravel [m.rows, m.cols, ds.prod] [i, j, q] = Nd.ravel (m.rows :: m.cols :: ds) (i :: j :: unravel ds q) := by
      simp [Nd.ravel, ravel_unravel q.2]
    rw [this, h.shape, unravel_ravel (s := m.rows :: m.cols :: ds) (I := i :: j :: unravel ds q) ⟨hi, hj, hq⟩, h.get i hi j hj q]
  let n : Arr ℝ := ⟨[m.rows, m.cols], fun I => Real.sqrt ((List.range ds.prod).map fun j =>
    a.get (unravel a.shape (Nd.ravel [m.rows, m.cols, ds.prod] (I ++ [j]))) ^ 2).sum⟩
  have p2 : (Arr.normLast Real.sqrt ⟨[m.rows, m.cols, ds.prod],
      fun I => a.get (unravel a.shape (Nd.ravel [m.rows, m.cols, ds.prod] I))⟩ : Except Err (Arr ℝ)) = .ok n := rfl
  have g2 : ∀ i < m.rows, ∀ j < m.cols, n.get [i, j] = Real.sqrt (∑ p, m.get i j p ^ 2) := by
    intro i hi j hj
    have : n.get [i, j] = Real.sqrt ((List.range ds.prod).map fun k =>
      a.get (unravel a.shape (Nd.ravel [m.rows, m.cols, ds.prod] [i, j, k])) ^ 2).sum := rfl
    rw [this, sum_range_fin]
    congr 1
    refine Finset.sum_congr rfl fun q _ => ?_
    rw [g1 i hi j hj q]
  have p3 : n.reshape ([m.rows, m.cols] ++ List.replicate ds.length 1) = .ok ⟨[m.rows, m.cols] ++ List.replicate ds.length 1,
      fun I => n.get (unravel [m.rows, m.cols] (Nd.ravel ([m.rows, m.cols] ++ List.replicate ds.length 1) I))⟩ := by
    unfold Arr.reshape
    rw [if_pos (by simp [n])]
  have g3 : RepOnes ds.length ⟨[m.rows, m.cols] ++ List.replicate ds.length 1,
      fun I => n.get (unravel [m.rows, m.cols] (Nd.ravel ([m.rows, m.cols] ++ List.replicate ds.length 1) I))⟩
      ⟨m.rows, m.cols, fun i j => Real.sqrt (∑ p, m.get i j p ^ 2)⟩ := by
    refine ⟨rfl, fun i hi j hj => ?_⟩
    simp only at hi hj ⊢
    have : Nd.ravel ([m.rows, m.cols] ++ List.replicate ds.length 1) (i :: j :: List.replicate ds.length 0) =
        Nd.ravel [m.rows, m.cols] [i, j] := by
      simp [Nd.ravel, Arr.ravel_ones]
    rw [this, unravel_ravel (s := [m.rows, m.cols]) (I := [i, j]) ⟨hi, hj, trivial⟩, g2 i hi j hj]
  obtain ⟨b, hb, hbr⟩ := bin_ones (f := fun a b => a * b) (sample_const h z) g3 rfl rfl
  refine ⟨b, ?_, hbr⟩
  simp only [ArrModel.isoSample, e1, e2, p1, p2, p3, bind, Except.bind]
  exact hb

theorem sample_rep {a : Arr ℝ} {m : Mat (Fin ds.prod → ℝ)} (h : Rep ds a m) (kind : ArrModel.Kind) (z : List ℕ → ℝ)
    (hk : kind = .iso → m.rows ≠ 0 ∧ m.cols ≠ 0) :
    ∃ b, ArrModel.sample kind a z = .ok b ∧
      Rep ds b ⟨m.rows, m.cols, fun i j => kindRule kind (m.get i j) fun q => z (i :: j :: unravel ds q)⟩ := by
  cases kind with
  | const => exact ⟨_, rfl, sample_const h z⟩
  | iso => exact sample_iso h z (hk rfl).1 (hk rfl).2
  | aniso =>
    obtain ⟨b, hb, hbr⟩ := bin_rep (f := fun a b => a * b) (g := fun v w q => v q * w q) (fun _ _ _ => rfl) (sample_const h z) h
      (Mat.bin_of_dims (Mat.bdim_self _) (Mat.bdim_self _))
    refine ⟨b, hb, hbr.shape, fun i hi j hj q => ?_⟩
    rw [hbr.get i hi j hj q]
    simp only at hi hj ⊢
    rw [Mat.bpos_lt hi, Mat.bpos_lt hj]
    rfl

/-! ### The step -/

theorem map_rep {a : Arr α} {m : Mat (Fin ds.prod → α)} (h : Rep ds a m) (f : α → β) : Rep ds (a.map f) (m.map fun v q => f (v q)) :=
  ⟨h.shape, fun i hi j hj q => congrArg f (h.get i hi j hj q)⟩

theorem apply_rep {r c : ℕ} {g : ℕ → ℕ → ℝ × Flt ℝ × (Fin ds.prod → ℝ)} {y : Arr ℝ} {cons : Cons ℝ (Fin ds.prod → ℝ)} {wx : Mat (ℝ × Flt ℝ × (Fin ds.prod → ℝ))}
    (h : Rep ds y (cons.apply ⟨r, c, g⟩)) (hr : r = wx.rows) (hc : c = wx.cols) (hg : ∀ i < r, ∀ j < c, g i j = wx.get i j) : Rep ds y (cons.apply wx) := by
  have hrow : ∀ i < r, (⟨r, c, g⟩ : Mat _).row i = wx.row i := by
    intro i hi
    unfold Mat.row
    rw [← hc]
    exact List.map_congr_left fun k hk => hg i hi k (List.mem_range.1 hk)
  cases cons with
  | mean rl =>
    refine ⟨by rw [h.shape]; simp only [Cons.apply, hr], fun i hi j hj q => ?_⟩
    simp only [Cons.apply] at hi hj ⊢
    rw [h.get i (by simp only [Cons.apply]; omega) j hj q]
    simp only [Cons.apply]
    rw [hrow i (by omega)]
  | polar rl =>
    refine ⟨by rw [h.shape]; simp only [Cons.apply, hr, hc], fun i hi j hj q => ?_⟩
    simp only [Cons.apply] at hi hj ⊢
    rw [h.get i (by simp only [Cons.apply]; omega) j (by simp only [Cons.apply]; omega) q]
    simp only [Cons.apply]
    rw [hrow i (by omega)]

theorem cboInner_rep_of {F : Arr ℝ → Except Err (Arr (Flt ℝ))} {kind : ArrModel.Kind} {smp : ℕ → List ℕ → ℝ}
    {env : Env ℝ (Fin ds.prod → ℝ)} {consA : Arr (Flt ℝ) → Arr ℝ → Except Err (Arr ℝ)} {p s' : St ℝ (Fin ds.prod → ℝ)}
    (ecorr : env.corr = .none) (enoise : env.noise = rowNoise (kindRule kind) fun c i j q => smp c (i :: j :: unravel ds q))
    (ef : ActsBy ds F env.f)
    (econs : ∀ c e v (e1 : Arr (Flt ℝ)) (a1 : Arr ℝ), Rep2 e1 ⟨p.active.length, c, e⟩ → Rep ds a1 ⟨p.active.length, c, v⟩ →
      ∃ y, consA e1 a1 = .ok y ∧ Rep ds y (env.cons.apply ⟨p.active.length, c, fun i j => (p.alpha (p.active.getD i 0), e i j, v i j)⟩))
    (hrow : p.cIdx.rows = p.active.length) (hprow : p.pIdx.rows = p.active.length)
    (hk : kind = .iso → p.pIdx.rows ≠ 0 ∧ p.pIdx.cols ≠ 0) (h : cboInner env p = .ok s') {A : ArrModel.State} (hx : Rep ds A.x p.x)
    (hen : Rep2 A.energy p.energy) :
    ∃ A' c d, ArrModel.stepWith F consA kind (smp p.draws) p.cIdx p.pIdx p.lamda p.dt p.sigma A = .ok (A', c, d) ∧
      Rep ds A'.x s'.x ∧ Rep2 A'.energy s'.energy ∧ A'.alpha = A.alpha ∧ (∃ m, s'.cons = some m ∧ Rep ds c m) ∧
      ∃ m, s'.drift = some m ∧ Rep ds d m := by
  simp only [cboInner, bind_ok] at h
  obtain ⟨q, hq, hm⟩ := h
  simp only [computeConsensus, bind_ok, pure_ok, evalF, callF] at hq
  obtain ⟨xb, hxb, _, _, w, hw, wx, hwx, en, hen', rfl⟩ := hq
  obtain ⟨hin, xr, xc, hg⟩ := Mat.gather_ok hxb
  obtain ⟨a1, ha1, r1⟩ := gather_rep hx hxb
  obtain ⟨e1, he1, re1⟩ := ef a1 xb r1
  -- consensus
  have re1' : Rep2 e1 ⟨p.active.length, xb.cols, fun i j => env.f (xb.get i j)⟩ := by
    have := re1
    unfold Mat.map at this
    rw [xr, hrow] at this
    exact this
  have r1' : Rep ds a1 ⟨p.active.length, xb.cols, xb.get⟩ := by
    rw [← hrow, ← xr]
    exact r1
  obtain ⟨c, hc, rc⟩ := econs _ _ _ _ _ re1' r1'
  obtain ⟨w1, w2, w3⟩ := Mat.bin_ok hw
  obtain ⟨y1, y2, y3⟩ := Mat.bin_ok hwx
  simp only [alphaActive, Mat.map] at w1 w2 w3
  rw [xr, hrow, Mat.bdim_self] at w1
  rw [Mat.bdim_one_left] at w2
  simp only [Option.some.injEq] at w1 w2
  rw [← w1, xr, hrow, Mat.bdim_self] at y1
  rw [← w2, Mat.bdim_self] at y2
  simp only [Option.some.injEq] at y1 y2
  have hcons : Rep ds c (env.cons.apply wx) := by
    refine apply_rep rc y1 y2 fun i hi k hk => ?_
    rw [y3, w3, xr, hrow, ← w1, ← w2, Mat.bpos_lt hi, Mat.bpos_lt hk, Mat.bpos_lt hi, Mat.bpos_lt hk]
  have hcr : (env.cons.apply wx).rows = p.active.length := by
    rw [y1]
    cases env.cons <;> rfl
  -- energies
  obtain ⟨e2, he2, re2⟩ := scatter_rep2 hen re1 (by simp only [Mat.map]; exact xr) (by simp only [Mat.map]; exact xc) hen'
  -- move
  simp only [cboMove, bind_ok, correction, ecorr, pure_ok] at hm
  obtain ⟨xp, hxp, d, hd, ⟨d', q'⟩, hcor, n, hn, u, hu, x, hxx, hs'⟩ := hm
  simp only [Prod.mk.injEq] at hcor
  obtain ⟨rfl, rfl⟩ := hcor
  simp only at hn hu hxx hs'
  obtain ⟨hin2, xr2, xc2, hg2⟩ := Mat.gather_ok hxp
  obtain ⟨ap, hap, rp⟩ := gather_rep hx hxp
  obtain ⟨ad, had, rd⟩ := bin_rep (f := fun a b => a - b) (fun _ _ _ => rfl) rp hcons hd
  obtain ⟨d1, d2, d3⟩ := Mat.bin_ok hd
  rw [enoise] at hn
  simp only [rowNoise] at hn
  injection hn with hn
  obtain ⟨u1, u2, -⟩ := Mat.bin_ok hu
  rw [← hn] at u1 u2
  simp only at u1 u2
  rw [Mat.bdim_self, Option.some.injEq] at u1 u2
  have dr : d.rows = p.pIdx.rows := by
    rw [xr2, hprow, hcr, Mat.bdim_self, Option.some.injEq] at d1
    rw [← d1, hprow]
  have dc : d.cols = p.pIdx.cols := by
    unfold Mat.scatterAdd at hxx
    rw [hxp] at hxx
    simp only at hxx
    cases hb : Mat.bto xp.rows xp.cols u with
    | error e => rw [hb] at hxx; simp at hxx
    | ok w' =>
      obtain ⟨-, -, -, b4, -⟩ := Mat.bto_ok hb
      rw [← u2, xc2] at b4
      rcases b4 with b4 | b4
      · exact b4
      · rw [b4, xc2] at d2
        obtain ⟨k1, k2⟩ := Mat.bdim_eq_some d2
        omega
  obtain ⟨an, han, rn⟩ := sample_rep rd kind (smp p.draws) (by rw [dr, dc]; exact hk)
  have rn' : Rep ds (an.map fun v => Real.sqrt p.dt * v) n := by
    rw [← hn]
    refine ⟨rn.shape, fun i hi j hj q => ?_⟩
    simp only [Arr.map, Pi.smul_apply, smul_eq_mul]
    rw [rn.get i hi j hj q]
  obtain ⟨au, hau, ru⟩ := bin_rep (f := fun d n => -p.lamda * p.dt * d + p.sigma * n) (fun _ _ _ => rfl) rd rn' hu
  obtain ⟨ax, hax, rx⟩ := scatterAdd_rep hx ru (by rw [← u1]; exact dr) (by rw [← u2]; exact dc) hxx
  refine ⟨{ A with x := ax, energy := e2 }, c, ad, ?_, ?_, ?_, rfl, ⟨env.cons.apply wx, ?_, hcons⟩, d, ?_, rd⟩
  · simp only [ArrModel.stepWith, ha1, he1, hc, he2, hap, had, han, hau, hax, bind, Except.bind, pure, Except.pure]
  · rw [← hs']; exact rx
  · rw [← hs']; exact re2
  · rw [← hs']
  · rw [← hs']

theorem alphaRows_rep {p : St ℝ (Fin ds.prod → ℝ)} {alpha : Arr ℝ} (hact : ∀ m ∈ p.active, m < p.M)
    (hal : Rep2 alpha ⟨p.M, 1, fun i _ => p.alpha i⟩) :
    ∃ al, ArrModel.alphaRows alpha p.active = .ok al ∧ Rep2 al ⟨p.active.length, 1, fun i _ => p.alpha (p.active.getD i 0)⟩ := by
  have hgal : Mat.gather ⟨p.M, 1, fun i _ => p.alpha i⟩ (Idx.ofRuns p.active 1) =
      .ok ⟨p.active.length, 1, fun i _ => p.alpha (p.active.getD i 0)⟩ := by
    rw [Mat.gather_of_inBounds]
    · rfl
    · intro i hi j hj
      exact ⟨hact _ (getD_mem hi), hj⟩
  obtain ⟨al, hal1, ral⟩ := gather_rep2 hal hgal
  refine ⟨al, ?_, ral⟩
  unfold ArrModel.alphaRows
  rw [hal.shape]
  exact hal1

theorem cboInner_rep {F : Arr ℝ → Except Err (Arr (Flt ℝ))} {kind : ArrModel.Kind} {smp : ℕ → List ℕ → ℝ} {T : ℝ}
    {env : Env ℝ (Fin ds.prod → ℝ)} (he : ArrEnv ds F kind smp T env) {p s' : St ℝ (Fin ds.prod → ℝ)}
    (hrow : p.cIdx.rows = p.active.length) (hprow : p.pIdx.rows = p.active.length) (hact : ∀ m ∈ p.active, m < p.M)
    (hk : kind = .iso → p.pIdx.rows ≠ 0 ∧ p.pIdx.cols ≠ 0) (h : cboInner env p = .ok s') {A : ArrModel.State} (hx : Rep ds A.x p.x)
    (hen : Rep2 A.energy p.energy) (hal : Rep2 A.alpha ⟨p.M, 1, fun i _ => p.alpha i⟩) :
    ∃ A' c d, ArrModel.cboStep F kind (smp p.draws) p.active p.cIdx p.pIdx p.lamda p.dt p.sigma A = .ok (A', c, d) ∧
      Rep ds A'.x s'.x ∧ Rep2 A'.energy s'.energy ∧ A'.alpha = A.alpha ∧ (∃ m, s'.cons = some m ∧ Rep ds c m) ∧
      ∃ m, s'.drift = some m ∧ Rep ds d m := by
  obtain ⟨al, hal2, ral⟩ := alphaRows_rep hact hal
  refine cboInner_rep_of he.corr he.noise he.f (fun c e v e1 a1 r1 r2 => ?_) hrow hprow hk h hx hen
  obtain ⟨y, hy, ry⟩ := consensus_rep r1 r2 ral
  refine ⟨y, ?_, ?_⟩
  · simp only [ArrModel.defaultCons, hal2, bind, Except.bind]
    exact hy
  · rw [he.cons]
    exact ry

theorem diffTol_ok {M : ℕ} (tol : ℝ) {u : Arr ℝ} (hu : u.shape = [M]) :
    ∃ t, ArrModel.diffTol M tol u = .ok t ∧ ∀ i < M, t i = decide (u.get [i] < tol) := by
  refine ⟨fun i => decide (u.get (Arr.bindex u.shape [i]) < tol), ?_, fun i hi => ?_⟩
  · unfold ArrModel.diffTol
    rw [if_pos (by rw [hu]; exact Arr.assignable_self _)]
  · simp only
    rw [hu, Arr.bindex_self (s := [M]) (I := [i]) ⟨hi, trivial⟩]

end Verif
