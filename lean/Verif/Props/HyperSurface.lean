import Verif.Proofs.HyperSurface
import Verif.Props.Constrained
import Verif.Props.Mirror
import Verif.Props.Hull
import Verif.Proofs.Constraints
import Verif.Spec.HyperSurface

/-! # C34: the hypersurface dynamics -/

set_option linter.unusedSectionVars false

namespace Verif

open Matrix Surf

section particles

variable {ι : Type} [Fintype ι]

/-- **C34, tangential increments on the sphere.** At a point `x ≠ 0` the increment is orthogonal to the normal `x`; it differs from the
raw increment `z` by a multiple of the normal, so it is the orthogonal projection of `z`. -/
theorem C34_tangent_sphere (aniso : Bool) (x z : ι → ℝ) (hx : x ≠ 0) :
    x ⬝ᵥ (sphere aniso).tangent x z = 0 ∧ ∃ k : ℝ, z - (sphere aniso).tangent x z = k • x := by
  constructor
  · have h := tangentOf_orth (g := sphereGrad x) (by rw [sphereGrad_eq]; exact unit_dot hx) z
    have e : x = euclid x • sphereGrad x := by
      rw [sphereGrad_eq, smul_smul, mul_inv_cancel₀ (euclid_pos hx).ne', one_smul]
    show x ⬝ᵥ tangentOf (sphereGrad x) z = 0
    conv_lhs => rw [e]
    rw [smul_dotProduct, ← e, h, smul_zero]
  · refine ⟨(sphereGrad x ⬝ᵥ z) * (euclid x)⁻¹, ?_⟩
    show z - tangentOf (sphereGrad x) z = _
    rw [tangentOf_eq, sub_sub_cancel, mul_smul]
    congr 1
    exact sphereGrad_eq x

/-- **C34, tangential increments on the plane.** -/
theorem C34_tangent_plane (a : ι → ℝ) (ha : a ≠ 0) (b : ℝ) (aniso : Bool) (x z : ι → ℝ) :
    a ⬝ᵥ (plane a b aniso).tangent x z = 0 ∧ ∃ k : ℝ, z - (plane a b aniso).tangent x z = k • a := by
  have e0 : planeGrad a = sphereGrad a := by rw [planeGrad_eq, sphereGrad_eq]
  have := C34_tangent_sphere aniso a z ha
  simp only [sphere] at this
  simp only [plane, e0]
  exact this

/-- **C34, projection matrix.** At every point other than the origin the matrix of the sphere distance is the orthogonal projection onto the tangent space: it is symmetric, idempotent, annihilates
the point, fixes tangent vectors, and applying it is `proj_tangent_space`; likewise for the plane with its normal. -/
theorem C34_proj_matrix [DecidableEq ι] (v : ι → ℝ) (hv : v ≠ 0) : ∀ g ∈ [sphereGrad v, planeGrad v],
    (projMatrix g).transpose = projMatrix g ∧ projMatrix g * projMatrix g = projMatrix g ∧ (projMatrix g).mulVec v = 0 ∧
    (∀ z, v ⬝ᵥ z = 0 → (projMatrix g).mulVec z = z) ∧ ∀ z, (projMatrix g).mulVec z = tangentOf g z ∧ v ⬝ᵥ (projMatrix g).mulVec z = 0 := by
  intro g hg
  have hg : g = (euclid v)⁻¹ • v := by
    simp only [List.mem_cons, List.not_mem_nil, or_false] at hg
    rcases hg with rfl | rfl
    · exact sphereGrad_eq v
    · exact planeGrad_eq v
  have hu : g ⬝ᵥ g = 1 := by rw [hg]; exact unit_dot hv
  have hne := (euclid_pos hv).ne'
  have hv' : v = euclid v • g := by rw [hg, smul_smul, mul_inv_cancel₀ hne, one_smul]
  have hm : ∀ z, (projMatrix g).mulVec z = z - (g ⬝ᵥ z) • g := by
    intro z
    funext i
    simp only [projMatrix, Matrix.sub_mulVec, Matrix.one_mulVec, Pi.sub_apply, Pi.smul_apply, smul_eq_mul]
    congr 1
    simp only [Matrix.mulVec, dotProduct, Matrix.of_apply, Finset.sum_mul]
    exact Finset.sum_congr rfl fun j _ => by ring
  have hT : (projMatrix g).transpose = projMatrix g := by
    ext i j
    simp only [projMatrix, Matrix.transpose_apply, Matrix.sub_apply, Matrix.of_apply, Matrix.one_apply, eq_comm (a := i) (b := j), mul_comm (g i)]
  have hgz : ∀ z, g ⬝ᵥ (projMatrix g).mulVec z = 0 := by
    intro z
    rw [hm, dotProduct_sub, dotProduct_smul, hu]
    simp
  refine ⟨hT, ?_, ?_, ?_, ?_⟩
  · apply Matrix.ext_of_mulVec_single
    intro j
    rw [← Matrix.mulVec_mulVec, hm ((projMatrix g).mulVec _), hgz, zero_smul, sub_zero]
  · rw [hm]
    nth_rewrite 1 [hv']
    nth_rewrite 2 [hv']
    rw [dotProduct_smul, hu]
    simp
  · intro z hz
    rw [hm, hg, smul_dotProduct, hz]
    simp
  · intro z
    refine ⟨?_, ?_⟩
    · rw [hm]
      funext i
      simp only [tangentOf, Pi.sub_apply, Pi.smul_apply, smul_eq_mul, dotProduct]
      ring
    · rw [hv', smul_dotProduct]
      rw [hgz]
      simp

example : (![1, 2, 2] : Fin 3 → ℝ) ≠ 0 := by
  intro h
  have := congrFun h 0
  simp at this

/-- **C34, tangential increments on the Stiefel manifold.** At a matrix `X` with orthonormal columns the increment `T` satisfies
`Xᵀ T + Tᵀ X = 0`; it differs from the raw increment `Z` by `X S` with `S` symmetric, that is by an element of the normal space. -/
theorem C34_tangent_stiefel {n k l : Type} [Fintype n] [Fintype k] [Fintype l] [DecidableEq k]
    (svd : Matrix n k ℝ → Matrix n l ℝ × (l → ℝ) × Matrix l k ℝ) (aniso : Bool) (x z : n × k → ℝ) (hx : InStiefel (toMat x)) :
    (toMat x)ᵀ * toMat ((stiefel svd aniso).tangent x z) + (toMat ((stiefel svd aniso).tangent x z))ᵀ * toMat x = 0 ∧
    ∃ S : Matrix k k ℝ, Sᵀ = S ∧ toMat z - toMat ((stiefel svd aniso).tangent x z) = toMat x * S := by
  have ht : toMat ((stiefel svd aniso).tangent x z) =
      toMat z - (0.5 : ℝ) • (toMat x * ((toMat z)ᵀ * toMat x + (toMat x)ᵀ * toMat z)) := rfl
  generalize hX : toMat x = X at *
  generalize hZ : toMat z = Z at *
  have hx : Xᵀ * X = 1 := hx
  rw [ht]
  constructor
  · rw [Matrix.mul_sub, Matrix.transpose_sub, Matrix.transpose_smul, Matrix.transpose_mul, Matrix.sub_mul, Matrix.mul_smul, ← Matrix.mul_assoc, hx,
      Matrix.one_mul, Matrix.smul_mul, Matrix.mul_assoc _ _ X, hx, Matrix.mul_one, Matrix.transpose_add, Matrix.transpose_mul,
      Matrix.transpose_mul, Matrix.transpose_transpose, Matrix.transpose_transpose]
    ext i j
    simp only [Matrix.add_apply, Matrix.sub_apply, Matrix.smul_apply, smul_eq_mul, Matrix.zero_apply]
    ring
  · refine ⟨(0.5 : ℝ) • (Zᵀ * X + Xᵀ * Z), ?_, ?_⟩
    · rw [Matrix.transpose_smul, Matrix.transpose_add, Matrix.transpose_mul, Matrix.transpose_mul, Matrix.transpose_transpose,
        Matrix.transpose_transpose, add_comm]
    · rw [sub_sub_cancel, Matrix.mul_smul]

/-- **C34, projection to the sphere.** Every non-zero point is sent to the unit sphere, to a nearest point of it; the division of NumPy gives
the same values. -/
theorem C34_proj_sphere (aniso : Bool) (y : ι → ℝ) (hy : y ≠ 0) :
    Nearest (InSphere 1) y ((sphere aniso).proj y) ∧ ∀ i, sphereProjF y i = .fin ((sphere aniso).proj y i) := by
  obtain ⟨p, hp, hn⟩ := C32_sphere 1 one_pos y hy
  have hF : ∀ i, sphereProjF y i = .fin (sphereProj y i) := by
    intro i
    simp [sphereProjF, Flt.div, (euclid_pos hy).ne', sphereProj]
  have e : p = sphereProj y := by
    funext i
    have h1 := hp i
    have h2 := hF i
    simp only [Mirror.sphereConj, one_mul] at h1
    simp only [sphereProjF] at h2
    rw [h1] at h2
    injection h2
  refine ⟨?_, hF⟩
  rw [e] at hn
  exact hn

/-- **C34, projection to the plane.** Every point is sent to the nearest point of the plane. -/
theorem C34_proj_plane (a : ι → ℝ) (ha : a ≠ 0) (b : ℝ) (aniso : Bool) (y : ι → ℝ) :
    Nearest (InPlane a b) y ((plane a b aniso).proj y) := by
  have e : (plane a b aniso).proj y = Mirror.planeConj (some a) b y := by
    funext i
    simp only [plane, planeProj, Mirror.planeConj, Mirror.planeInit, euclid_sq_sum]
  rw [e]
  exact (C32_plane a ha b y y).1

/-- **C34, projection to the Stiefel manifold**, for any result of the singular value decomposition (tall or square matrices). -/
theorem C34_proj_stiefel {n k : Type} [Fintype n] [Fintype k] [DecidableEq k]
    (svd : Matrix n k ℝ → Matrix n k ℝ × (k → ℝ) × Matrix k k ℝ) (hsvd : ∀ Y, IsSVD Y (svd Y).1 (svd Y).2.1 (svd Y).2.2) (aniso : Bool)
    (y : n × k → ℝ) : InStiefel (toMat ((stiefel svd aniso).proj y)) :=
  C31_stiefel svd (toMat y) (hsvd _)

/-- Points where the hypotheses hold: a point of the sphere with a raw increment that is not tangential, a plane, a matrix with orthonormal
columns. -/
example : (![1, 0] : Fin 2 → ℝ) ≠ 0 ∧ (![1, 0] : Fin 2 → ℝ) ⬝ᵥ ![3, 4] ≠ 0 ∧
    (sphere false).tangent (![1, 0] : Fin 2 → ℝ) ![3, 4] = ![0, 4] ∧
    InStiefel (toMat (fun p : Fin 2 × Fin 1 => if p.1 = 0 then (1 : ℝ) else 0)) := by
  refine ⟨fun h => by simpa using congrFun h 0, by simp, ?_, ?_⟩
  · funext i
    fin_cases i <;> simp [sphere, tangentOf, sphereGrad, euclid, Fin.sum_univ_two]
  · ext i j
    fin_cases i; fin_cases j
    simp [toMat, Matrix.mul_apply]

end particles

section dynamics

variable {ι : Type} [Fintype ι]

/-- **C34, plane (partial).** After every step of every `HyperSurfaceCBO` on a plane, from every reachable state, each particle lies on the plane or
has been clipped by the post-processing (it has a coordinate of the largest allowed size `T`). Missing: the clipped particles, see
`C34_plane_clip_false`. -/
theorem C34_plane_partial (env : Env ℝ (ι → ℝ)) (a : ι → ℝ) (ha : a ≠ 0) (b : ℝ) (aniso : Bool) (r : List (ℝ × Flt ℝ × (ι → ℝ)) → ι → ℝ)
    (hr : env.cons = .mean r) (hn : NoiseOK env) (hp : PermOK env) (T : ℝ) (hT : 0 ≤ T) (hpost : env.post = postFinite T)
    (args : Args ℝ (ι → ℝ)) (s₀ s s' : St ℝ (ι → ℝ)) (ops : List Op) (h0 : init env args = .ok s₀)
    (h : execAll env (consThen env (hyperMove env (plane a b aniso))) ops s₀ = .ok s)
    (h' : step env (consThen env (hyperMove env (plane a b aniso))) s = .ok s') :
    ∀ i < s'.M, ∀ j < s'.N, InPlane a b (s'.x.get i j) ∨ ∃ l, |s'.x.get i j l| = T := by
  have hpm : PostMap env (clipVec T) := fun q => by rw [hpost]; rfl
  have hm := (hyperMove_full env (plane a b aniso)).ok
  have hw := (execAll_induct hm hpm.ok hp (P := fun _ => True) (fun _ _ _ _ _ _ => trivial) ops s₀ s (init_wf hp h0) trivial h).1
  have f := step_frame (consThen_frame hm) h'
  rw [f.M, f.N]
  intro i hi j hj
  obtain ⟨e, q, -, he⟩ := hyperStep_entry hn hr hp hpm hw h' i hi j hj
  rw [he]
  rcases clip_or hT ((plane a b aniso).proj _) with hc | hc
  · left; rw [hc]; exact (C34_proj_plane a ha b aniso _).1
  · right; exact hc

/-- **C34, Stiefel manifold.** After every step, from every reachable state, each particle lies on the Stiefel manifold, if the clipping threshold is
at least 1. -/
theorem C34_stiefel {n k : Type} [Fintype n] [Fintype k] [DecidableEq k] (env : Env ℝ (n × k → ℝ))
    (svd : Matrix n k ℝ → Matrix n k ℝ × (k → ℝ) × Matrix k k ℝ) (hsvd : ∀ Y, IsSVD Y (svd Y).1 (svd Y).2.1 (svd Y).2.2) (aniso : Bool)
    (r : List (ℝ × Flt ℝ × (n × k → ℝ)) → n × k → ℝ) (hr : env.cons = .mean r) (hn : NoiseOK env) (hp : PermOK env) (T : ℝ) (hT : 1 ≤ T)
    (hpost : env.post = postFinite T) (args : Args ℝ (n × k → ℝ)) (s₀ s s' : St ℝ (n × k → ℝ)) (ops : List Op)
    (h0 : init env args = .ok s₀) (h : execAll env (consThen env (hyperMove env (stiefel svd aniso))) ops s₀ = .ok s)
    (h' : step env (consThen env (hyperMove env (stiefel svd aniso))) s = .ok s') :
    ∀ i < s'.M, ∀ j < s'.N, InStiefel (toMat (s'.x.get i j)) := by
  have hpm : PostMap env (clipVec T) := fun q => by rw [hpost]; rfl
  have hm := (hyperMove_full env (stiefel svd aniso)).ok
  have hw := (execAll_induct hm hpm.ok hp (P := fun _ => True) (fun _ _ _ _ _ _ => trivial) ops s₀ s (init_wf hp h0) trivial h).1
  have f := step_frame (consThen_frame hm) h'
  rw [f.M, f.N]
  intro i hi j hj
  obtain ⟨e, q, -, he⟩ := hyperStep_entry hn hr hp hpm hw h' i hi j hj
  generalize (s.x.get i j + _ - _ : n × k → ℝ) = y at he
  rw [he]
  have hS := C34_proj_stiefel svd hsvd aniso y
  rw [clip_fix]
  · exact hS
  · rintro ⟨a, c⟩
    generalize (stiefel svd aniso).proj y = z at hS
    have e := congrFun (congrFun hS c) c
    simp only [Matrix.mul_apply, Matrix.transpose_apply, Matrix.one_apply_eq] at e
    have h1 : z (a, c) * z (a, c) ≤ 1 := by
      rw [← e]
      exact Finset.single_le_sum (f := fun j => toMat z j c * toMat z j c) (fun j _ => mul_self_nonneg _) (Finset.mem_univ a)
    have : |z (a, c)| ≤ 1 := by rw [← sq_le_one_iff_abs_le_one, sq]; exact h1
    linarith

/-- **C34, sphere (partial).** `HyperSurfaceCBO` on the unit sphere, with finite objective, start ensemble on the sphere and step sizes that satisfy
`SmallStep` at all times (initially and kept by the scheduler): every particle of every run is on the unit sphere after every sequence of
operations, also with stopped runs and for every outcome of the noise. Missing: larger steps, for which a particle can hit the origin and leave
the sphere (`C34_sphere_false`). -/
theorem C34_sphere_partial (env : Env ℝ (ι → ℝ)) (f : (ι → ℝ) → ℝ) (hf : ∀ v, env.f v = .fin (f v)) (aniso : Bool)
    (hr : env.cons = .mean consRescale) (hn : NoiseOK env) (hp : PermOK env) (T : ℝ) (hT : 1 ≤ T) (hpost : env.post = postFinite T)
    (a : Args ℝ (ι → ℝ)) (hb : a.batchSize ≠ some 0) (s₀ s : St ℝ (ι → ℝ)) (ops : List Op) (h0 : init env a = .ok s₀)
    (hd : SmallStep (Fintype.card ι) aniso a.sigma a.dt)
    (hsched : ∀ q r, SmallStep (Fintype.card ι) aniso q.sigma q.dt → env.sched q = .ok r → SmallStep (Fintype.card ι) aniso r.sigma r.dt)
    (hx : ∀ i < a.x0.rows, ∀ j < a.x0.cols, InSphere 1 (a.x0.get i j))
    (h : execAll env (consThen env (hyperMove env (sphere aniso))) ops s₀ = .ok s) :
    ∀ i < a.x0.rows, ∀ j < a.x0.cols, InSphere 1 (s.x.get i j) := by
  have hpm : PostMap env (clipVec T) := fun q => by rw [hpost]; rfl
  have hm := (hyperMove_full env (sphere aniso)).ok
  have e0 : s₀.x = a.x0 ∧ s₀.N = a.x0.cols ∧ s₀.M = a.x0.rows ∧ s₀.sigma = a.sigma ∧ s₀.dt = a.dt := by
    unfold init at h0
    split_ifs at h0
    all_goals
      injection h0 with h0
      subst h0
      exact ⟨rfl, rfl, rfl, rfl, rfl⟩
  obtain ⟨e1, e2, e3, e4, e5⟩ := e0
  obtain ⟨-, -, -, hM, hN, hx'⟩ := execAll_induct hm hpm.ok hp
    (P := fun q => 1 ≤ q.batchSize ∧ SmallStep (Fintype.card ι) aniso q.sigma q.dt ∧ q.M = a.x0.rows ∧ q.N = a.x0.cols ∧
      ∀ i < q.M, ∀ j < q.N, InSphere 1 (q.x.get i j))
    (fun o q q' hwq hq h => by
      obtain ⟨b1, b2, b3⟩ := exec_bs (consThen_frame hm) h
      refine ⟨by rw [b1]; exact hq.1, ?_, by rw [b2]; exact hq.2.2.1, by rw [b3]; exact hq.2.2.2.1, ?_⟩
      · cases o with
        | step => have fr := step_frame (consThen_frame hm) h; rw [fr.sigma, fr.dt]; exact hq.2.1
        | select => have fr := select_frame h; rw [fr]; exact hq.2.1
        | sched =>
          simp only [exec, schedUpdate, bind_ok, pure_ok] at h
          obtain ⟨r, hr, rfl⟩ := h
          exact hsched q r hq.2.1 hr
        | reset =>
          simp only [exec] at h
          injection h with h
          subst h
          exact hq.2.1
      · rw [b2, b3]
        by_cases ho : o = .step
        · subst ho
          have fr := step_frame (consThen_frame hm) h
          have hix := preStep_idx env hp hwq
          intro i hi j hj
          obtain ⟨e, k, hk, he⟩ := hyperStep_entry hn hr hp hpm hwq h i hi j hj
          rw [he]
          refine sphere_next hT hq.2.1 e (hq.2.2.2.2 i hi j hj) ?_
          have hl : sampleOf env { q with cIdx := q'.cIdx } k =
              finSample (q.alpha (q.active.getD k 0)) ((List.range q'.cIdx.cols).map fun j =>
                (f (q.x.get (q'.cIdx.run k) (q'.cIdx.par k j)), q.x.get (q'.cIdx.run k) (q'.cIdx.par k j))) := by
            simp only [sampleOf, finSample, List.map_map]
            apply List.map_congr_left
            intro j _
            simp only [Function.comp_apply, hf]
          rw [hl, C21_rescale]
          refine C20_convex _ _ ?_ _ unit_ball_convex ?_
          · intro h0
            have := congrArg List.length h0
            simp only [List.length_map, List.length_range, List.length_nil] at this
            rw [fr.cIdx, hix.cCols] at this
            omega
          · intro p hpp
            simp only [List.mem_map, List.mem_range] at hpp
            obtain ⟨j, hj, rfl⟩ := hpp
            have hin := hix.cIn k (by rw [hix.cRows]; exact hk) j (by rw [← fr.cIdx]; exact hj)
            have := hq.2.2.2.2 _ hin.1 _ hin.2
            simp only [Set.mem_ofPred_eq]
            rw [fr.cIdx, this]; norm_num
        · rw [exec_x ho h]; exact hq.2.2.2.2) ops s₀ s (init_wf hp h0)
    ⟨init_bs hb h0, by rw [e4, e5]; exact hd, e3, e2, by rw [e1, e2, e3]; exact hx⟩ h
  rw [hM, hN] at hx'
  exact hx'

/-- **C34 fails on the sphere for large steps.** Two particles `x`, `-x` of equal energy on the sphere in dimension 3, `dt = σ = 1`: the consensus is 0,
and if the noise of the first particle vanishes its new position before the projection is the origin, whose projection is NaN; the default
post-processing sets all its coordinates to `10^8`, which is far away from the sphere. -/
theorem C34_sphere_false : ∃ x c y : Fin 3 → ℝ, InSphere 1 x ∧ InSphere 1 (-x) ∧ (∀ al e : ℝ, consRescale (finSample al [(e, x), (e, -x)]) = c) ∧
    y = x + (sphere false).tangent x ((1 : ℝ) • c + (1 : ℝ) • 0) - (sphere false).noiseConstr 1 1 x (x - c) ∧
    (∀ i, sphereProjF y i = .nan) ∧ (∀ i, postCoord false (10 ^ 308) (10 ^ 8) (sphereProjF y i) = .fin (10 ^ 8)) ∧
    ¬ InSphere 1 (fun _ : Fin 3 => (10 : ℝ) ^ 8) := by
  have hx : InSphere 1 (![1, 0, 0] : Fin 3 → ℝ) := by simp [InSphere, dotProduct, Fin.sum_univ_three]
  have he : euclid (![1, 0, 0] : Fin 3 → ℝ) = 1 := euclid_one hx
  have hF : ∀ i, sphereProjF (0 : Fin 3 → ℝ) i = .nan := by
    intro i
    simp [sphereProjF, Flt.div, euclid]
  refine ⟨![1, 0, 0], 0, 0, hx, ?_, ?_, ?_, hF, ?_, ?_⟩
  · simp [InSphere, dotProduct, Fin.sum_univ_three]
  · intro al e
    rw [C21_rescale, consDefault_fin]
    simp [gibbs]
  · have : (![1, 0, 0] : Fin 3 → ℝ) - 0 = ![1, 0, 0] := sub_zero _
    rw [this]
    funext i
    simp only [Pi.add_apply, Pi.sub_apply, sphere, Bool.false_eq_true, if_false, constrIso, sphereLap, sphereGrad, he, tangentOf]
    fin_cases i <;> simp <;> norm_num
  · intro i
    rw [hF]
    have h8 : ¬ ((10 : ℝ) ^ 8 < 0) := by norm_num
    simp [postCoord, Flt.nanToNum, Flt.clip, Flt.maximum, Flt.minimum, Flt.isNaN, Flt.lt, h8]
  · simp [InSphere, dotProduct]
    norm_num

/-- Clipping takes particles off a plane: the point `(2T, -T)` of the line `x + 2y = 0` is sent to `(T, -T)`. -/
theorem C34_plane_clip_false (T : ℝ) (hT : 0 < T) : InPlane ![1, 2] 0 (![2 * T, -T] : Fin 2 → ℝ) ∧
    ¬ InPlane ![1, 2] 0 (clipVec T ![2 * T, -T]) := by
  constructor
  · simp [InPlane, dotProduct, Fin.sum_univ_two]
  · have h1 : clipVec T (![2 * T, -T] : Fin 2 → ℝ) = ![T, -T] := by
      funext i
      fin_cases i
      · simp only [clipVec, Fin.zero_eta, Matrix.cons_val_zero]
        rw [max_eq_left (by linarith), min_eq_right (by linarith)]
      · simp only [clipVec, Fin.mk_one, Matrix.cons_val_one, Matrix.cons_val_fin_one]
        rw [max_eq_left (by linarith), min_eq_left (by linarith)]
    rw [h1]
    simp [InPlane, dotProduct, Fin.sum_univ_two]
    intro h
    linarith

/-- A particle that sits in the consensus point and gets no noise: on the sphere and on the Stiefel manifold it stays, on a plane it moves by
`dt` times the tangential part of its own position, because the code projects `dt * consensus` and not `dt * (consensus - x)`. -/
theorem C34_at_consensus (aniso : Bool) (dt sigma : ℝ) (x : ι → ℝ) :
    (InSphere 1 x → (sphere aniso).proj (x + (sphere aniso).tangent x (dt • x + sigma • 0) - (sphere aniso).noiseConstr dt sigma x (x - x)) = x) ∧
    (∀ (a : ι → ℝ) (b : ℝ), a ≠ 0 → InPlane a b x →
      (plane a b aniso).proj (x + (plane a b aniso).tangent x (dt • x + sigma • 0) - (plane a b aniso).noiseConstr dt sigma x (x - x)) =
        x + dt • (x - (b / (a ⬝ᵥ a)) • a)) := by
  have h0 : ∀ g, constrAniso dt sigma x (0 : ι → ℝ) = 0 ∧ ∀ lap, constrIso lap g dt sigma (0 : ι → ℝ) = 0 := by
    intro g
    refine ⟨?_, fun lap => ?_⟩ <;> funext i <;> simp [constrAniso, constrIso, euclid_zero]
  constructor
  · intro hx
    have h1 := euclid_one hx
    have hxx : x ⬝ᵥ x = 1 := by rw [hx]; norm_num
    have hg : sphereGrad x = x := by rw [sphereGrad_eq, h1]; simp
    have ht : tangentOf x (dt • x) = 0 := by rw [tangentOf_eq, dotProduct_smul, hxx]; simp
    have hc : (sphere aniso).noiseConstr dt sigma x (0 : ι → ℝ) = 0 := by
      cases aniso
      · exact (h0 _).2 _
      · exact (h0 0).1
    rw [sub_self, hc, smul_zero, add_zero, sub_zero]
    show sphereProj (x + tangentOf (sphereGrad x) (dt • x)) = x
    rw [hg, ht, add_zero, sphereProj_eq, h1]; simp
  · intro a b ha hx
    have hc : (plane a b aniso).noiseConstr dt sigma x (0 : ι → ℝ) = 0 := by
      cases aniso
      · exact (h0 _).2 _
      · exact (h0 0).1
    have haa : a ⬝ᵥ a ≠ 0 := fun h => ha (dotProduct_self_eq_zero.1 h)
    have hx : a ⬝ᵥ x = b := hx
    have he := euclid_sq a
    have hp := (euclid_pos ha).ne'
    rw [sub_self, hc, smul_zero, add_zero, sub_zero]
    have ht : (plane a b aniso).tangent x (dt • x) = dt • (x - (b / (a ⬝ᵥ a)) • a) := by
      show tangentOf (planeGrad a) (dt • x) = _
      rw [tangentOf_eq, planeGrad_eq, dotProduct_smul, smul_dotProduct, hx, ← he]
      funext i
      simp
      field_simp
    have hin : a ⬝ᵥ (x + dt • (x - (b / (a ⬝ᵥ a)) • a)) = b := by
      rw [dotProduct_add, dotProduct_smul, dotProduct_sub, dotProduct_smul, hx]
      simp [div_mul_cancel₀ _ haa]
    rw [ht]
    funext i
    show planeProj a b _ i = _
    have : ∑ j, a j * (x + dt • (x - (b / (a ⬝ᵥ a)) • a)) j = b := hin
    simp only [planeProj]
    rw [this]
    simp

end dynamics

section examples

/-- The hypotheses of `C34_sphere_partial` and `C34_plane_partial` are met by a dynamic whose constructor and steps succeed. -/
example : ∃ s₀ s s', init Example.circleEnv Example.circleArgs = .ok s₀ ∧
    execAll Example.circleEnv (consThen Example.circleEnv (hyperMove Example.circleEnv (sphere false))) [.step] s₀ = .ok s ∧
    execAll Example.circleEnv (consThen Example.circleEnv (hyperMove Example.circleEnv (plane ![1, 0] 1 true))) [.step] s₀ = .ok s' ∧
    (∀ i < 2, ∀ j < 4, InSphere 1 (Example.circleArgs.x0.get i j)) ∧ SmallStep (Fintype.card (Fin 2)) false (1 / 2) (1 / 10) ∧
    (∀ i < 2, ∀ j < 4, InSphere 1 (s.x.get i j)) := by
  have hp : PermOK Example.circleEnv := Example.perm_ok (rowNoise (fun d z => euclid d • z) Example.smp)
  have hn : NoiseOK Example.circleEnv := (Example.realEnv_standard fun d z => euclid d • z).noise.ok
  have hd : SmallStep (Fintype.card (Fin 2)) false (1 / 2) (1 / 10) := by
    refine ⟨by norm_num, ?_⟩
    simp only [Bool.false_eq_true, if_false, Fintype.card_fin]
    norm_num
  have hx0 : ∀ i < 2, ∀ j < 4, InSphere 1 (Example.circleArgs.x0.get i j) := by
    intro i _ j _
    show InSphere 1 (if i = j then ![1, 0] else ![0, 1])
    split_ifs <;> simp [InSphere, dotProduct, Fin.sum_univ_two]
  have key : ∃ s₀, init Example.circleEnv Example.circleArgs = .ok s₀ ∧ s₀.active.length = s₀.M ∧ s₀.M = 2 ∧ s₀.saveInt = 2 := by
    refine ⟨_, if_neg (by simp [Example.circleArgs, Example.realArgs]), ?_, ?_, ?_⟩ <;>
      simp [Example.circleArgs, Example.realArgs, initBatch, initHistory, checkFDims, callF, baseSt, batchSizeOf]
  obtain ⟨s₀, h0, h1, h2, h3⟩ := key
  have hw := init_wf hp h0
  have post : ∀ s, ∃ x', Example.circleEnv.post s = .ok x' ∧ x'.rows = s.x.rows ∧ x'.cols = s.x.cols := fun s => ⟨_, rfl, rfl, rfl⟩
  obtain ⟨s, hs⟩ := fullStep_total (hyperMove_full Example.circleEnv (sphere false)) rfl hn hp post hw (by omega) h1 (by omega)
    (fun h => by cases h) fun x c n => ⟨_, rfl⟩
  obtain ⟨s', hs'⟩ := fullStep_total (hyperMove_full Example.circleEnv (plane ![1, 0] 1 true)) rfl hn hp post hw (by omega) h1 (by omega)
    (fun h => by cases h) fun x c n => ⟨_, rfl⟩
  have e1 : execAll Example.circleEnv (consThen Example.circleEnv (hyperMove Example.circleEnv (sphere false))) [.step] s₀ = .ok s := by
    simp only [execAll, exec, hs, bind, Except.bind]
  have e2 : execAll Example.circleEnv (consThen Example.circleEnv (hyperMove Example.circleEnv (plane ![1, 0] 1 true))) [.step] s₀ = .ok s' := by
    simp only [execAll, exec, hs', bind, Except.bind]
  refine ⟨s₀, s, s', h0, e1, e2, hx0, hd, ?_⟩
  exact C34_sphere_partial Example.circleEnv (fun v => v 0 ^ 2 + v 1 ^ 2) (fun _ => rfl) false rfl hn hp 100 (by norm_num) rfl
    Example.circleArgs (by simp [Example.circleArgs, Example.realArgs]) s₀ s [.step] h0 hd (by
      intro q r hq hr
      have : r = { alpha := fun m => min (2 * q.alpha m) 1000, lamda := q.lamda, sigma := q.sigma, dt := q.dt } := by
        injection hr with hr; exact hr.symm
      rw [this]; exact hq) hx0 e1

/-- A singular value decomposition of every matrix with two rows and one column, so that the hypothesis of `C34_proj_stiefel` and `C34_stiefel` can be
met. -/
example : ∃ svd : Matrix (Fin 2) (Fin 1) ℝ → Matrix (Fin 2) (Fin 1) ℝ × (Fin 1 → ℝ) × Matrix (Fin 1) (Fin 1) ℝ,
    ∀ Y, IsSVD Y (svd Y).1 (svd Y).2.1 (svd Y).2.2 := by
  have H : ∀ Y : Matrix (Fin 2) (Fin 1) ℝ, ∃ q : Matrix (Fin 2) (Fin 1) ℝ × (Fin 1 → ℝ) × Matrix (Fin 1) (Fin 1) ℝ,
      IsSVD Y q.1 q.2.1 q.2.2 := by
    intro Y
    by_cases h : Y 0 0 ^ 2 + Y 1 0 ^ 2 = 0
    · have h0 : Y 0 0 = 0 := by nlinarith [sq_nonneg (Y 0 0), sq_nonneg (Y 1 0)]
      have h1 : Y 1 0 = 0 := by nlinarith [sq_nonneg (Y 0 0), sq_nonneg (Y 1 0)]
      refine ⟨(!![1; 0], fun _ => 0, 1), ⟨?_, ?_, ?_, fun _ => le_rfl⟩⟩
      · ext i j
        fin_cases i <;> fin_cases j <;> simp [h0, h1]
      · ext i j; fin_cases i; fin_cases j; simp [Matrix.mul_apply, Fin.sum_univ_two]
      · simp
    · have hp : 0 < Y 0 0 ^ 2 + Y 1 0 ^ 2 := lt_of_le_of_ne (by positivity) (Ne.symm h)
      have hs := Real.sq_sqrt hp.le
      have hn := (Real.sqrt_pos.2 hp).ne'
      refine ⟨(!![Y 0 0 / Real.sqrt (Y 0 0 ^ 2 + Y 1 0 ^ 2); Y 1 0 / Real.sqrt (Y 0 0 ^ 2 + Y 1 0 ^ 2)],
        fun _ => Real.sqrt (Y 0 0 ^ 2 + Y 1 0 ^ 2), 1), ⟨?_, ?_, ?_, fun _ => Real.sqrt_nonneg _⟩⟩
      · ext i j
        fin_cases i <;> fin_cases j <;> simp [Matrix.mul_apply, hn]
      · ext i j
        fin_cases i; fin_cases j
        simp only [Matrix.mul_apply, Fin.sum_univ_two]
        simp
        field_simp
        rw [hs]
      · simp
  choose svd hsvd using H
  exact ⟨svd, hsvd⟩

end examples
end Verif
