import Verif.Proofs.Names

/-! Property C58: names select the documented component, unknown names are rejected. -/

set_option linter.unusedSectionVars false

namespace Verif

section
variable {ι : Type} [Fintype ι] [DecidableEq ι]

/-- **C58, noise models.** The documented names give the isotropic, anisotropic, constant and covariance noise; every other string raises, and so does every
value that is neither a string nor callable. -/
theorem C58_noise (smp : ℕ → ℕ → ℕ → ι → ℝ) (eigh : Matrix ι ι ℝ → (ι → ℝ) × Matrix ι ι ℝ) (name : String) (s : St ℝ (ι → ℝ)) (d : Mat (ι → ℝ))
    (hd : s.drift = some d) :
    (∃ f, setNoise smp eigh (.name "isotropic") = .ok f ∧ ∃ n, f s = .ok n ∧ n.rows = d.rows ∧ n.cols = d.cols ∧ ∀ i j k,
      n.get i j k = Real.sqrt s.dt * (smp s.draws i j k * Real.sqrt (∑ l, d.get i j l ^ 2))) ∧
    (∃ f, setNoise smp eigh (.name "anisotropic") = .ok f ∧ ∃ n, f s = .ok n ∧ n.rows = d.rows ∧ n.cols = d.cols ∧ ∀ i j k,
      n.get i j k = Real.sqrt s.dt * (smp s.draws i j k * d.get i j k)) ∧
    (∃ f, setNoise smp eigh (.name "constant") = .ok f ∧ ∃ n, f s = .ok n ∧ n.rows = d.rows ∧ n.cols = d.cols ∧ ∀ i j k,
      n.get i j k = Real.sqrt s.dt * smp s.draws i j k) ∧
    (∀ nm ∈ ["covariance", "sampling"], setNoise smp eigh (.name nm) = .ok (covNoise eigh true smp)) ∧
    (name ∉ ["isotropic", "anisotropic", "covariance", "sampling", "constant"] → Raises (setNoise smp eigh (.name name))) ∧
    Raises (setNoise smp eigh (ι := ι) .other) := by
  refine ⟨⟨rowNoise isoRule smp, by simp [setNoise, getNoise], ?_⟩, ⟨rowNoise anisoRule smp, by simp [setNoise, getNoise], ?_⟩,
    ⟨rowNoise constRule smp, by simp [setNoise, getNoise], ?_⟩, ?_, ?_, ⟨_, rfl⟩⟩
  · refine ⟨⟨d.rows, d.cols, fun i j => Real.sqrt s.dt • isoRule (d.get i j) (smp s.draws i j)⟩, by unfold rowNoise; rw [hd], rfl, rfl, ?_⟩
    intro i j k
    rfl
  · refine ⟨⟨d.rows, d.cols, fun i j => Real.sqrt s.dt • anisoRule (d.get i j) (smp s.draws i j)⟩, by unfold rowNoise; rw [hd], rfl, rfl, ?_⟩
    intro i j k
    rfl
  · refine ⟨⟨d.rows, d.cols, fun i j => Real.sqrt s.dt • constRule (d.get i j) (smp s.draws i j)⟩, by unfold rowNoise; rw [hd], rfl, rfl, ?_⟩
    intro i j k
    rfl
  · intro nm hnm
    simp only [List.mem_cons, List.not_mem_nil, or_false] at hnm
    rcases hnm with rfl | rfl <;> simp [setNoise, getNoise]
  · intro h
    simp only [List.mem_cons, List.not_mem_nil, or_false, not_or] at h
    refine ⟨.notImpl, ?_⟩
    simp [setNoise, getNoise, h.1, h.2.1, h.2.2.1, h.2.2.2.1, h.2.2.2.2]

/-- C58, disagreement: the documentation of `set_noise` (`pdyn.py:860`) offers `None` for isotropic noise; it raises. -/
theorem C58_noise_none_false (smp : ℕ → ℕ → ℕ → ι → ℝ) (eigh : Matrix ι ι ℝ → (ι → ℝ) × Matrix ι ι ℝ) :
    setNoise smp eigh (.other) ≠ setNoise smp eigh (.name "isotropic") := by
  simp [setNoise, getNoise]

end

/-- **C58, termination criteria.** Each criterion can be named by its two words joined by `-`, a space or `_`, as a string or in a dictionary; all other strings and
dictionaries without a name raise; objects are used as they are. -/
theorem C58_terms (name : String) :
    (∀ w ∈ termWords, ∀ sep ∈ ["-", " ", "_"], selectTerm (.name (w.1.1 ++ sep ++ w.1.2)) = .ok w.2) ∧
    ((∀ w ∈ termWords, ∀ sep ∈ ["-", " ", "_"], w.1.1 ++ sep ++ w.1.2 ≠ name) → Raises (selectTerm (.name name))) ∧
    selectTerm (.dict (some name)) = selectTerm (.name name) ∧ Raises (selectTerm (.dict none)) ∧
    (∀ t, selectTerm (.object t) = .ok t) := by
  refine ⟨?_, ?_, rfl, ⟨_, rfl⟩, fun t => rfl⟩
  · intro w hw sep hs
    simp only [termWords, List.mem_cons, List.not_mem_nil, or_false] at hw hs
    rcases hw with rfl | rfl | rfl | rfl | rfl | rfl <;> rcases hs with rfl | rfl | rfl <;> rfl
  · intro h
    refine ⟨.key, item_other _ _ ?_⟩
    intro e he
    rw [termDict_eq, List.mem_flatMap] at he
    obtain ⟨w, hw, he⟩ := he
    obtain ⟨sep, hs, rfl⟩ := List.mem_map.1 he
    exact h w hw sep hs

/-- C58, list of criteria: the constructor accepts a list of names exactly if every name is known, keeps their order, and without a list uses the iteration
bound. -/
theorem C58_term_list (l : List TermArg) (mi : Option ℕ) :
    initTerms none mi = .ok [.maxIt mi] ∧
    (∀ ts, initTerms (some l) mi = .ok ts ↔ l.map selectTerm = ts.map .ok) ∧
    ((∃ a ∈ l, Raises (selectTerm a)) → Raises (initTerms (some l) mi)) := by
  have key : ∀ (l : List TermArg) ts, l.mapM selectTerm = .ok ts ↔ l.map selectTerm = ts.map .ok := by
    intro l
    induction l with
    | nil =>
      intro ts
      cases ts <;> simp [pure, Except.pure]
    | cons a l ih =>
      intro ts
      rw [List.mapM_cons]
      cases h : selectTerm a with
      | error e => cases ts <;> simp [bind, Except.bind, h]
      | ok t =>
        cases h2 : l.mapM selectTerm with
        | error e =>
          simp only [bind, Except.bind, List.map_cons, h]
          constructor
          · intro h; cases h
          · intro h3
            cases ts with
            | nil => cases h3
            | cons t' ts =>
              simp only [List.map_cons, List.cons.injEq] at h3
              have := (ih ts).2 h3.2
              rw [h2] at this
              cases this
        | ok ts' =>
          simp only [bind, Except.bind, pure, Except.pure, List.map_cons, h]
          have hts := (ih ts').1 h2
          constructor
          · intro h3
            cases h3
            simp [hts]
          · intro h3
            cases ts with
            | nil => cases h3
            | cons t' ts =>
              simp only [List.map_cons, List.cons.injEq] at h3
              have := (ih ts).2 h3.2
              rw [h2] at this
              cases this
              cases h3.1
              rfl
  refine ⟨rfl, key l, ?_⟩
  rintro ⟨a, ha, e, he⟩
  cases h : initTerms (some l) mi with
  | error e => exact ⟨e, rfl⟩
  | ok ts =>
    have := (key l ts).1 h
    have hm : selectTerm a ∈ l.map selectTerm := List.mem_map_of_mem ha
    rw [this, he] at hm
    simp at hm

/-- **C58, mirror maps.** Twelve names are accepted, all others raise, also in dictionaries; `None`, `"None"` and `"L2"` are the identity maps, so that MirrorCBO
without mirror map is CBO. -/
theorem C58_mirror (d : ℕ) (name : String) :
    (name ∉ ["ElasticNet", "None", "L2", "ProjectionBall", "ProjectionHyperplane", "ProjectionSphere", "ProjectionSquare", "LogBarrierBox",
      "NonsmoothBarrier", "weighted_L2", "Entropy", "EntropySimplex"] → Raises (Mirror.getMap (d := d) (.name name))) ∧
    Mirror.getMap (d := d) (.dict (some name)) = Mirror.getMap (.name name) ∧ Raises (Mirror.getMap (d := d) (.dict none)) ∧
    (∀ a ∈ [Mirror.MapArg.none, .name "None", .name "L2"], ∃ m, Mirror.getMap (d := d) a = .ok m ∧ ∀ x i, m.grad x i = .fin (x i) ∧ m.conj x i = .fin (x i)) := by
  refine ⟨?_, rfl, ⟨_, rfl⟩, ?_⟩
  · intro h
    refine ⟨.value, ?_⟩
    simp only [Mirror.getMap, Mirror.byName]
    rw [if_neg]
    rw [has_iff]
    rintro ⟨e, he, rfl⟩
    apply h
    simp only [Mirror.mirrorDict, List.mem_cons, List.not_mem_nil, or_false] at he
    rcases he with rfl | rfl | rfl | rfl | rfl | rfl | rfl | rfl | rfl | rfl | rfl | rfl <;> simp
  · intro a ha
    refine ⟨.ofReal (Mirror.l2Grad 1) (Mirror.l2Conj 1), ?_, ?_⟩
    · simp only [List.mem_cons, List.not_mem_nil, or_false] at ha
      rcases ha with rfl | rfl | rfl <;> simp [Mirror.getMap, Mirror.byName, PyDict.has, Mirror.mirrorDict, PyDict.item]
    · intro x i
      simp [Mirror.Maps.ofReal, Mirror.l2Grad, Mirror.l2Conj]

/-- C58, mirror maps: what the names give (default parameters), case by case. -/
theorem C58_mirror_maps (d : ℕ) :
    (∃ m, Mirror.getMap (d := d) (.name "ProjectionBall") = .ok m ∧ m = .ofReal id (Mirror.ballConj 1 0)) ∧
    (∃ m, Mirror.getMap (d := d) (.name "ProjectionHyperplane") = .ok m ∧ m = .ofReal id (Mirror.planeConj none 0)) ∧
    (∃ m, Mirror.getMap (d := d) (.name "ProjectionSphere") = .ok m ∧ m.conj = Mirror.sphereConj 1) ∧
    (∃ m, Mirror.getMap (d := d) (.name "ProjectionSquare") = .ok m ∧ m = .ofReal id (Mirror.squareConj 1)) ∧
    (∃ m, Mirror.getMap (d := d) (.name "ElasticNet") = .ok m ∧ m = .ofReal (Mirror.elasticGrad 1 1) (Mirror.elasticConj 1 1)) ∧
    (∃ m, Mirror.getMap (d := d) (.name "LogBarrierBox") = .ok m ∧ m.conj = fun y i => Mirror.logBarrierConj (y i)) ∧
    (∃ m, Mirror.getMap (d := d) (.name "NonsmoothBarrier") = .ok m ∧ m.conj = fun y i => Mirror.nonsmoothConj (y i)) ∧
    (∃ m, Mirror.getMap (d := d) (.name "EntropySimplex") = .ok m ∧ m = .ofReal Mirror.simplexGrad Mirror.simplexConj) ∧
    (∃ m, Mirror.getMap (d := d) (.name "Entropy") = .ok m ∧ m = .ofReal Mirror.entropyGrad Mirror.entropyConj) ∧
    (∃ m, Mirror.getMap (d := d) (.name "weighted_L2") = .ok m ∧ m = .ofReal (Mirror.weightedGrad 1) Mirror.weightedConj) := by
  refine ⟨?_, ?_, ?_, ?_, ?_, ?_, ?_, ?_, ?_, ?_⟩ <;>
    exact ⟨_, rfl, rfl⟩

/-- **C58, kernels.** The five documented names, and no others. An unknown `kernel_factor_mode` is accepted by the constructor but raises when the consensus is
computed. -/
theorem C58_kernels (name : String) (alpha : ℝ) :
    setKernel "Gaussian" = .ok .gaussian ∧ setKernel "Laplace" = .ok .laplace ∧ setKernel "Constant" = .ok .constant ∧
    setKernel "InverseQuadratic" = .ok .inverseQuadratic ∧ setKernel "Taz" = .ok .taz ∧
    (name ∉ ["Gaussian", "Laplace", "Constant", "InverseQuadratic", "Taz"] → Raises (setKernel name)) ∧
    (kernelMode "const").factor alpha = .ok 1 ∧ (kernelMode "alpha").factor alpha = .ok alpha ∧
    (name ∉ ["const", "alpha"] → Raises ((kernelMode name).factor alpha)) := by
  refine ⟨rfl, rfl, rfl, rfl, rfl, ?_, rfl, rfl, ?_⟩
  · intro h
    refine ⟨.value, ?_⟩
    unfold setKernel
    rw [if_neg]
    rw [has_iff]
    rintro ⟨e, he, rfl⟩
    apply h
    simp only [kernelDict, List.mem_cons, List.not_mem_nil, or_false] at he
    rcases he with rfl | rfl | rfl | rfl | rfl <;> simp
  · intro h
    simp only [List.mem_cons, List.not_mem_nil, or_false, not_or] at h
    refine ⟨.notImpl, ?_⟩
    simp [kernelMode, h.1, h.2, KernelMode.factor]

/-- **C58, regularisers.** The five names of `reg_func_dict`, and no others, as strings or in dictionaries. -/
theorem C58_regularisers (d : ℕ) (name : String) :
    selectReg (d := d) (.name "L0") = .ok (fun x => .ok (regL0 1 x)) ∧ selectReg (d := d) (.name "L1") = .ok (fun x => .ok (regL1 1 x)) ∧
    selectReg (d := d) (.name "Plane") = .ok (fun x => .ok (regPlane (.scalar 1) 0 x)) ∧
    selectReg (d := d) (.name "Sphere") = .ok (fun x => .ok (regSphere 1 x)) ∧
    (name ∉ ["L0", "L1", "Plane", "Sphere", "Quadric"] → Raises (selectReg (d := d) (.name name))) ∧
    selectReg (d := d) (.dict (some name)) = selectReg (.name name) ∧ Raises (selectReg (d := d) (.dict none)) := by
  refine ⟨by simp [selectReg, regDict, PyDict.item], by simp [selectReg, regDict, PyDict.item], by simp [selectReg, regDict, PyDict.item],
    by simp [selectReg, regDict, PyDict.item], ?_, rfl, ⟨_, rfl⟩⟩
  intro h
  refine ⟨.key, item_other _ _ ?_⟩
  rintro e he rfl
  apply h
  simp only [regDict, List.mem_cons, List.not_mem_nil, or_false] at he
  rcases he with rfl | rfl | rfl | rfl | rfl <;> simp

/-- C58, disagreement: `select_reg_func("Quadric")` succeeds, but the regulariser it returns fails on every point. -/
theorem C58_quadric_false (d : ℕ) : ∃ f, selectReg (d := d) (.name "Quadric") = .ok f ∧ ∀ x, Raises (f x) :=
  ⟨fun _ => .error .attribute, by simp [selectReg, regDict, PyDict.item], fun _ => ⟨_, rfl⟩⟩

/-- C58, disagreement: every value of `rule_mean` other than `"weighted"` silently selects the simple mean, misspelled names included. -/
theorem C58_rule_mean_false (name : String) (h : name ≠ "weighted") : ruleMeanWeighted name = false := by
  simp [ruleMeanWeighted, h]

/-- **C58, constraints.** The list of constraints is the list of the named classes with their parameters, in order, leaving out `None`; a single unknown name makes the
whole call raise; no list at all means no constraints. -/
theorem C58_constraints {ι : Type} (l : List (ConArg ι)) :
    (getConstraints (ι := ι) none = .ok []) ∧
    (∀ cs, getConstraints (some l) = .ok cs ↔ ∃ parts : List (List (Con.Constraint ι)), l.map conOf = parts.map .ok ∧ cs = parts.flatten) ∧
    ((∃ a ∈ l, Raises (conOf a)) → Raises (getConstraints (some l))) := by
  have step : ∀ (a : ConArg ι) (cs : List (Con.Constraint ι)), (match a with
      | .none => (.ok cs : Except Err (List (Con.Constraint ι)))
      | .dict name a b r A bv c => do
        let k ← (constDict a b r A bv c).item name
        pure (cs ++ [k])) = (match conOf a with
      | .ok p => .ok (cs ++ p)
      | .error e => .error e) := by
    intro a cs
    cases a with
    | none => simp [conOf]
    | dict name a b r A bv c =>
      simp only [conOf]
      by_cases h1 : name = "plane"
      · subst h1; simp [constDict, PyDict.item, bind, Except.bind, pure, Except.pure]
      · by_cases h2 : name = "sphere"
        · subst h2; simp [constDict, PyDict.item, bind, Except.bind, pure, Except.pure]
        · by_cases h3 : name = "quadric"
          · subst h3; simp [constDict, PyDict.item, bind, Except.bind, pure, Except.pure]
          · rw [item_other]
            · simp [h1, h2, h3, bind, Except.bind]
            · intro e he
              simp only [constDict, List.mem_cons, List.not_mem_nil, or_false] at he
              rcases he with rfl | rfl | rfl
              · exact Ne.symm h1
              · exact Ne.symm h2
              · exact Ne.symm h3
  have key : ∀ (l : List (ConArg ι)) (acc cs : List (Con.Constraint ι)), l.foldlM (fun cs a => match a with
      | .none => (.ok cs : Except Err (List (Con.Constraint ι)))
      | .dict name a b r A bv c => do
        let k ← (constDict a b r A bv c).item name
        pure (cs ++ [k])) acc = .ok cs ↔ ∃ parts : List (List (Con.Constraint ι)), l.map conOf = parts.map .ok ∧ cs = acc ++ parts.flatten := by
    intro l
    induction l with
    | nil =>
      intro acc cs
      constructor
      · intro h
        cases h
        exact ⟨[], rfl, by simp⟩
      · rintro ⟨parts, h1, rfl⟩
        cases parts with
        | nil => simp [pure, Except.pure]
        | cons a b => cases h1
    | cons a l ih =>
      intro acc cs
      rw [List.foldlM_cons, step a acc]
      cases h : conOf a with
      | error e =>
        simp only [bind, Except.bind, List.map_cons, h]
        constructor
        · intro h; cases h
        · rintro ⟨parts, h1, -⟩
          cases parts with
          | nil => cases h1
          | cons q ps => simp at h1
      | ok p =>
        simp only [bind, Except.bind, List.map_cons, h]
        refine (ih (acc ++ p) cs).trans ?_
        constructor
        · rintro ⟨parts, h1, rfl⟩
          exact ⟨p :: parts, by simp [h1], by simp⟩
        · rintro ⟨parts, h1, rfl⟩
          cases parts with
          | nil => cases h1
          | cons q ps =>
            simp only [List.map_cons, List.cons.injEq] at h1
            cases h1.1
            exact ⟨ps, h1.2, by simp⟩
  have main : ∀ cs, getConstraints (some l) = .ok cs ↔ ∃ parts : List (List (Con.Constraint ι)), l.map conOf = parts.map .ok ∧ cs = parts.flatten := by
    intro cs
    exact (key l [] cs).trans (by simp)
  refine ⟨rfl, main, ?_⟩
  rintro ⟨a, ha, e, he⟩
  cases h : getConstraints (some l) with
  | error e => exact ⟨e, rfl⟩
  | ok cs =>
    obtain ⟨parts, h1, -⟩ := (main cs).1 h
    have hm : conOf a ∈ l.map conOf := List.mem_map_of_mem ha
    rw [h1, he] at hm
    simp at hm

/-- **C58, f_dim.** Exactly the names `1D`, `2D`, `3D` are accepted, for functions of the matching kind; objects that are not callable are rejected. -/
theorem C58_fdim {α β : Type} (g : Nd α → Nd β) (k : List α → β) (name : String) :
    promote (.array g) "3D" = .ok (.raw g) ∧ promote (.array g) "2D" = .ok (.f2D g) ∧ promote (.point k) "1D" = .ok (.f1D k) ∧
    (name ∉ ["1D", "2D", "3D"] → ∀ u : UserFun α β, Raises (promote u name)) ∧ Raises (promote (α := α) (β := β) .notCallable name) := by
  refine ⟨by simp [promote], by simp [promote], by simp [promote], ?_, ⟨_, rfl⟩⟩
  intro h u
  simp only [List.mem_cons, List.not_mem_nil, or_false, not_or] at h
  cases u <;> simp [promote, Raises, h.1, h.2.1, h.2.2]

/-- C58: a misspelled name (`maxit`) is not in the table of criteria. -/
example : Raises (selectTerm (.name "maxit")) := (C58_terms "maxit").2.1 (by decide)

/-- C58: a list of constraints with two of three entries used, and one with a misspelled name. -/
example : getConstraints (ι := Fin 2) (some [.dict "sphere" 0 0 2 0 0 0, .none, .dict "plane" ![1, 0] 3 0 0 0 0]) =
      .ok [.sphere 2, .plane ![1, 0] 3] ∧ Raises (getConstraints (ι := Fin 2) (some [.dict "Sphere" 0 0 2 0 0 0])) :=
  ⟨((C58_constraints _).2.1 _).2 ⟨[[.sphere 2], [], [.plane ![1, 0] 3]], by simp [conOf], rfl⟩,
    (C58_constraints _).2.2 ⟨_, List.mem_singleton.2 rfl, .key, by simp [conOf]⟩⟩

end Verif
