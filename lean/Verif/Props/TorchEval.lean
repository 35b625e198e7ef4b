import Verif.Props.TorchParams
import Verif.Proofs.TorchEval

/-! C80: evaluating flattened networks is evaluating the networks. -/

set_option linter.unusedSectionVars false

namespace Verif

variable {α I O T R X L : Type}

/-- **C80, losses and outputs.** For networks flattened with distinct names, `eval_losses` and `eval_models` never raise and give for each `n`
the loss and the output of the network whose parameters with these names are those of network `n`, the other parameters being those of the
network passed as `model`. -/
theorem C80_losses (ps : NetParams α) (N : ℕ) (hg : GoodParams ps N) (names : List String) (hne : names ≠ []) (hn : names.Nodup)
    (hk : ∀ p ∈ names, p ∈ ps.map (·.1)) (net : Net α I O) (x : I) (y : T) (loss : O → T → R) :
    ∃ pp ws os ls, paramProps ps (some names) = .ok pp ∧ flattenParams ps names = .ok ws ∧ evalModels x net ws pp = .ok os ∧
      evalLosses x y loss net ws pp = .ok ls ∧ os.length = N ∧ ls.length = N ∧
      ∀ n < N, os[n]? = some (net.fwd (fun p => if p ∈ names then netParam ps n p else net.own.lookup p) x) ∧
        ls[n]? = some (loss (net.fwd (fun p => if p ∈ names then netParam ps n p else net.own.lookup p) x) y) := by
  obtain ⟨pp, ws, h1, h2, h3⟩ := C55_roundtrip ps N hg names hne hn hk
  obtain ⟨-, ws', t1, t2, -⟩ := C55_tiles ps N hg names hne hn pp h1
  obtain rfl : ws' = ws := Except.ok.inj (t1.symm.trans h2)
  have key : ∀ n < N, ∃ w, ws'[n]? = some w ∧
      evalModel x net w pp = .ok (net.fwd (fun p => if p ∈ names then netParam ps n p else net.own.lookup p) x) := by
    intro n hnN
    obtain ⟨w, r, e1, e2, e3, e4⟩ := h3 n hnN
    refine ⟨w, e1, ?_⟩
    unfold evalModel
    rw [e2]
    show Except.ok (functionalCall net r x) = _
    unfold functionalCall
    congr 2
    funext p
    cases hl : r.lookup p with
    | none =>
      rw [lookup_none_iff, e3] at hl
      simp only [if_neg hl]
    | some v =>
      have hm := lookup_mem hl
      have hp : p ∈ names := e3 ▸ List.mem_map.2 ⟨_, hm, rfl⟩
      obtain ⟨s, s1, s2, s3⟩ := e4 _ hm
      simp only [if_pos hp]
      unfold netParam
      unfold getParam at s1
      simp only at s1 s2 s3
      cases hs : ps.lookup p with
      | none => rw [hs] at s1; exact nomatch s1
      | some s' =>
        rw [hs] at s1
        injection s1 with s1
        subst s1
        simp only [s3, Option.map_some, ← s2]
  have hws : ws' = (List.range N).map fun n => ws'.getD n [] := by
    apply List.ext_getElem?
    intro n
    rw [List.getElem?_map]
    by_cases hnN : n < N
    · rw [List.getElem?_range hnN, Option.map_some, List.getD_eq_getElem?_getD, List.getElem?_eq_getElem (by omega)]
      rfl
    · rw [List.getElem?_eq_none (by omega), List.getElem?_eq_none (by simp; omega)]
      rfl
  have hE : ∀ n < N, evalModel x net (ws'.getD n []) pp = .ok (net.fwd (fun p => if p ∈ names then netParam ps n p else net.own.lookup p) x) := by
    intro n hnN
    obtain ⟨w, e1, e2⟩ := key n hnN
    rw [List.getD_eq_getElem?_getD, e1]
    exact e2
  have mm : ∀ {γ : Type} (f : List α → Except Err γ) (g : ℕ → γ), (∀ n < N, f (ws'.getD n []) = .ok (g n)) → ws'.mapM f = .ok ((List.range N).map g) := by
    intro γ f g h
    rw [hws, List.mapM_map]
    exact mapM_ok (f := f ∘ fun n => ws'.getD n []) fun n hn => h n (List.mem_range.1 hn)
  refine ⟨pp, ws', _, _, h1, h2, mm _ _ hE, mm _ (fun n => loss (net.fwd (fun p => if p ∈ names then netParam ps n p else net.own.lookup p) x) y) ?_,
    by simp, by simp, fun n hnN => ?_⟩
  · intro n hnN
    unfold evalLoss
    rw [hE n hnN]
    rfl
  · rw [List.getElem?_map, List.getElem?_map, List.getElem?_range hnN]
    exact ⟨rfl, rfl⟩

/-- **C80, whole networks.** If all parameters are flattened (in any order) and `model` has no others, entry `n` of `eval_losses` is the loss
of network `n` itself. -/
theorem C80_networks (ps : NetParams α) (N : ℕ) (hg : GoodParams ps N) (names : List String) (hn : names.Nodup)
    (hk : ∀ p, p ∈ names ↔ p ∈ ps.map (·.1)) (net : Net α I O) (ho : ∀ p ∈ net.own.map (·.1), p ∈ names) (x : I) (y : T) (loss : O → T → R) :
    ∃ pp ws ls, paramProps ps (some names) = .ok pp ∧ flattenParams ps names = .ok ws ∧
      evalLosses x y loss net ws pp = .ok ls ∧ ls.length = N ∧ ∀ n < N, ls[n]? = some (loss (net.fwd (netParam ps n) x) y) := by
  have hne : names ≠ [] := by
    rintro rfl
    obtain ⟨e, he⟩ := List.exists_mem_of_ne_nil _ hg.ne
    exact List.not_mem_nil ((hk e.1).2 (List.mem_map.2 ⟨e, he, rfl⟩))
  obtain ⟨pp, ws, os, ls, h1, h2, -, h4, -, h6, h7⟩ := C80_losses ps N hg names hne hn (fun p hp => (hk p).1 hp) net x y loss
  refine ⟨pp, ws, ls, h1, h2, h4, h6, fun n hnN => ?_⟩
  rw [(h7 n hnN).2]
  congr 3
  funext p
  split_ifs with hp
  · rfl
  · have h1 : net.own.lookup p = none := lookup_none_iff.2 fun h => hp (ho p h)
    have h2 : ps.lookup p = none := lookup_none_iff.2 fun h => hp ((hk p).2 h)
    rw [h1]
    unfold netParam
    rw [h2]

/-- **C80, accuracy.** For a network that treats the inputs of a batch one by one, `eval_acc` is the fraction of the labelled inputs whose
label is the first of the largest outputs; in particular it does not depend on how the data are split into batches, and it lies between
0 and 1. -/
theorem C80_accuracy [LinearOrder L] (net : Net α (List X) (List (List L))) (w : List α) (pp : List (String × PProp)) (r : List (String × Nd α))
    (hr : unflatten w pp = .ok r) (g : X → List L) (hg : ∀ xs, functionalCall net r xs = xs.map g) (hne : ∀ x, g x ≠ [])
    (loader : List (List X × List ℕ)) (hb : ∀ b ∈ loader, b.2.length = b.1.length) (h0 : allData loader ≠ []) :
    ∃ q : ℚ, evalAcc net w pp loader = .ok (.fin q) ∧ q = correct g (allData loader) / (allData loader).length ∧ 0 ≤ q ∧ q ≤ 1 ∧
      (q = 1 ↔ ∀ e ∈ allData loader, Classified (g e.1) e.2) := by
  have hlen : 0 < (allData loader).length := List.length_pos_of_ne_nil h0
  have hl : loader ≠ [] := by rintro rfl; exact h0 rfl
  have hle : correct g (allData loader) ≤ (allData loader).length := List.length_filter_le _ _
  have hq : (0 : ℚ) < ((allData loader).length : ℚ) := by exact_mod_cast hlen
  refine ⟨correct g (allData loader) / (allData loader).length, ?_, rfl, by positivity, ?_, ?_⟩
  · unfold evalAcc
    rw [accFold hr hg hne hb]
    simp only [bind, Except.bind, Nat.zero_add, if_neg hl, if_neg hlen.ne']
    rfl
  · rw [div_le_one hq]
    exact_mod_cast hle
  · rw [div_eq_one_iff_eq hq.ne', Nat.cast_inj]
    unfold correct
    rw [List.length_filter_eq_length_iff]
    simp

/-- **C80, no data.** Without batches `eval_acc` raises `ZeroDivisionError`; with batches but without inputs it returns NaN. -/
theorem C80_empty [LinearOrder L] (net : Net α (List X) (List (List L))) (w : List α) (pp : List (String × PProp)) (r : List (String × Nd α))
    (hr : unflatten w pp = .ok r) (g : X → List L) (hg : ∀ xs, functionalCall net r xs = xs.map g) (hne : ∀ x, g x ≠ [])
    (loader : List (List X × List ℕ)) (hb : ∀ b ∈ loader, b.2.length = b.1.length) (h0 : allData loader = []) :
    evalAcc net w pp loader = if loader = [] then .error .zeroDiv else .ok .nan := by
  unfold evalAcc
  rw [accFold hr hg hne hb, h0]
  simp only [bind, Except.bind, List.length_nil]
  rfl

/-- C80_losses and C80_networks: two networks with three parameters, all of them flattened in another order. -/
example : GoodParams Example.params 2 ∧ ["c", "a", "b"].Nodup ∧ (∀ p, p ∈ ["c", "a", "b"] ↔ p ∈ Example.params.map (·.1)) :=
  ⟨⟨by decide, by decide, by decide⟩, by decide, by intro p; simp [Example.params]; tauto⟩

/-- C80_accuracy: a linear classifier with one weight, four inputs in two batches, three of them classified correctly. -/
example : unflatten [(2 : ℤ)] [("w", ⟨[1], 0, 1⟩)] = .ok [("w", ⟨[1], [2]⟩)] ∧
    (∀ xs : List ℤ, functionalCall (⟨[], fun ps xs => xs.map fun x => [((ps "w").map fun v => v.data.getD 0 0).getD 0 * x, 0]⟩ : Net ℤ (List ℤ) (List (List ℤ)))
      [("w", ⟨[1], [2]⟩)] xs = xs.map fun x => [2 * x, 0]) ∧
    allData [([1, -1, 3], [0, 1, 1]), ([(0 : ℤ)], [0])] ≠ [] ∧
    (match evalAcc (⟨[], fun ps xs => xs.map fun x => [((ps "w").map fun v => v.data.getD 0 0).getD 0 * x, 0]⟩ : Net ℤ (List ℤ) (List (List ℤ)))
      [2] [("w", ⟨[1], 0, 1⟩)] [([1, -1, 3], [0, 1, 1]), ([0], [0])] with
    | .ok q => decide (q = .fin (3 / 4))
    | .error _ => false) = true :=
  ⟨rfl, fun _ => rfl, by simp [allData], by decide +kernel⟩

end Verif
