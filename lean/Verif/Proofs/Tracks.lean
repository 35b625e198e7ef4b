import Verif.Spec.Tracks
import Verif.Proofs.Np

set_option linter.unusedSectionVars false

/-! Trackers of several dynamics: one tracker, one list of trackers, and the invariant of the memory. -/

namespace Verif

theorem append_keys (v : Option ℕ) (ks : List String) (hks : ks.Nodup) (h : THist) (hp : ∀ k ∈ ks, ∃ l, h k = some l) :
    ∃ h', ks.foldlM (THist.append v) h = .ok h' ∧ (∀ k ∈ ks, ∀ l, h k = some l → h' k = some (l ++ [v])) ∧ ∀ k, k ∉ ks → h' k = h k := by
  induction ks generalizing h with
  | nil => exact ⟨h, rfl, fun k hk => absurd hk (by simp), fun _ _ => rfl⟩
  | cons k ks ih =>
    obtain ⟨hk, hks⟩ := List.nodup_cons.1 hks
    obtain ⟨l, hl⟩ := hp k (by simp)
    have e : THist.append v h k = .ok (Function.update h k (some (l ++ [v]))) := by unfold THist.append; rw [hl]
    obtain ⟨h', h1, h2, h3⟩ := ih hks (Function.update h k (some (l ++ [v]))) (fun k' hk' => by
      rw [Function.update_of_ne (show k' ≠ k from fun q => hk (q ▸ hk'))]
      exact hp k' (by simp [hk']))
    refine ⟨h', by rw [List.foldlM_cons, e]; exact h1, ?_, ?_⟩
    · intro k' hk' l' hl'
      rcases List.mem_cons.1 hk' with rfl | hk'
      · rw [hl] at hl'
        injection hl' with hl'
        rw [h3 _ hk, Function.update_self, hl']
      · exact h2 k' hk' l' (by rw [Function.update_of_ne (show k' ≠ k from fun q => hk (q ▸ hk'))]; exact hl')
    · intro k' hk'
      rw [List.mem_cons, not_or] at hk'
      rw [h3 _ hk'.2, Function.update_of_ne hk'.1]

theorem Tracker.wantedKeys_eq : Tracker.wantedKeys = Tracker.keys := by
  funext t
  unfold Tracker.wantedKeys Tracker.keys
  split_ifs with h
  · rw [h.2]
  · rfl

theorem Tracker.keys_nodup (t : Tracker) : t.keys.Nodup := by
  unfold Tracker.keys
  split_ifs <;> simp

/-- The tracker object for the wanted tracker `T`: the same, or switched off because the attribute is missing. -/
def Tracker.Of (c : Cls) (t T : Tracker) : Prop := t = T ∨ (T.kind = .deflt true ∧ t = ⟨T.key, .deflt false⟩ ∧ c.attr T.key = false)

theorem Tracker.deflt_keys {t : Tracker} {b : Bool} (h : t.kind = .deflt b) : t.keys = [t.key] := by
  unfold Tracker.keys
  rw [h]
  simp

theorem update_spec (c : Cls) (it : ℕ) (t T : Tracker) (hT : T.kind ≠ .deflt false) (ht : t.Of c T) (h : THist) (hp : ∀ k ∈ T.keys, ∃ l, h k = some l) :
    ∃ t' h', t.update c it h = .ok (t', h') ∧ t'.Of c T ∧ (T.records c → ∀ k ∈ T.keys, ∀ l, h k = some l → h' k = some (l ++ [some it])) ∧
      (¬ T.records c → h' = h) ∧ ∀ k, k ∉ T.keys → h' k = h k := by
  rcases ht with rfl | ⟨h1, rfl, h3⟩
  · obtain ⟨key, kind⟩ := t
    rcases kind with _ | _ | on
    · obtain ⟨h', e1, e2, e3⟩ := append_keys (some it) _ (Tracker.keys_nodup ⟨key, .known⟩) h hp
      exact ⟨_, h', by unfold Tracker.update; simp only; rw [e1]; rfl, Or.inl rfl, fun _ => e2, fun hn => absurd (Or.inl rfl) hn, e3⟩
    · obtain ⟨h', e1, e2, e3⟩ := append_keys (some it) _ (Tracker.keys_nodup ⟨key, .custom⟩) h hp
      exact ⟨_, h', by unfold Tracker.update; simp only; rw [e1]; rfl, Or.inl rfl, fun _ => e2, fun hn => absurd (Or.inr (Or.inl rfl)) hn, e3⟩
    · cases on with
      | false => exact absurd rfl hT
      | true =>
        have hk : Tracker.keys ⟨key, .deflt true⟩ = [key] := Tracker.deflt_keys rfl
        cases ha : c.attr key with
        | true =>
          rw [hk] at hp
          obtain ⟨h', e1, e2, e3⟩ := append_keys (some it) [key] (by simp) h hp
          have e1' : THist.append (some it) h key = .ok h' := by
            simpa [List.foldlM_cons, List.foldlM_nil, bind_ok, pure_ok] using e1
          exact ⟨⟨key, .deflt true⟩, h', by unfold Tracker.update; simp only [ha, if_true]; rw [e1']; rfl, Or.inl rfl, by rw [hk]; exact fun _ => e2, fun hn => absurd (Or.inr (Or.inr ha)) hn, by rw [hk]; exact e3⟩
        | false =>
          refine ⟨⟨key, .deflt false⟩, h, by unfold Tracker.update; simp [ha], Or.inr ⟨rfl, rfl, ha⟩, fun hr => ?_, fun _ => rfl, fun _ _ => rfl⟩
          rcases hr with hr | hr | hr
          · cases hr
          · cases hr
          · rw [ha] at hr; cases hr
  · refine ⟨⟨T.key, .deflt false⟩, h, rfl, Or.inr ⟨h1, rfl, h3⟩, fun hr => ?_, fun _ => rfl, fun _ _ => rfl⟩
    rcases hr with hr | hr | hr
    · rw [h1] at hr; cases hr
    · rw [h1] at hr; cases hr
    · rw [h3] at hr; cases hr

theorem trackAll_spec (c : Cls) (it : ℕ) {l L : List Tracker} (hl : List.Forall₂ (Tracker.Of c) l L) (hn : (L.flatMap Tracker.keys).Nodup) (hon : ∀ t ∈ L, t.kind ≠ .deflt false) (h : THist)
    (hp : ∀ T ∈ L, ∀ k ∈ T.keys, ∃ l, h k = some l) :
    ∃ l' h', trackAll c it l h = .ok (l', h') ∧ List.Forall₂ (Tracker.Of c) l' L ∧
      (∀ T ∈ L, T.records c → ∀ k ∈ T.keys, ∀ l, h k = some l → h' k = some (l ++ [some it])) ∧ (∀ T ∈ L, ¬ T.records c → ∀ k ∈ T.keys, h' k = h k) ∧
      ∀ k, k ∉ L.flatMap Tracker.keys → h' k = h k := by
  induction hl generalizing h with
  | nil => exact ⟨[], h, rfl, .nil, fun _ hT => absurd hT (by simp), fun _ hT => absurd hT (by simp), fun _ _ => rfl⟩
  | @cons t T l L ht _ ih =>
    rw [List.flatMap_cons, List.nodup_append] at hn
    obtain ⟨-, hn2, hn3⟩ := hn
    obtain ⟨t', h1, e1, o1, r1, n1, k1⟩ := update_spec c it t T (hon T (by simp)) ht h (hp T (by simp))
    have hdis : ∀ S ∈ L, ∀ k ∈ S.keys, k ∉ T.keys := fun S hS k hk hk' => hn3 k hk' k (List.mem_flatMap.2 ⟨S, hS, hk⟩) rfl
    obtain ⟨l', h', e2, o2, r2, n2, k2⟩ := ih hn2 (fun S hS => hon S (by simp [hS])) h1 (fun S hS k hk => by
      rw [k1 k (hdis S hS k hk)]
      exact hp S (by simp [hS]) k hk)
    have hT : ∀ k ∈ T.keys, k ∉ L.flatMap Tracker.keys := fun k hk hk' => by
      obtain ⟨S, hS, hk''⟩ := List.mem_flatMap.1 hk'
      exact hdis S hS k hk'' hk
    refine ⟨t' :: l', h', by simp only [trackAll]; rw [e1]; simp only [Bind.bind, Except.bind]; rw [e2]; rfl, .cons o1 o2, ?_, ?_, ?_⟩
    · intro S hS hr k hk q hq
      rcases List.mem_cons.1 hS with rfl | hS
      · rw [k2 k (hT k hk)]; exact r1 hr k hk q hq
      · exact r2 S hS hr k hk q (by rw [k1 k (hdis S hS k hk)]; exact hq)
    · intro S hS hr k hk
      rcases List.mem_cons.1 hS with rfl | hS
      · rw [k2 k (hT k hk), n1 hr]
      · rw [n2 S hS hr k hk, k1 k (hdis S hS k hk)]
    · intro k hk
      rw [List.flatMap_cons, List.mem_append, not_or] at hk
      rw [k2 k hk.2, k1 k hk.1]

theorem start_fold (f : String → List (Option ℕ)) (ks : List String) (h : THist) (k : String) :
    ks.foldl (fun (h : THist) k => Function.update h k (some (f k))) h k = if k ∈ ks then some (f k) else h k := by
  induction ks generalizing h with
  | nil => simp
  | cons a ks ih =>
    rw [List.foldl_cons, ih]
    by_cases hk : k ∈ ks
    · rw [if_pos hk, if_pos (by simp [hk])]
    · rw [if_neg hk]
      by_cases hka : k = a
      · subst hka; simp
      · rw [Function.update_of_ne hka, if_neg (by simp [hka, hk])]

theorem start_eq (t : Tracker) (h : THist) (k : String) :
    t.start h k = if k ∈ t.keys then some (if t.kind = .known ∧ k = "x" then [none] else []) else h k := start_fold _ _ _ _

theorem startAll_spec (L : List Tracker) (hn : (L.flatMap Tracker.keys).Nodup) (h : THist) :
    (∀ T ∈ L, ∀ k ∈ T.keys, L.foldl (fun h t => t.start h) h k = some (if T.kind = .known ∧ k = "x" then [none] else [])) ∧
      ∀ k, k ∉ L.flatMap Tracker.keys → L.foldl (fun h t => t.start h) h k = h k := by
  induction L generalizing h with
  | nil => exact ⟨fun _ hT => absurd hT (by simp), fun _ _ => rfl⟩
  | cons T L ih =>
    rw [List.flatMap_cons, List.nodup_append] at hn
    obtain ⟨-, hn2, hn3⟩ := hn
    obtain ⟨i1, i2⟩ := ih hn2 (T.start h)
    refine ⟨fun S hS k hk => ?_, fun k hk => ?_⟩
    · rw [List.foldl_cons]
      rcases List.mem_cons.1 hS with rfl | hS
      · rw [i2 k (fun hk' => hn3 k hk k hk' rfl), start_eq, if_pos hk]
      · exact i1 S hS k hk
    · rw [List.flatMap_cons, List.mem_append, not_or] at hk
      rw [List.foldl_cons, i2 k hk.2, start_eq, if_neg hk.1]

/-- Dynamic `d` does what `k` asks. -/
structure DynOK (m : TMem) (d : TDyn) (k : Conf) : Prop where
  ref : d.tracks < m.next
  cls : d.cls = k.cls
  save : d.saveInt = k.saveInt
  it : d.it = k.steps
  cnt : d.trackIt = (recordedIts k.saveInt k.steps).length
  objs : List.Forall₂ (Tracker.Of k.cls) (m.cell d.tracks) k.trackers
  nodup : (k.trackers.flatMap Tracker.keys).Nodup
  on : ∀ t ∈ k.trackers, t.kind ≠ .deflt false
  hist : ∀ T ∈ k.trackers, ∀ key ∈ T.keys, d.hist key = some (k.entry T key)
  rest : ∀ key, key ∉ k.trackers.flatMap Tracker.keys → d.hist key = none

/-- The invariant of the memory. -/
structure MemOK (m : TMem) (cs : List Conf) : Prop where
  len : m.dyns.length = cs.length
  dyn : ∀ (i : ℕ) (h : i < m.dyns.length), DynOK m m.dyns[i] (cs[i]'(len ▸ h))
  inj : ∀ (i j : ℕ) (hi : i < m.dyns.length) (hj : j < m.dyns.length), i ≠ j → m.dyns[i].tracks ≠ m.dyns[j].tracks

theorem of_refl (c : Cls) (L : List Tracker) : List.Forall₂ (Tracker.Of c) L L := by
  induction L with
  | nil => exact .nil
  | cons t L ih => exact .cons (Or.inl rfl) ih

theorem recordedIts_zero (s : ℕ) : recordedIts s 0 = [] := rfl

theorem recordedIts_succ (s n : ℕ) : recordedIts s (n + 1) = recordedIts s n ++ if n % s = 0 then [n] else [] := by
  unfold recordedIts
  rw [List.range_succ, List.filter_append]
  congr 1
  by_cases h : n % s = 0 <;> simp [h]

theorem entry_zero (k : Conf) (h : k.steps = 0) (T : Tracker) (key : String) : k.entry T key = if T.kind = .known ∧ key = "x" then [none] else [] := by
  unfold Conf.entry
  rw [h, recordedIts_zero]
  simp

/-- A dynamic just made. -/
theorem dynOK_new {m : TMem} {c : Cls} {L : List Tracker} {r g s : ℕ} (hr : r < m.next) (hc : m.cell r = L) (hn : (L.flatMap Tracker.keys).Nodup) (hon : ∀ t ∈ L, t.kind ≠ .deflt false) :
    DynOK m ⟨c, g, r, s, 0, 0, startHist L⟩ ⟨c, L, s, 0⟩ := by
  obtain ⟨h1, h2⟩ := startAll_spec L hn fun _ => none
  exact ⟨hr, rfl, rfl, rfl, rfl, by simp only; rw [hc]; exact of_refl c L, hn, hon, fun T hT key hk => by rw [entry_zero _ rfl]; exact h1 T hT key hk, fun key hk => h2 key hk⟩

theorem DynOK.mono {m m' : TMem} {d : TDyn} {k : Conf} (h : DynOK m d k) (h1 : m.next ≤ m'.next) (h2 : m'.cell d.tracks = m.cell d.tracks) : DynOK m' d k :=
  { h with ref := h.ref.trans_le h1, objs := by rw [h2]; exact h.objs }


theorem new_ok {m : TMem} {cs : List Conf} (h : MemOK m cs) (c : Cls) (a : TArgs) (ha : a.Own c) :
    ∃ m', tNew c a m = .ok m' ∧ MemOK m' (confStep cs (.new c a)) := by
  set L := a.trackers c with hL
  have e : tNew c a m = .ok ⟨m.next + 1, Function.update m.cell m.next L, m.dyns ++ [⟨c, m.next, m.next, a.saveInt.getD 1, 0, 0, startHist L⟩]⟩ := by
    obtain ⟨names, si, extra⟩ := a
    cases extra with
    | absent => rfl
    | fresh l => rfl
    | reuse j => exact absurd rfl (ha.own j)
  refine ⟨_, e, ⟨by simp [confStep, h.len], fun i hi => ?_, fun i j hi hj hij => ?_⟩⟩
  · simp only [List.length_append, List.length_singleton] at hi
    simp only [confStep]
    by_cases hi' : i < m.dyns.length
    · rw [List.getElem_append_left hi', List.getElem_append_left (h.len ▸ hi')]
      refine (h.dyn i hi').mono (Nat.le_succ _) ?_
      exact Function.update_of_ne (Nat.ne_of_lt (h.dyn i hi').ref) _ _
    · obtain rfl : i = m.dyns.length := by omega
      rw [List.getElem_append_right (le_refl _), List.getElem_append_right (by rw [h.len])]
      simp only [h.len, Nat.sub_self, List.getElem_cons_zero]
      exact dynOK_new (Nat.lt_succ_self _) (Function.update_self _ _ _) (Tracker.wantedKeys_eq ▸ ha.nodup) ha.on
  · simp only [List.length_append, List.length_singleton] at hi hj
    have key : ∀ (i : ℕ) (hi : i < (m.dyns ++ [(⟨c, m.next, m.next, a.saveInt.getD 1, 0, 0, startHist L⟩ : TDyn)]).length),
        (i < m.dyns.length → (m.dyns ++ [(⟨c, m.next, m.next, a.saveInt.getD 1, 0, 0, startHist L⟩ : TDyn)])[i].tracks < m.next) ∧
        (i = m.dyns.length → (m.dyns ++ [(⟨c, m.next, m.next, a.saveInt.getD 1, 0, 0, startHist L⟩ : TDyn)])[i].tracks = m.next) := by
      intro i hi
      refine ⟨fun hi' => ?_, fun hi' => ?_⟩
      · rw [List.getElem_append_left hi']; exact (h.dyn i hi').ref
      · subst hi'; simp
    have ki := key i (by simp; omega)
    have kj := key j (by simp; omega)
    by_cases hi' : i < m.dyns.length
    · by_cases hj' : j < m.dyns.length
      · simp only [List.getElem_append_left hi', List.getElem_append_left hj']
        exact h.inj i j hi' hj' hij
      · have := ki.1 hi'
        have := kj.2 (by omega)
        dsimp only
        omega
    · have := ki.2 (by omega)
      have := kj.1 (by omega)
      dsimp only
      omega

/-- Replacing one dynamic. -/
theorem memOK_set {m : TMem} {cs : List Conf} (h : MemOK m cs) {m' : TMem} {i : ℕ} (hi : i < m.dyns.length) {d' : TDyn} (f : Conf → Conf) (hd : m'.dyns = m.dyns.set i d')
    (hn : m.next ≤ m'.next) (hok : DynOK m' d' (f (cs[i]'(h.len ▸ hi)))) (hcell : ∀ j (hj : j < m.dyns.length), j ≠ i → m'.cell m.dyns[j].tracks = m.cell m.dyns[j].tracks)
    (hinj : ∀ j (hj : j < m.dyns.length), j ≠ i → m.dyns[j].tracks ≠ d'.tracks) : MemOK m' (cs.modify i f) := by
  refine ⟨by rw [hd]; simp [h.len], fun j hj => ?_, fun j k hj hk hjk => ?_⟩
  · have hj' : j < m.dyns.length := by rw [hd, List.length_set] at hj; exact hj
    simp only [hd, List.getElem_set, List.getElem_modify]
    by_cases hij : i = j
    · subst hij; rw [if_pos rfl, if_pos rfl]; exact hok
    · rw [if_neg hij, if_neg hij]
      exact (h.dyn j hj').mono hn (hcell j hj' (Ne.symm hij))
  · have hj' : j < m.dyns.length := by rw [hd, List.length_set] at hj; exact hj
    have hk' : k < m.dyns.length := by rw [hd, List.length_set] at hk; exact hk
    simp only [hd, List.getElem_set]
    by_cases hij : i = j
    · subst hij; rw [if_pos rfl, if_neg hjk]; exact (hinj k hk' (Ne.symm hjk)).symm
    · rw [if_neg hij]
      by_cases hik : i = k
      · subst hik; rw [if_pos rfl]; exact hinj j hj' (Ne.symm hij)
      · rw [if_neg hik]; exact h.inj j k hj' hk' hjk

theorem step_mem {m : TMem} {cs : List Conf} (h : MemOK m cs) (i : ℕ) (hi : i < m.dyns.length) (hs : (cs[i]'(h.len ▸ hi)).saveInt ≠ 0) :
    ∃ m', tStep i m = .ok m' ∧ MemOK m' (confStep cs (.step i)) := by
  have hd := h.dyn i hi
  set d := m.dyns[i] with hdd
  set k := cs[i]'(h.len ▸ hi) with hk
  unfold tStep
  rw [List.getElem?_eq_getElem hi]
  simp only [← hdd]
  rw [if_neg (by rw [hd.save]; exact hs)]
  by_cases h0 : d.it % d.saveInt = 0
  · rw [if_pos h0]
    obtain ⟨l', h', e, o, r, n, q⟩ := trackAll_spec k.cls d.it hd.objs hd.nodup hd.on d.hist (fun T hT key hkey => ⟨_, hd.hist T hT key hkey⟩)
    have e' : trackAll d.cls d.it (m.cell d.tracks) d.hist = .ok (l', h') := by rw [hd.cls]; exact e
    rw [e']
    have h0' : k.steps % k.saveInt = 0 := by rw [← hd.it, ← hd.save]; exact h0
    have hrec : recordedIts k.saveInt (k.steps + 1) = recordedIts k.saveInt k.steps ++ [k.steps] := by rw [recordedIts_succ, if_pos h0']
    refine ⟨_, rfl, memOK_set h hi (fun k => { k with steps := k.steps + 1 }) rfl (le_refl _) ?_ ?_ ?_⟩
    · refine ⟨hd.ref, hd.cls, hd.save, by simp only; rw [hd.it], by simp only; rw [← hk, hrec, hd.cnt]; simp, by simp only [Function.update_self]; exact o, hd.nodup, hd.on, ?_, ?_⟩
      · intro T hT key hkey
        have hh := hd.hist T hT key hkey
        by_cases hr : T.records k.cls
        · simp only
          rw [r T hT hr key hkey _ hh, ← hk]
          unfold Conf.entry
          simp only
          rw [if_pos hr, if_pos hr, hrec, hd.it]
          simp
        · simp only
          rw [n T hT hr key hkey, hh, ← hk]
          unfold Conf.entry
          simp only
          rw [if_neg hr, if_neg hr]
      · intro key hkey
        simp only
        rw [q key hkey]
        exact hd.rest key hkey
    · intro j hj hji
      exact Function.update_of_ne (h.inj j i hj hi hji) _ _
    · intro j hj hji
      exact h.inj j i hj hi hji
  · rw [if_neg h0]
    have h0' : ¬ k.steps % k.saveInt = 0 := by rw [← hd.it, ← hd.save]; exact h0
    have hrec : recordedIts k.saveInt (k.steps + 1) = recordedIts k.saveInt k.steps := by rw [recordedIts_succ, if_neg h0', List.append_nil]
    refine ⟨_, rfl, memOK_set h hi (fun k => { k with steps := k.steps + 1 }) rfl (le_refl _) ?_ (fun j hj hji => rfl) (fun j hj hji => h.inj j i hj hi hji)⟩
    refine ⟨hd.ref, hd.cls, hd.save, by simp only; rw [hd.it], by simp only; rw [← hk, hrec]; exact hd.cnt, hd.objs, hd.nodup, hd.on, ?_, hd.rest⟩
    intro T hT key hkey
    simp only
    rw [hd.hist T hT key hkey, ← hk]
    unfold Conf.entry
    simp only
    rw [hrec]

theorem step_mem_zero {m : TMem} {cs : List Conf} (h : MemOK m cs) (i : ℕ) (hi : i < m.dyns.length) (hs : (cs[i]'(h.len ▸ hi)).saveInt = 0) : tStep i m = .error .zeroDiv := by
  unfold tStep
  rw [List.getElem?_eq_getElem hi]
  simp only
  rw [if_pos (by rw [(h.dyn i hi).save]; exact hs)]

theorem default_nodup (c : Cls) : ((wantedTrackers c ["update_norm", "energy"]).flatMap Tracker.keys).Nodup := by
  unfold wantedTrackers Tracker.keys
  simp

theorem wantedTrackers_on (c : Cls) (names : List String) : ∀ t ∈ wantedTrackers c names, t.kind ≠ .deflt false := by
  intro t ht
  obtain ⟨k, -, rfl⟩ := List.mem_map.1 ht
  simp only
  split_ifs <;> simp

theorem reset_mem {m : TMem} {cs : List Conf} (h : MemOK m cs) (i : ℕ) (hi : i < m.dyns.length) : ∃ m', tReset i m = .ok m' ∧ MemOK m' (confStep cs (.reset i)) := by
  have hd := h.dyn i hi
  unfold tReset
  rw [List.getElem?_eq_getElem hi]
  refine ⟨_, rfl, memOK_set h hi (fun k => ⟨k.cls, wantedTrackers k.cls ["update_norm", "energy"], 1, 0⟩) rfl (Nat.le_succ _) ?_ ?_ ?_⟩
  · rw [hd.cls]
    exact dynOK_new (Nat.lt_succ_self _) (Function.update_self _ _ _) (default_nodup _) (wantedTrackers_on _ _)
  · intro j hj _
    exact Function.update_of_ne (Nat.ne_of_lt (h.dyn j hj).ref) _ _
  · intro j hj _
    exact Nat.ne_of_lt (h.dyn j hj).ref

theorem tStep_lt {i : ℕ} {m m' : TMem} (h : tStep i m = .ok m') : i < m.dyns.length := by
  unfold tStep at h
  split at h
  · cases h
  · next d hd => exact (List.getElem?_eq_some_iff.1 hd).1

theorem tReset_lt {i : ℕ} {m m' : TMem} (h : tReset i m = .ok m') : i < m.dyns.length := by
  unfold tReset at h
  split at h
  · cases h
  · next d hd => exact (List.getElem?_eq_some_iff.1 hd).1

theorem memOK_empty : MemOK TMem.empty [] := ⟨rfl, fun i hi => absurd hi (by simp [TMem.empty]), fun i j hi => absurd hi (by simp [TMem.empty])⟩

theorem tExec_append (l l' : List TOp) (m : TMem) : tExec (l ++ l') m = (tExec l m).bind (tExec l') := by
  induction l generalizing m with
  | nil => rfl
  | cons o l ih =>
    simp only [List.cons_append, tExec]
    cases o.exec m with
    | error e => rfl
    | ok m1 => exact ih m1

/-- The invariant along a program in which no list is used twice. -/
theorem exec_memOK {m m' : TMem} {cs : List Conf} (h : MemOK m cs) (ops : List TOp) (hops : ∀ c a, TOp.new c a ∈ ops → a.Own c) (he : tExec ops m = .ok m') :
    MemOK m' (ops.foldl confStep cs) := by
  induction ops generalizing m cs with
  | nil =>
    injection he with he
    subst he
    exact h
  | cons o l ih =>
    simp only [tExec, bind_ok] at he
    obtain ⟨m1, h1, h2⟩ := he
    rw [List.foldl_cons]
    refine ih ?_ (fun c a hca => hops c a (List.mem_cons_of_mem _ hca)) h2
    cases o with
    | new c a =>
      obtain ⟨q, hq, hok⟩ := new_ok h c a (hops c a (by simp))
      rw [show tNew c a m = .ok m1 from h1] at hq
      injection hq with hq
      subst hq
      exact hok
    | step i =>
      have h1 : tStep i m = .ok m1 := h1
      have hi := tStep_lt h1
      by_cases hs : (cs[i]'(h.len ▸ hi)).saveInt = 0
      · rw [step_mem_zero h i hi hs] at h1; cases h1
      · obtain ⟨q, hq, hok⟩ := step_mem h i hi hs
        rw [h1] at hq
        injection hq with hq
        subst hq
        exact hok
    | reset i =>
      have h1 : tReset i m = .ok m1 := h1
      obtain ⟨q, hq, hok⟩ := reset_mem h i (tReset_lt h1)
      rw [h1] at hq
      injection hq with hq
      subst hq
      exact hok

/-- All trackers in the list are the same and record. -/
theorem trackAll_same (c : Cls) (it : ℕ) (key : String) (hk : key ≠ "drift") (n : ℕ) (h : THist) (l : List (Option ℕ)) (hl : h key = some l) :
    ∃ h', trackAll c it (List.replicate n ⟨key, .known⟩) h = .ok (List.replicate n ⟨key, .known⟩, h') ∧ h' key = some (l ++ List.replicate n (some it)) := by
  induction n generalizing h l with
  | zero => exact ⟨h, rfl, by simp [hl]⟩
  | succ n ih =>
    have hkeys : Tracker.keys ⟨key, .known⟩ = [key] := by unfold Tracker.keys; rw [if_neg (by simp [hk])]
    have e : Tracker.update c it ⟨key, .known⟩ h = .ok (⟨key, .known⟩, Function.update h key (some (l ++ [some it]))) := by
      unfold Tracker.update
      simp only [hkeys, List.foldlM_cons, List.foldlM_nil, THist.append, hl]
      rfl
    obtain ⟨h', e1, e2⟩ := ih (Function.update h key (some (l ++ [some it]))) _ (Function.update_self _ _ _)
    refine ⟨h', ?_, by rw [e2, List.replicate_succ]; simp⟩
    rw [List.replicate_succ]
    simp only [trackAll]
    rw [e]
    simp only [Bind.bind, Except.bind]
    rw [e1]
    rfl

theorem start_same (key : String) (hk : key ≠ "drift") (n : ℕ) (h : THist) :
    ((List.replicate (n + 1) (⟨key, .known⟩ : Tracker)).foldl (fun h t => t.start h) h) key = some (if key = "x" then [none] else []) := by
  induction n generalizing h with
  | zero => simp [start_eq, Tracker.keys, hk]
  | succ n ih => rw [List.replicate_succ, List.foldl_cons, ih]

end Verif
