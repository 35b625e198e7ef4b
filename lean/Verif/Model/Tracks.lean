import Verif.Np.Mat

/-!
# Trackers of several dynamics in one program: `pdyn.py:464-510`, `utils/history.py`

A Python list is an object: `self.tracks = extra_tracks` (`pdyn.py:479-481`) makes the dynamic use the list of the caller itself. The memory therefore holds lists of trackers, and dynamics
hold references to them. Of a history entry only the iteration at which it was written is kept (`none` for the entry that `track_x` writes at the start); what is written is the subject of `Model/Dyn.lean`.
-/

namespace Verif

/-- The kinds of trackers, `history.py:6-169`: a class of `known_tracks`, a class or object supplied by the user, or `default_track` with its flag `tracking` (`history.py:44-48`). -/
inductive TKind where
  | known
  | custom
  | deflt (on : Bool)
  deriving DecidableEq

/-- A tracker object and the name it was made for, `pdyn.py:481-492`. A tracker of the user writes under one key of its own. -/
structure Tracker where
  key : String
  kind : TKind
  deriving DecidableEq

/-- The keys of `dyn.history` a tracker writes: `track_drift` (`history.py:157-169`) has two, the others one. -/
def Tracker.keys (t : Tracker) : List String :=
  if t.kind = .known ∧ t.key = "drift" then ["drift", "particle_idx"] else [t.key]

/-- What matters here of the class of a dynamic: the keys of `known_tracks` (`pdyn.py:459-463,660-664`, `mirrorcbo.py:308-310`) and the attributes its objects have when `track` is called
(`history.py:56`). -/
structure Cls where
  known : String → Bool
  attr : String → Bool

/-- `dyn.history`, `pdyn.py:478`: a dictionary of lists. -/
abbrev THist := String → Option (List (Option ℕ))

/-- `init_history` of a tracker, `history.py:50-51,73-76,100-101,123-125,137-138,149-150,161-164`: `track_x` starts with the current positions. -/
def Tracker.start (t : Tracker) (h : THist) : THist :=
  t.keys.foldl (fun h k => Function.update h k (some (if t.kind = .known ∧ k = "x" then [none] else []))) h

/-- `dyn.history[key].append(...)`, `history.py:57,91,115,129,142,154,168-169`; `KeyError` if there is no such entry. -/
def THist.append (v : Option ℕ) (h : THist) (k : String) : Except Err THist :=
  match h k with
  | none => .error .key
  | some l => .ok (Function.update h k (some (l ++ [v])))

/-- `update` of a tracker, `history.py:54-66,78-169`, at iteration `it`; `default_track` switches itself off if the dynamic has no attribute of that name. -/
def Tracker.update (c : Cls) (it : ℕ) (t : Tracker) (h : THist) : Except Err (Tracker × THist) :=
  match t.kind with
  | .deflt false => .ok (t, h)
  | .deflt true =>
    if c.attr t.key then do
      let h ← THist.append (some it) h t.key
      pure (t, h)
    else .ok ({ t with kind := .deflt false }, h)
  | _ => do
    let h ← t.keys.foldlM (THist.append (some it)) h
    pure (t, h)

/-- `for track in self.tracks: track.update(self)`, `pdyn.py:508-509`. -/
def trackAll (c : Cls) (it : ℕ) : List Tracker → THist → Except Err (List Tracker × THist)
  | [], h => .ok ([], h)
  | t :: l, h => do
    let (t, h) ← t.update c it h
    let (l, h) ← trackAll c it l h
    pure (t :: l, h)

/-- `track_args['extra_tracks']`, `pdyn.py:476`: absent, a new list, or the list object that was given to dynamic `j` before (for instance because the same `track_args` are used again). -/
inductive Extra where
  | absent
  | fresh (l : List Tracker)
  | reuse (j : ℕ)

/-- `track_args`, `pdyn.py:474-477`. -/
structure TArgs where
  names : Option (List String)
  saveInt : Option ℕ
  extra : Extra

/-- A dynamic: reference to the list it was given and to the list it uses (they differ after `reset`), and the attributes set in `init_history`, `pdyn.py:474-480`. -/
structure TDyn where
  cls : Cls
  given : ℕ
  tracks : ℕ
  saveInt : ℕ
  it : ℕ
  trackIt : ℕ
  hist : THist

/-- The memory: lists of trackers by reference (those below `next` are in use), and the dynamics made so far; `pdyn.py:464-495`. -/
structure TMem where
  next : ℕ
  cell : ℕ → List Tracker
  dyns : List TDyn

/-- No object yet (`pdyn.py:464-495` not called so far). -/
def TMem.empty : TMem := ⟨0, fun _ => [], []⟩

/-- `for key in track_names: self.tracks.append(...)`, `pdyn.py:481-492`. -/
def namedTrackers (c : Cls) (names : List String) : List Tracker :=
  names.map fun k => ⟨k, if c.known k then .known else .deflt true⟩

/-- `for track in self.tracks: track.init_history(self)` on an empty dictionary, `pdyn.py:478,494-495`. -/
def startHist (l : List Tracker) : THist := l.foldl (fun h t => t.start h) fun _ => none

/-- `init_history` in the constructor, `pdyn.py:464-495`. -/
def tNew (c : Cls) (a : TArgs) (m : TMem) : Except Err TMem := do
  let (r, l, next) ← match a.extra with
    | .absent => (.ok (m.next, [], m.next + 1) : Except Err (ℕ × List Tracker × ℕ))
    | .fresh l => .ok (m.next, l, m.next + 1)
    | .reuse j =>
      match m.dyns[j]? with
      | none => .error .index
      | some d => .ok (d.given, m.cell d.given, m.next)
  let l := l ++ namedTrackers c (a.names.getD ["update_norm", "energy"])
  pure ⟨next, Function.update m.cell r l, m.dyns ++ [⟨c, r, r, a.saveInt.getD 1, 0, 0, startHist l⟩]⟩

/-- `track` and `self.it += 1` in a step of dynamic `i`, `pdyn.py:497-510,925-929`. -/
def tStep (i : ℕ) (m : TMem) : Except Err TMem :=
  match m.dyns[i]? with
  | none => .error .index
  | some d =>
    if d.saveInt = 0 then .error .zeroDiv
    else if d.it % d.saveInt = 0 then do
      let (l, h) ← trackAll d.cls d.it (m.cell d.tracks) d.hist
      pure ⟨m.next, Function.update m.cell d.tracks l, m.dyns.set i { d with it := d.it + 1, trackIt := d.trackIt + 1, hist := h }⟩
    else .ok ⟨m.next, m.cell, m.dyns.set i { d with it := d.it + 1 }⟩

/-- `reset` of dynamic `i`, `pdyn.py:409-410,931-934`: `init_history()` without arguments. -/
def tReset (i : ℕ) (m : TMem) : Except Err TMem :=
  match m.dyns[i]? with
  | none => .error .index
  | some d =>
    let l := namedTrackers d.cls ["update_norm", "energy"]
    .ok ⟨m.next + 1, Function.update m.cell m.next l, m.dyns.set i { d with tracks := m.next, saveInt := 1, it := 0, trackIt := 0, hist := startHist l }⟩

/-- What a program does with dynamics, as far as histories are concerned: constructors, steps and resets (`pdyn.py:126-168,294-311,397-410`). -/
inductive TOp where
  | new (c : Cls) (a : TArgs)
  | step (i : ℕ)
  | reset (i : ℕ)

/-- One of these operations, `pdyn.py:464-510`. -/
def TOp.exec : TOp → TMem → Except Err TMem
  | .new c a => tNew c a
  | .step i => tStep i
  | .reset i => tReset i

/-- A program: operations one after the other (`pdyn.py:464-510`). -/
def tExec : List TOp → TMem → Except Err TMem
  | [], m => .ok m
  | o :: l, m => do
    let m ← o.exec m
    tExec l m

end Verif
