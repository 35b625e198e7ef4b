import Verif.Model.Tracks

/-!
What the histories of the dynamics of a program should be: every dynamic has its own trackers, given once by its arguments, and writes one entry per key in every `save_int`-th step,
whatever else the program does.
-/

namespace Verif

/-- The iterations among the first `steps` at which something is recorded. -/
def recordedIts (saveInt steps : ℕ) : List ℕ := (List.range steps).filter fun i => i % saveInt = 0

/-- What a dynamic was asked to record, and the number of its steps since then. -/
structure Conf where
  cls : Cls
  trackers : List Tracker
  saveInt : ℕ
  steps : ℕ

/-- The trackers for a list of names: those the class knows, and attributes recorded by name. -/
def wantedTrackers (c : Cls) (names : List String) : List Tracker := names.map fun k => ⟨k, if c.known k = true then .known else .deflt true⟩

/-- The trackers the caller asks for. Only arguments that do not use a list twice. -/
def TArgs.trackers (c : Cls) (a : TArgs) : List Tracker :=
  (match a.extra with
    | .fresh l => l
    | _ => []) ++ wantedTrackers c (a.names.getD ["update_norm", "energy"])

/-- What the operations ask of the dynamics. -/
def confStep (cs : List Conf) : TOp → List Conf
  | .new c a => cs ++ [⟨c, a.trackers c, a.saveInt.getD 1, 0⟩]
  | .step i => cs.modify i fun k => { k with steps := k.steps + 1 }
  | .reset i => cs.modify i fun k => ⟨k.cls, wantedTrackers k.cls ["update_norm", "energy"], 1, 0⟩

/-- What a program asks of its dynamics. -/
def confs (ops : List TOp) : List Conf := ops.foldl confStep []

/-- The keys that should hold what a tracker records: its own name, and for the drift (`history.py:157-169`) also the selected particles. -/
def Tracker.wantedKeys (t : Tracker) : List String := t.key :: if t.kind = .known ∧ t.key = "drift" then ["particle_idx"] else []

/-- Does the tracker record anything? By name only if the attribute exists. -/
def Tracker.records (c : Cls) (t : Tracker) : Prop := t.kind = .known ∨ t.kind = .custom ∨ c.attr t.key = true

open Classical in
/-- The list that should stand under a key of tracker `t`. -/
noncomputable def Conf.entry (k : Conf) (t : Tracker) (key : String) : List (Option ℕ) :=
  (if t.kind = .known ∧ key = "x" then [none] else []) ++ if t.records k.cls then (recordedIts k.saveInt k.steps).map some else []

/-- Arguments for a dynamic: the list of extra trackers belongs to this dynamic alone, no key is written by two trackers, no default tracker is switched off in advance. -/
structure TArgs.Own (c : Cls) (a : TArgs) : Prop where
  own : ∀ j, a.extra ≠ .reuse j
  nodup : ((a.trackers c).flatMap Tracker.wantedKeys).Nodup
  on : ∀ t ∈ a.trackers c, t.kind ≠ .deflt false

end Verif
