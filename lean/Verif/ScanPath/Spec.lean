import Verif.ScanPath.Model
import Mathlib.Algebra.BigOperators.Group.Finset.Basic

/-!
# Specification vocabulary for scan paths
-/

namespace Verif.ScanPath

/-- The record on a line, if it is one. -/
def SegLine.toRecord? : SegLine → Option SegRecord
  | .marker => none
  | .record r => some r

/-- Is the line the `SCAN_PATH_END` marker? -/
def SegLine.isMarker : SegLine → Bool
  | .marker => true
  | .record _ => false

/-- The records a segment file declares: among the first `n` data lines, those before the first marker. -/
def declaredRecords (n : ℕ) (lines : List SegLine) : List SegRecord :=
  ((lines.take n).takeWhile (fun l => !l.isMarker)).filterMap SegLine.toRecord?

/-- A position in the unit of the file, in metres: `dist` metres per unit. -/
def inMetres (dist : ℝ) (p : Pt3 ℝ) : Pt3 ℝ := ⟨dist * p.x, dist * p.y, dist * p.z⟩

/-- The Euclidean distance. -/
noncomputable def euclid (a b : Pt3 ℝ) : ℝ := Real.sqrt ((b.x - a.x) ^ 2 + (b.y - a.y) ^ 2 + (b.z - a.z) ^ 2)

/-- Time the `i`-th record of a segment file lasts: a point its dwell time, a line its length over its speed. -/
noncomputable def recordDuration (dist vel : ℝ) (recs : List SegRecord) (i : ℕ) : ℝ :=
  match recs[i]? with
  | none => 0
  | some r =>
    match r.mode with
    | .line =>
      match recs[i - 1]? with
      | none => 0
      | some p => euclid (inMetres dist p.pos) (inMetres dist r.pos) / |r.param * vel|
    | _ => r.param

/-- The line is the `SCAN_PATH_END` marker of an event series. -/
def EventLine.isMarker : EventLine → Bool
  | .marker => true
  | _ => false

/-- The record on a line of an event series. -/
def EventLine.toRecord? : EventLine → Option EventRecord
  | .record r => some r
  | _ => none

/-- The events of an event series: the records before the first marker. -/
def events (lines : List EventLine) : List EventRecord :=
  (lines.takeWhile (fun l => !l.isMarker)).filterMap EventLine.toRecord?

/-- The time a call saves into the object (if it is a saving call). -/
def Call.savedTime : Call → Option ℝ
  | .value t true => some t
  | .value _ false => none
  | .power t => some t
  | .quaternion _ => none
  | .reread _ => none

/-- The call does not re-read the file. -/
def Call.isQuery : Call → Prop
  | .reread _ => False
  | _ => True

/-- A path object on which no query has been made yet. -/
def fresh (segs : List Segment) (five : Bool) : Path := ⟨segs, five, 0⟩

/-- Every re-read in the history only appends records to the current list. -/
def Growing : List Segment → List Call → Prop
  | _, [] => True
  | segs, .reread segs' :: rest => segs <+: segs' ∧ Growing segs' rest
  | segs, _ :: rest => Growing segs rest

/-- The segment list after the re-reads of a history. -/
def listAfter : List Segment → List Call → List Segment
  | segs, [] => segs
  | _, .reread segs' :: rest => listAfter segs' rest
  | segs, _ :: rest => listAfter segs rest

/-- End times strictly increase. -/
def StrictTimes (segs : List Segment) : Prop := segs.Pairwise (fun a b => a.endTime < b.endTime)

/-- The point at fraction `f` of the way from `a` to `b`. -/
def between (a b : Pt3 ℝ) (f : ℝ) : Pt3 ℝ :=
  ⟨a.x + f * (b.x - a.x), a.y + f * (b.y - a.y), a.z + f * (b.z - a.z)⟩

end Verif.ScanPath
