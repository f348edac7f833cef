import Verif.Quaternion.Model
import Mathlib.Data.Real.Basic
import Mathlib.Analysis.Real.Sqrt

/-!
# Model of `source/ScanPath.{hh,cc}`

Simplifications: the text of a line is already split into tokens and converted to numbers
(the text itself is modelled in `ScanPath/Text.lean`), waiting for the file
(`wait_for_file`, `wait_for_file_to_update`) is not modelled, `double` is `ℝ`.
-/

namespace Verif.ScanPath

open Verif.Quat

/-- `struct ScanPathSegment`, `ScanPath.hh:40-48`.  `endRotation = none` is the default constructed (invalid)
quaternion. -/
structure Segment where
  endTime : ℝ
  power : ℝ
  endPoint : Pt3 ℝ
  endRotation : Option (Q ℝ)

/-! ## Loaders -/

/-- First token of a line of a segment file (`ScanPath.cc:90-106`): `"0"`, `"1"` or anything else. -/
inductive Mode
  | line
  | point
  | other
  deriving DecidableEq

/-- The tokens of a data line of a segment file (`ScanPath.cc:108-136`). -/
structure SegRecord where
  mode : Mode
  pos : Pt3 ℝ
  power : ℝ
  /-- dwell time of a point, speed of a line -/
  param : ℝ

/-- A data line of a segment file. -/
inductive SegLine
  | marker
  | record (r : SegRecord)

/-- Outcome of loading a file. -/
inductive Load
  | ok (segments : List Segment) (ended : Bool)
  | thrown
  /-- a line with zero speed: its end time is `x/0`, i.e. infinite or NaN -/
  | nonFinite

/-- `dealii::Point<3>::distance`. -/
noncomputable def distance (a b : Pt3 ℝ) : ℝ :=
  Real.sqrt ((a.x - b.x) ^ 2 + (a.y - b.y) ^ 2 + (a.z - b.z) ^ 2)

/-- `std::stod(split_line[1..3]) * _distance_scaling`, `ScanPath.cc:109-111, 175-177`. -/
def scalePt (s : ℝ) (p : Pt3 ℝ) : Pt3 ℝ := ⟨p.x * s, p.y * s, p.z * s⟩

open Classical in
/-- The loop `while ((data_index < n_segments) && getline(file, line))` of `load_segment_scan_path`,
`ScanPath.cc:74-139`.  `acc` is `_segment_list`, `n` is `n_segments - data_index`, `ended` is `_scan_path_end`
(which `read_file` never resets). -/
noncomputable def segLoop (dist vel : ℝ) : ℕ → List Segment → Bool → List SegLine → Load
  | 0, acc, ended, _ => .ok acc ended
  | _ + 1, acc, ended, [] => .ok acc ended
  | _ + 1, acc, _, .marker :: _ => .ok acc true
  | n + 1, acc, ended, .record r :: rest =>
    let p := scalePt dist r.pos
    match r.mode with
    | .other => .thrown
    | .point =>
      match acc.getLast? with
      | some prev =>
        segLoop dist vel n (acc ++ [⟨prev.endTime + r.param, r.power, p, none⟩]) ended rest
      | none => segLoop dist vel n (acc ++ [⟨r.param, r.power, p, none⟩]) ended rest
    | .line =>
      match acc.getLast? with
      | none => .thrown
      | some prev =>
        if r.param * vel = 0 then .nonFinite
        else
          segLoop dist vel n
            (acc ++ [⟨prev.endTime + |distance p prev.endPoint / (r.param * vel)|, r.power, p, none⟩])
            ended rest

/-- `ScanPath::load_segment_scan_path`, `ScanPath.cc:58-141`; `n` is the number on the second line, `lines` are the
lines after the third. -/
noncomputable def loadSegment (dist vel : ℝ) (ended : Bool) (n : ℕ) (lines : List SegLine) : Load :=
  segLoop dist vel n [] ended lines

/-- The tokens of a line of an event series (`ScanPath.cc:171-191`); `rotation` is present when the line has
nine tokens. -/
structure EventRecord where
  time : ℝ
  pos : Pt3 ℝ
  rotation : Option (Q ℝ)
  power : ℝ

/-- A line of an event series. -/
inductive EventLine
  | empty
  | marker
  | record (r : EventRecord)

/-- The loop of `load_event_series_scan_path`, `ScanPath.cc:150-194`; the arguments are `_segment_list`,
`last_power`, `_scan_path_end`, `_five_axis`. -/
noncomputable def eventLoop (dist : ℝ) :
    List Segment → ℝ → Bool → Bool → List EventLine → List Segment × Bool × Bool
  | acc, _, ended, five, [] => (acc, ended, five)
  | acc, lastPower, ended, five, .empty :: rest => eventLoop dist acc lastPower ended five rest
  | acc, _, _, five, .marker :: _ => (acc, true, five)
  | acc, lastPower, ended, five, .record r :: rest =>
    eventLoop dist (acc ++ [⟨r.time, lastPower, scalePt dist r.pos, r.rotation⟩]) r.power ended
      (five || r.rotation.isSome) rest

/-- `ScanPath::load_event_series_scan_path`, `ScanPath.cc:143-195`.  Returns `_segment_list`, `_scan_path_end` and
`_five_axis`; the last two keep their old value `true` on a re-read. -/
noncomputable def loadEventSeries (dist : ℝ) (ended five : Bool) (lines : List EventLine) :
    List Segment × Bool × Bool :=
  eventLoop dist [] 0 ended five lines

/-! ## Queries -/

/-- The part of a `ScanPath` object that queries read: `_segment_list`, `_five_axis` and the mutable
`_old_segment`. -/
structure Path where
  segs : List Segment
  fiveAxis : Bool
  old : ℕ

/-- Why a query has no proper answer. -/
inductive Answer (α : Type)
  | value (a : α)
  /-- the sentinel `lowest()` point after the end of the path -/
  | outOfDomain
  /-- a NaN from `0/0` or from an invalid quaternion -/
  | nan
  /-- read outside `_segment_list` (undefined behaviour) -/
  | ub

open Classical in
/-- The `while` loop of `update_current_segment_info`, `ScanPath.cc:203-207`: first index `≥ i` whose end time is not
before `t`; `none` if it runs past the end of the list. -/
noncomputable def search (segs : List Segment) (t : ℝ) (i : ℕ) : Option ℕ :=
  if h : i < segs.length then
    if t > segs[i].endTime then search segs t (i + 1) else some i
  else none
termination_by segs.length - i

/-- The start of a segment, `ScanPath.cc:209-220`: `(start time, start point, start rotation)`. -/
def segStart (segs : List Segment) (i : ℕ) (s : Segment) : ℝ × Pt3 ℝ × Option (Q ℝ) :=
  match i with
  | 0 => (0, s.endPoint, s.endRotation)
  | j + 1 =>
    match segs[j]? with
    | some p => (p.endTime, p.endPoint, p.endRotation)
    | none => (0, s.endPoint, s.endRotation) -- not reachable: `j < i < segs.length`

/-- `update_current_segment_info`, `ScanPath.cc:197-226`. Returns the index and the segment. -/
noncomputable def current (P : Path) (t : ℝ) : Option (ℕ × Segment) :=
  match search P.segs t P.old with
  | none => none
  | some i => (P.segs[i]?).map fun s => (i, s)

open Classical in
/-- The interpolation of `ScanPath::value`, `ScanPath.cc:250-254`, one coordinate:
`start + (end - start) / (t1 - t0) * (t - t0)`. -/
noncomputable def lerp (a b t0 t1 t : ℝ) : ℝ := a + (b - a) / (t1 - t0) * (t - t0)

/-- `_old_segment = current_segment` if `save_segment`, `ScanPath.cc:222-225`. -/
def Path.save (P : Path) (b : Bool) (i : ℕ) : Path := if b then { P with old := i } else P

open Classical in
/-- `ScanPath::value`, `ScanPath.cc:228-257`. -/
noncomputable def value (P : Path) (t : ℝ) (save : Bool) : Answer (Pt3 ℝ) × Path :=
  match P.segs.getLast? with
  | none => (.ub, P)
  | some l =>
    if t > l.endTime then (.outOfDomain, P)
    else
      match current P t with
      | none => (.ub, P)
      | some (i, s) =>
        let (t0, p0, _) := segStart P.segs i s
        if s.endTime - t0 = 0 then (.nan, P.save save i)
        else
          (.value ⟨lerp p0.x s.endPoint.x t0 s.endTime t, lerp p0.y s.endPoint.y t0 s.endTime t,
            lerp p0.z s.endPoint.z t0 s.endTime t⟩, P.save save i)

open Classical in
/-- `ScanPath::get_power_modifier`, `ScanPath.cc:259-275`; it always saves the segment. -/
noncomputable def powerModifier (P : Path) (t : ℝ) : Answer ℝ × Path :=
  match P.segs.getLast? with
  | none => (.ub, P)
  | some l =>
    if t > l.endTime then (.value 0, P)
    else
      match current P t with
      | none => (.ub, P)
      | some (i, s) => (.value s.power, P.save true i)

open Classical in
/-- Slerp part of `ScanPath::get_quaternion`, `ScanPath.cc:312-341`. `none` is NaN (see `powAssign`). -/
noncomputable def slerp (a b : Q ℝ) (t0 t1 t : ℝ) : Option (Q ℝ) :=
  if a = b then some a
  else if t1 - t0 < 1e-12 then some b
  else
    let b' := if a.dot b < 0 then b.scaleAssign (-1) else b
    (powAssign (b'.divAssign a) ((t - t0) / (t1 - t0))).map fun p => p.mulAssign a

open Classical in
/-- `ScanPath::get_quaternion`, `ScanPath.cc:290-342`; it never saves the segment.  Using an invalid quaternion
(all components NaN) gives NaN. -/
noncomputable def quaternion (P : Path) (t : ℝ) : Answer (Q ℝ) :=
  if P.fiveAxis = false then .value ⟨1, 0, 0, 0⟩
  else
    match P.segs.getLast? with
    | none => .ub
    | some l =>
      if t > l.endTime then
        match l.endRotation with
        | none => .nan
        | some q => .value q
      else
        match current P t with
        | none => .ub
        | some (i, s) =>
          let (t0, _, r0) := segStart P.segs i s
          match r0, s.endRotation with
          | some a, some b =>
            match slerp a b t0 s.endTime t with
            | some q => .value q
            | none => .nan
          | _, _ => .nan

open Classical in
/-- `ScanPath::rotate`, `ScanPath.cc:277-288`. -/
noncomputable def rotatePoint (P : Path) (t : ℝ) (p : Pt3 ℝ) : Answer (Pt3 ℝ) :=
  match P.segs.getLast? with
  | none => .ub
  | some l =>
    if t > l.endTime then .value p
    else
      match quaternion P t with
      | .value q => .value (q.rotate p)
      | .outOfDomain => .outOfDomain
      | .nan => .nan
      | .ub => .ub

/-! ## Histories -/

/-- A call on a `ScanPath` object. -/
inductive Call
  | value (t : ℝ) (save : Bool)
  | power (t : ℝ)
  | quaternion (t : ℝ)
  /-- `read_file` replacing the segment list (`ScanPath.cc:43-56`); `_old_segment` is kept. -/
  | reread (segs : List Segment)

/-- Effect of one call on the object. -/
noncomputable def step (P : Path) : Call → Path
  | .value t save => (value P t save).2
  | .power t => (powerModifier P t).2
  | .quaternion _ => P
  | .reread segs => { P with segs := segs }

/-- Effect of a history of calls. -/
noncomputable def after (P : Path) (calls : List Call) : Path := calls.foldl step P

end Verif.ScanPath
