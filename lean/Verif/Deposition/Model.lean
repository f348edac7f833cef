import Verif.ScanPath.Model
import Mathlib.Analysis.SpecialFunctions.Trigonometric.Basic
import Mathlib.Data.List.Sort

/-!
# Model of `source/material_deposition.cc`

Simplifications: `double` is `ℝ`; text tokenisation and `wait_for_file` are not modelled; a scan path either has a
rotation on every segment (`is_five_axis()`) or on none, so `is_five_axis()` and `end_rotation.is_valid()` are both
modelled by `endRotation.isSome`; a time that the C++ computes as NaN is `none`.
-/

namespace Verif.Deposition

open Verif.Quat Verif.ScanPath

/-- `dealii::BoundingBox<dim>` given by its lower and upper corner. -/
@[ext] structure Box (n : ℕ) where
  lo : Fin n → ℝ
  hi : Fin n → ℝ

/-- The tuple of four vectors returned by the deposition functions (`material_deposition.hh`): boxes, times, cosines and
sines.  `none` in `times` is NaN. -/
structure Lists (β : Type) where
  boxes : List β
  times : List (Option ℝ)
  cosines : List ℝ
  sines : List ℝ

/-- Four empty vectors. -/
def Lists.empty {β : Type} : Lists β := ⟨[], [], [], []⟩

/-! ## Reading a file -/

/-- The numbers on one line of a deposition file, `material_deposition.cc:82-108`. -/
structure Record (n : ℕ) where
  center : Fin n → ℝ
  size : Fin n → ℝ
  time : ℝ
  angle : ℝ

/-- The loop `while (getline(file, line))` of `read_material_deposition`, `material_deposition.cc:82-121`; `none` is the
exception "Time stamp not increasing.". -/
noncomputable def readLoop {n : ℕ} : Lists (Box n) → List (Record n) → Option (Lists (Box n))
  | acc, [] => some acc
  | acc, r :: rest =>
    -- the time is pushed first and compared with the previous one
    let ok : Prop := match acc.times.getLast? with
      | some (some t) => t ≤ r.time
      | _ => True
    open Classical in
    if ok then
      readLoop ⟨acc.boxes ++ [⟨fun d => r.center d - 0.5 * r.size d, fun d => r.center d + 0.5 * r.size d⟩],
        acc.times ++ [some r.time], acc.cosines ++ [Real.cos r.angle], acc.sines ++ [Real.sin r.angle]⟩ rest
    else none

/-- `read_material_deposition<dim>`, `material_deposition.cc:59-127`; `fileDim` is the number on the first line. `none`
means that an exception is thrown. -/
noncomputable def readDeposition (n : ℕ) (fileDim : ℤ) (recs : List (Record n)) : Option (Lists (Box n)) :=
  if fileDim = n then readLoop .empty recs else none

/-! ## Deposition along a scan path -/

/-- `deposition_length`, `deposition_height`, `deposition_width`, `deposition_lead_time`,
`material_deposition.cc:144-155`. -/
structure Params where
  length : ℝ
  height : ℝ
  width : ℝ
  lead : ℝ

/-- `eps` and `eps_time`, `material_deposition.cc:170-171`. -/
noncomputable def eps : ℝ := 1e-10

/-- What the body of the loop over the segments knows about one powered segment (`material_deposition.cc:159-181`):
`segment_start_time`, `segment_start_point`, `build_ref_segment_start_point` and the segment itself. -/
structure SegCtx where
  startTime : ℝ
  startPoint : Pt3 ℝ
  refStart : Pt3 ℝ
  seg : Segment

/-- A point in the build reference frame, `material_deposition.cc:162-165, 176-179, 317-320`. -/
noncomputable def buildRef (rot : Option (Q ℝ)) (p : Pt3 ℝ) : Pt3 ℝ :=
  match rot with
  | some q => q.invRotate p
  | none => p

/-- `segment_length`, line 180. -/
noncomputable def SegCtx.len (c : SegCtx) : ℝ := distance c.seg.endPoint c.startPoint

open Classical in
/-- `cos`, lines 189-192. -/
noncomputable def SegCtx.cos (c : SegCtx) : ℝ :=
  if c.len ≠ 0 then (c.seg.endPoint.x - c.startPoint.x) / c.len else 1

open Classical in
/-- `sin`, lines 193-196. -/
noncomputable def SegCtx.sin (c : SegCtx) : ℝ :=
  if c.len ≠ 0 then (c.seg.endPoint.y - c.startPoint.y) / c.len else 0

open Classical in
/-- `time_to_box_center` with `segment_velocity`, lines 184-185 and 203-205.  A zero duration makes the velocity `0/0` (NaN,
and NaN is different from zero) or infinite (the quotient is then 0). -/
noncomputable def SegCtx.timeTo (c : SegCtx) (d : ℝ) : Option ℝ :=
  if c.seg.endTime - c.startTime = 0 then (if c.len = 0 then none else some 0)
  else
    let v := c.len / (c.seg.endTime - c.startTime)
    if v ≠ 0 then some (d / v) else some 0

/-- `std::max(segment_start_time + time_to_box_center - lead_time, eps_time)`, lines 275-277 (`std::max` returns its
first argument when that is NaN). -/
noncomputable def SegCtx.pushTime (c : SegCtx) (p : Params) (d : ℝ) : Option ℝ :=
  (c.timeTo d).map fun t => max (c.startTime + t - p.lead) eps

/-- Loop state: `center` and `next_box_length`. -/
structure LoopState where
  center : Pt3 ℝ
  nbl : ℝ

/-- `distance_to_box_center`, line 201. -/
noncomputable def SegCtx.dist (c : SegCtx) (s : LoopState) : ℝ := distance s.center c.refStart

/-- The test `distance_to_box_center + eps > segment_length` that ends the loop, line 282. -/
noncomputable def SegCtx.stops (c : SegCtx) (s : LoopState) : Prop := c.dist s + eps > c.len

open Classical in
/-- `center_increment`, lines 290-295. -/
noncomputable def SegCtx.increment (c : SegCtx) (p : Params) (s : LoopState) : ℝ :=
  if c.dist s + p.length > c.len then c.len - c.dist s else p.length

/-- Norm of a vector. -/
noncomputable def norm (v : Pt3 ℝ) : ℝ := Real.sqrt (v.x ^ 2 + v.y ^ 2 + v.z ^ 2)

open Classical in
/-- One pass through the part of the loop that moves the centre, lines 286-313.  (A zero `incr_direction` would be NaN
in C++; the model then leaves the centre where it is.) -/
noncomputable def SegCtx.next (c : SegCtx) (p : Params) (s : LoopState) : LoopState where
  center :=
    match c.seg.endRotation with
    | some q =>
      let e := q.invRotate c.seg.endPoint
      let dir : Pt3 ℝ := ⟨e.x - s.center.x, e.y - s.center.y, e.z - s.center.z⟩
      let n := norm dir
      let i := c.increment p s
      ⟨s.center.x + i * (dir.x / n), s.center.y + i * (dir.y / n), s.center.z + i * (dir.z / n)⟩
    | none =>
      ⟨s.center.x + c.cos * c.increment p s, s.center.y + c.sin * c.increment p s, s.center.z⟩
  nbl := if c.dist s + p.length > c.len then c.len - c.dist s else s.nbl

/-- The state at the `n`-th evaluation of the loop body (as long as the loop has not ended). -/
noncomputable def SegCtx.state (c : SegCtx) (p : Params) : ℕ → LoopState
  | 0 => ⟨c.refStart, p.length⟩
  | n + 1 => c.next p (c.state p n)

/-- The box of a state without rotation for `dim = 3`, lines 243-268. -/
noncomputable def planarBox3 (p : Params) (c : SegCtx) (s : LoopState) : Box 3 where
  lo := ![s.center.x - 0.5 * (|c.cos| * s.nbl + |c.sin| * p.width),
          s.center.y - 0.5 * (|c.cos| * p.width + |c.sin| * s.nbl),
          s.center.z - p.height]
  hi := ![s.center.x + 0.5 * (|c.cos| * s.nbl + |c.sin| * p.width),
          s.center.y + 0.5 * (|c.cos| * p.width + |c.sin| * s.nbl),
          s.center.z]

/-- The box of a state with rotation for `dim = 3`, lines 210-241. -/
noncomputable def rotatedBox3 (q : Q ℝ) (p : Params) (c : SegCtx) (s : LoopState) : Box 3 :=
  let xl := |c.cos| * s.nbl + |c.sin| * p.width
  let yl := |c.cos| * p.width + |c.sin| * s.nbl
  let a := q.rotate ⟨xl / 2, yl / 2, 0⟩
  let b := q.rotate ⟨-xl / 2, -yl / 2, -p.height⟩
  { lo := ![s.center.x + min a.x b.x, s.center.y + min a.y b.y, s.center.z + min a.z b.z]
    hi := ![s.center.x + max a.x b.x, s.center.y + max a.y b.y, s.center.z + max a.z b.z] }

/-- The box for `dim = 3`. -/
noncomputable def box3 (p : Params) (c : SegCtx) (s : LoopState) : Option (Box 3) :=
  some (match c.seg.endRotation with
    | some q => rotatedBox3 q p c s
    | none => planarBox3 p c s)

/-- The box for `dim = 2`, lines 236-268; `none` is `ASSERT_THROW_NOT_IMPLEMENTED` for a rotated segment. -/
noncomputable def box2 (p : Params) (c : SegCtx) (s : LoopState) : Option (Box 2) :=
  match c.seg.endRotation with
  | some _ => none
  | none => some { lo := ![s.center.x - 0.5 * s.nbl, s.center.y - p.height]
                   hi := ![s.center.x + 0.5 * s.nbl, s.center.y] }

/-- Outcome of the generation. -/
inductive Gen (β : Type)
  | ok (l : Lists β)
  | thrown
  /-- the `while (in_segment)` loop never ends -/
  | diverges

/-- The four `push_back`s of lines 270-279. -/
noncomputable def push {β : Type} (p : Params) (c : SegCtx) (l : Lists β) (s : LoopState) (b : β) : Lists β :=
  ⟨l.boxes ++ [b], l.times ++ [c.pushTime p (c.dist s)], l.cosines ++ [c.cos], l.sines ++ [c.sin]⟩

/-- The `push_back`s of a list of loop states; `none` if computing a box throws. -/
noncomputable def pushAll {β : Type} (mk : Params → SegCtx → LoopState → Option β) (p : Params) (c : SegCtx) :
    Lists β → List LoopState → Option (Lists β)
  | l, [] => some l
  | l, s :: rest =>
    match mk p c s with
    | none => none
    | some b => pushAll mk p c (push p c l s b) rest

/-- The number of states for which the loop body is evaluated minus one: the first state at which it stops. -/
noncomputable def SegCtx.lastIndex (c : SegCtx) (p : Params) (h : ∃ n, c.stops (c.state p n)) : ℕ :=
  open Classical in Nat.find h

open Classical in
/-- The `while (in_segment)` loop of one powered segment, lines 199-315.  A box that cannot be built throws in the first
pass. -/
noncomputable def runSegment {β : Type} (mk : Params → SegCtx → LoopState → Option β) (p : Params) (c : SegCtx)
    (l : Lists β) : Gen β :=
  if (mk p c (c.state p 0)).isNone then .thrown
  else if h : ∃ n, c.stops (c.state p n) then
    match pushAll mk p c l ((List.range (c.lastIndex p h + 1)).map (c.state p)) with
    | some l' => .ok l'
    | none => .thrown
  else .diverges

open Classical in
/-- The loop over the segments, lines 166-322. -/
noncomputable def runSegments {β : Type} (mk : Params → SegCtx → LoopState → Option β) (p : Params) :
    ℝ → Pt3 ℝ → Pt3 ℝ → Lists β → List Segment → Gen β
  | _, _, _, l, [] => .ok l
  | t0, p0, r0, l, s :: rest =>
    let continueWith (l' : Lists β) : Gen β :=
      runSegments mk p s.endTime s.endPoint (buildRef s.endRotation s.endPoint) l' rest
    if s.power > eps then
      match runSegment mk p ⟨t0, p0, r0, s⟩ l with
      | .ok l' => continueWith l'
      | .thrown => .thrown
      | .diverges => .diverges
    else continueWith l

/-- `deposition_along_scan_path<dim>`, `material_deposition.cc:132-324`; `segment_list.at(0)` throws for an empty scan
path. -/
noncomputable def alongScanPath {β : Type} (mk : Params → SegCtx → LoopState → Option β) (p : Params)
    (segs : List Segment) : Gen β :=
  match segs with
  | [] => .thrown
  | s :: _ => runSegments mk p 0 s.endPoint (buildRef s.endRotation s.endPoint) .empty segs

/-! ## Merging -/

/-- The four concatenations of `merge_deposition_paths`, `material_deposition.cc:336-348`. -/
def concatLists {β : Type} (ls : List (Lists β)) : Lists β where
  boxes := ls.flatMap (·.boxes)
  times := ls.flatMap (·.times)
  cosines := ls.flatMap (·.cosines)
  sines := ls.flatMap (·.sines)

/-- What the C++ standard promises about `std::sort` applied to `0, 1, …, n-1` (lines 351-355): the result is a
permutation of the input in which no element is smaller than an earlier one. `std::sort` is not stable, so nothing more is
assumed. -/
def IsSortResult (times : List (Option ℝ)) (perm : List ℕ) : Prop :=
  perm.Perm (List.range times.length) ∧
  perm.Pairwise fun i j => ∀ a b, times[i]? = some (some a) → times[j]? = some (some b) → a ≤ b

/-- The four permuted vectors, `material_deposition.cc:360-371`. -/
def permuteLists {β : Type} (l : Lists β) (perm : List ℕ) : Lists β where
  boxes := perm.filterMap (l.boxes[·]?)
  times := perm.filterMap (l.times[·]?)
  cosines := perm.filterMap (l.cosines[·]?)
  sines := perm.filterMap (l.sines[·]?)

/-- `merge_deposition_paths`, `material_deposition.cc:329-372`, for a result `perm` of `std::sort`. -/
def mergePaths {β : Type} (ls : List (Lists β)) (perm : List ℕ) : Lists β := permuteLists (concatLists ls) perm

/-! ## Cells to activate -/

/-- What `get_elements_to_activate` uses of a cell: whether it is locally owned, its active FE index, its bounding box and
whether `geometry.is_within_stl` accepts it. -/
structure Cell (n : ℕ) where
  /-- identity of the cell (`CellId`) -/
  id : ℕ
  owned : Bool
  feIndex : ℕ
  bbox : Box n
  inStl : Bool

/-- Closed boxes intersect (ArborX `intersects`). -/
def Box.meets {n : ℕ} (a b : Box n) : Prop := ∀ d, a.lo d ≤ b.hi d ∧ b.lo d ≤ a.hi d

/-- The collected cells, `material_deposition.cc:391-418`. -/
def candidates {n : ℕ} (useStl : Bool) (cells : List (Cell n)) : List (Cell n) :=
  if useStl then cells.filter fun c => c.owned && c.feIndex == 1 && c.inStl
  else cells.filter fun c => c.owned && c.feIndex == 1

/-- The contract of `BVH::query` (`material_deposition.cc:421-424`) in compressed row storage: row `i` of the result is
`indices[offset[i]], …, indices[offset[i+1]-1]` and lists, without repetition and in any order, the indices of the
bounding boxes that meet box `i`. -/
structure IsQuery {n : ℕ} (bboxes boxes : List (Box n)) (indices offset : List ℕ) : Prop where
  length : offset.length = boxes.length + 1
  mono : ∀ i a b, offset[i]? = some a → offset[i + 1]? = some b → a ≤ b ∧ b ≤ indices.length
  nodup : ∀ i a b, offset[i]? = some a → offset[i + 1]? = some b → ((indices.take b).drop a).Nodup
  mem : ∀ i a b q, offset[i]? = some a → offset[i + 1]? = some b → boxes[i]? = some q →
    ∀ j, j ∈ (indices.take b).drop a ↔ ∃ bb, bboxes[j]? = some bb ∧ bb.meets q

/-- The loops that copy the query result, `material_deposition.cc:427-436`; `cells` are the cell iterators. -/
def copyRows {α : Type} (nQueries : ℕ) (cells : List α) (indices offset : List ℕ) : List (List α) :=
  (List.range nQueries).map fun i =>
    ((indices.take (offset.getD (i + 1) 0)).drop (offset.getD i 0)).filterMap (cells[·]?)

/-- `get_elements_to_activate`, `material_deposition.cc:376-438`, for the query result `indices`, `offset` (see
`IsQuery`).  The result lists cells of the mesh. -/
def elementsToActivate {n : ℕ} (useStl : Bool) (cells : List (Cell n)) (boxes : List (Box n))
    (indices offset : List ℕ) : List (List (Cell n)) :=
  if boxes.length = 0 then []
  else copyRows boxes.length (candidates useStl cells) indices offset

end Verif.Deposition
