import Verif.ScanPath.Spec
import Mathlib.Algebra.Order.BigOperators.Group.Finset
import Mathlib.Tactic.Linarith
import Mathlib.Tactic.Ring
import Mathlib.Tactic.NormNum

/-!
# C04, C05: loading scan-path files
-/

namespace Verif.ScanPath

theorem scalePt_eq (dist : ℝ) (p : Pt3 ℝ) : scalePt dist p = inMetres dist p := by
  ext <;> simp only [scalePt, inMetres] <;> ring

theorem distance_eq (a b : Pt3 ℝ) : distance b a = euclid a b := rfl

/-! ### Helper: the segments built from a list of records -/

/-- Segments of `recs` after a segment ending at time `t` in point `p`. -/
noncomputable def build (dist vel : ℝ) : ℝ → Pt3 ℝ → List SegRecord → List Segment
  | _, _, [] => []
  | t, p, r :: rest =>
    let q := scalePt dist r.pos
    let t' := match r.mode with
      | .line => t + |distance q p / (r.param * vel)|
      | _ => t + r.param
    ⟨t', r.power, q, none⟩ :: build dist vel t' q rest

/-- Records the loop accepts: known mode and non-zero speed. -/
def GoodRecord (vel : ℝ) (r : SegRecord) : Prop :=
  r.mode ≠ .other ∧ (r.mode = .line → r.param * vel ≠ 0)

theorem declaredRecords_zero (lines : List SegLine) : declaredRecords 0 lines = [] := by
  simp [declaredRecords]

theorem declaredRecords_nil (n : ℕ) : declaredRecords n [] = [] := by
  simp [declaredRecords]

theorem declaredRecords_marker (n : ℕ) (rest : List SegLine) :
    declaredRecords (n + 1) (.marker :: rest) = [] := by
  simp [declaredRecords, SegLine.isMarker]

theorem declaredRecords_record (n : ℕ) (r : SegRecord) (rest : List SegLine) :
    declaredRecords (n + 1) (.record r :: rest) = r :: declaredRecords n rest := by
  simp [declaredRecords, SegLine.isMarker, SegLine.toRecord?]

/-- A marker among the first `n` data lines. -/
def markerSeen (n : ℕ) (lines : List SegLine) : Bool := (lines.take n).any SegLine.isMarker

theorem segLoop_eq (dist vel : ℝ) (n : ℕ) (acc : List Segment) (last : Segment) (ended : Bool)
    (lines : List SegLine) (hacc : acc.getLast? = some last)
    (hg : ∀ r ∈ declaredRecords n lines, GoodRecord vel r) :
    segLoop dist vel n acc ended lines =
      .ok (acc ++ build dist vel last.endTime last.endPoint (declaredRecords n lines))
        (ended || markerSeen n lines) := by
  induction n generalizing acc last lines with
  | zero => simp [segLoop, declaredRecords_zero, build, markerSeen]
  | succ n ih =>
    match lines with
    | [] => simp [segLoop, declaredRecords_nil, build, markerSeen]
    | .marker :: rest => simp [segLoop, declaredRecords_marker, build, markerSeen, SegLine.isMarker]
    | .record r :: rest =>
      rw [declaredRecords_record] at hg ⊢
      have hr : GoodRecord vel r := hg r (by simp)
      have hrest : ∀ r ∈ declaredRecords n rest, GoodRecord vel r := fun r' h' => hg r' (by simp [h'])
      have hm : markerSeen (n + 1) (.record r :: rest) = markerSeen n rest := by
        simp [markerSeen, SegLine.isMarker]
      rw [hm]
      obtain ⟨mode, pos, power, param⟩ := r
      cases mode with
      | other => exact absurd rfl hr.1
      | point =>
        simp only [segLoop, hacc]
        rw [ih _ _ _ (List.getLast?_concat ..) hrest]
        simp [build]
      | line =>
        have hne : param * vel ≠ 0 := hr.2 rfl
        simp only [segLoop, hacc, if_neg hne]
        rw [ih _ _ _ (List.getLast?_concat ..) hrest]
        simp [build]

theorem build_length (dist vel t : ℝ) (p : Pt3 ℝ) (recs : List SegRecord) :
    (build dist vel t p recs).length = recs.length := by
  induction recs generalizing t p with
  | nil => rfl
  | cons r rest ih => simp [build, ih]

/-- Records and segments agree in position, power and rotation. -/
theorem build_get (dist vel t : ℝ) (p : Pt3 ℝ) (recs : List SegRecord) (i : ℕ) (r : SegRecord)
    (hi : recs[i]? = some r) :
    ∃ s, (build dist vel t p recs)[i]? = some s ∧ s.endPoint = scalePt dist r.pos ∧ s.power = r.power ∧
      s.endRotation = none := by
  induction recs generalizing t p i with
  | nil => simp at hi
  | cons a rest ih =>
    cases i with
    | zero => simp at hi; subst hi; exact ⟨_, rfl, rfl, rfl, rfl⟩
    | succ i => simp at hi; simpa [build] using ih _ _ _ hi

/-- Duration of the `i`-th record when the previous point is `p`. -/
noncomputable def durFrom (dist vel : ℝ) (p : Pt3 ℝ) (recs : List SegRecord) (i : ℕ) : ℝ :=
  match recs[i]? with
  | none => 0
  | some r =>
    match r.mode with
    | .line =>
      match i with
      | 0 => |distance (scalePt dist r.pos) p / (r.param * vel)|
      | j + 1 =>
        match recs[j]? with
        | none => 0
        | some p => |distance (scalePt dist r.pos) (scalePt dist p.pos) / (r.param * vel)|
    | _ => r.param

theorem durFrom_cons_succ (dist vel : ℝ) (p : Pt3 ℝ) (a : SegRecord) (rest : List SegRecord) (i : ℕ) :
    durFrom dist vel p (a :: rest) (i + 1) = durFrom dist vel (scalePt dist a.pos) rest i := by
  unfold durFrom
  simp only [List.getElem?_cons_succ]
  cases h : rest[i]? with
  | none => rfl
  | some r =>
    simp only
    cases hm : r.mode <;> simp only
    cases i with
    | zero => simp
    | succ j => simp

theorem build_endTime (dist vel t : ℝ) (p : Pt3 ℝ) (recs : List SegRecord) (i : ℕ) (s : Segment)
    (hs : (build dist vel t p recs)[i]? = some s) :
    s.endTime = t + ∑ j ∈ Finset.range (i + 1), durFrom dist vel p recs j := by
  induction recs generalizing t p i with
  | nil => simp [build] at hs
  | cons a rest ih =>
    rw [Finset.sum_range_succ']
    simp only [durFrom_cons_succ]
    cases i with
    | zero =>
      simp [build] at hs
      subst hs
      simp [durFrom]
      cases a.mode <;> rfl
    | succ i =>
      simp only [build, List.getElem?_cons_succ] at hs
      rw [ih _ _ _ hs]
      have h0 : durFrom dist vel p (a :: rest) 0 =
          (match a.mode with
            | .line => |distance (scalePt dist a.pos) p / (a.param * vel)|
            | _ => a.param) := by
        simp [durFrom]
      rw [h0]
      cases a.mode <;> simp only <;> ring

theorem distance_nonneg (a b : Pt3 ℝ) : 0 ≤ distance a b := Real.sqrt_nonneg _

/-- With a point first, the duration does not depend on the imagined previous point. -/
theorem durFrom_eq (dist vel : ℝ) (p : Pt3 ℝ) (recs : List SegRecord)
    (h0 : ∀ r, recs[0]? = some r → r.mode ≠ .line) (i : ℕ) :
    durFrom dist vel p recs i = recordDuration dist vel recs i := by
  unfold durFrom recordDuration
  cases h : recs[i]? with
  | none => rfl
  | some r =>
    cases hm : r.mode with
    | other => simp only [hm]
    | point => simp only [hm]
    | line =>
      cases i with
      | zero => exact absurd hm (h0 r h)
      | succ j =>
        simp only [Nat.add_sub_cancel, hm]
        cases recs[j]? with
        | none => rfl
        | some q =>
          simp only
          rw [abs_div, abs_of_nonneg (distance_nonneg _ _), scalePt_eq, scalePt_eq, distance_eq]

/-! ### C04 -/

/-- C04: loading a segment file whose declared records start with a point, have known modes and non-zero speeds
gives one segment per declared record, in order, with the scaled position, the power and the end time equal to the
sum of the durations of the records up to it; the path counts as finished iff a marker is among the declared
lines (or it was finished before). -/
theorem C04_load_segment (dist vel : ℝ) (ended : Bool) (n : ℕ) (lines : List SegLine)
    (hfirst : ∀ r, (declaredRecords n lines)[0]? = some r → r.mode = .point)
    (hmode : ∀ r ∈ declaredRecords n lines, r.mode ≠ .other)
    (hspeed : ∀ r ∈ declaredRecords n lines, r.mode = .line → r.param * vel ≠ 0) :
    ∃ segs, loadSegment dist vel ended n lines =
        .ok segs (ended || (lines.take n).any SegLine.isMarker) ∧
      segs.length = (declaredRecords n lines).length ∧
      ∀ i r, (declaredRecords n lines)[i]? = some r →
        ∃ s, segs[i]? = some s ∧ s.endPoint = inMetres dist r.pos ∧ s.power = r.power ∧ s.endRotation = none ∧
          s.endTime = ∑ j ∈ Finset.range (i + 1), recordDuration dist vel (declaredRecords n lines) j := by
  have key : loadSegment dist vel ended n lines =
      .ok (build dist vel 0 ⟨0, 0, 0⟩ (declaredRecords n lines)) (ended || markerSeen n lines) := by
    unfold loadSegment
    match n, lines with
    | 0, lines => simp [segLoop, declaredRecords_zero, build, markerSeen]
    | n + 1, [] => simp [segLoop, declaredRecords_nil, build, markerSeen]
    | n + 1, .marker :: rest =>
      simp [segLoop, declaredRecords_marker, build, markerSeen, SegLine.isMarker]
    | n + 1, .record r :: rest =>
      rw [declaredRecords_record] at *
      have hp : r.mode = .point := hfirst r (by simp)
      have hrest : ∀ r ∈ declaredRecords n rest, GoodRecord vel r := fun r' h' =>
        ⟨hmode r' (by simp [h']), hspeed r' (by simp [h'])⟩
      have hm : markerSeen (n + 1) (.record r :: rest) = markerSeen n rest := by
        simp [markerSeen, SegLine.isMarker]
      rw [hm]
      simp only [segLoop, hp, List.getLast?_nil, List.nil_append]
      rw [segLoop_eq dist vel n _ _ ended rest (List.getLast?_singleton ..) hrest]
      simp [build, hp]
  refine ⟨_, key, build_length .., ?_⟩
  intro i r hi
  obtain ⟨s, hs, h1, h2, h3⟩ := build_get dist vel 0 ⟨0, 0, 0⟩ _ i r hi
  refine ⟨s, hs, by rw [h1, scalePt_eq], h2, h3, ?_⟩
  rw [build_endTime dist vel 0 ⟨0, 0, 0⟩ _ i s hs, zero_add]
  refine Finset.sum_congr rfl fun j _ => durFrom_eq dist vel _ _ ?_ j
  intro r hr hl
  have := hfirst r hr
  rw [hl] at this; cases this

/-- The durations are non-negative when the dwell times are. -/
theorem recordDuration_nonneg (dist vel : ℝ) (recs : List SegRecord)
    (hd : ∀ r ∈ recs, r.mode ≠ .line → 0 ≤ r.param) (i : ℕ) : 0 ≤ recordDuration dist vel recs i := by
  unfold recordDuration
  cases h : recs[i]? with
  | none => exact le_refl _
  | some r =>
    have hr := List.mem_of_getElem? h
    cases hm : r.mode with
    | line =>
      simp only [hm]
      cases recs[i - 1]? with
      | none => exact le_refl (0 : ℝ)
      | some p => exact div_nonneg (distance_nonneg _ _) (abs_nonneg _)
    | point => simp only [hm]; exact hd r hr (by simp [hm])
    | other => simp only [hm]; exact hd r hr (by simp [hm])

/-- C04: with non-negative dwell times the end times are non-negative and never decrease. -/
theorem C04_end_times_ordered (dist vel : ℝ) (ended : Bool) (n : ℕ) (lines : List SegLine)
    (hfirst : ∀ r, (declaredRecords n lines)[0]? = some r → r.mode = .point)
    (hmode : ∀ r ∈ declaredRecords n lines, r.mode ≠ .other)
    (hspeed : ∀ r ∈ declaredRecords n lines, r.mode = .line → r.param * vel ≠ 0)
    (hdwell : ∀ r ∈ declaredRecords n lines, r.mode = .point → 0 ≤ r.param) :
    ∃ segs e, loadSegment dist vel ended n lines = .ok segs e ∧
      (∀ s ∈ segs, 0 ≤ s.endTime) ∧ segs.Pairwise (fun a b => a.endTime ≤ b.endTime) := by
  obtain ⟨segs, hl, hlen, hs⟩ := C04_load_segment dist vel ended n lines hfirst hmode hspeed
  refine ⟨segs, _, hl, ?_, ?_⟩
  all_goals
    have hnn := recordDuration_nonneg dist vel (declaredRecords n lines) (by
      intro r hr hm
      rcases hmm : r.mode with _ | _ | _
      · exact absurd hmm hm
      · exact hdwell r hr hmm
      · exact absurd hmm (hmode r hr))
    have get : ∀ i (h : i < segs.length),
        segs[i].endTime = ∑ j ∈ Finset.range (i + 1), recordDuration dist vel (declaredRecords n lines) j := by
      intro i h
      have hi : i < (declaredRecords n lines).length := hlen ▸ h
      obtain ⟨s, h1, -, -, -, h2⟩ := hs i _ (List.getElem?_eq_getElem hi)
      rw [List.getElem?_eq_getElem h] at h1
      cases h1; exact h2
  · intro s hsm
    obtain ⟨i, h, rfl⟩ := List.mem_iff_getElem.mp hsm
    rw [get i h]; exact Finset.sum_nonneg fun j _ => hnn j
  · rw [List.pairwise_iff_getElem]
    intro i j hi hj hij
    rw [get i hi, get j hj]
    exact Finset.sum_le_sum_of_subset_of_nonneg (Finset.range_mono (by omega)) fun k _ _ => hnn k

/-- C04: a path whose first declared record is a line is rejected. -/
theorem C04_first_line_rejected (dist vel : ℝ) (ended : Bool) (n : ℕ) (lines : List SegLine) (r : SegRecord)
    (h : (declaredRecords n lines)[0]? = some r) (hm : r.mode = .line) :
    loadSegment dist vel ended n lines = .thrown := by
  unfold loadSegment
  match n, lines with
  | 0, lines => simp [declaredRecords_zero] at h
  | n + 1, [] => simp [declaredRecords_nil] at h
  | n + 1, .marker :: rest => simp [declaredRecords_marker] at h
  | n + 1, .record r' :: rest =>
    rw [declaredRecords_record] at h
    simp at h; subst h
    simp [segLoop, hm]

theorem segLoop_other (dist vel : ℝ) (n : ℕ) (acc : List Segment) (ended : Bool) (lines : List SegLine)
    (hbad : ∃ r ∈ declaredRecords n lines, r.mode = .other)
    (hspeed : ∀ r ∈ declaredRecords n lines, r.mode = .line → r.param * vel ≠ 0) :
    segLoop dist vel n acc ended lines = .thrown := by
  induction n generalizing acc lines with
  | zero => simp [declaredRecords_zero] at hbad
  | succ n ih =>
    match lines with
    | [] => simp [declaredRecords_nil] at hbad
    | .marker :: rest => simp [declaredRecords_marker] at hbad
    | .record r :: rest =>
      rw [declaredRecords_record] at *
      have hs' : ∀ r ∈ declaredRecords n rest, r.mode = .line → r.param * vel ≠ 0 :=
        fun r' h' => hspeed r' (by simp [h'])
      cases hm : r.mode with
      | other => simp [segLoop, hm]
      | point =>
        have hb : ∃ r ∈ declaredRecords n rest, r.mode = .other := by
          obtain ⟨r', h1, h2⟩ := hbad
          rcases List.mem_cons.mp h1 with rfl | h1
          · rw [hm] at h2; cases h2
          · exact ⟨r', h1, h2⟩
        simp only [segLoop, hm]
        cases acc.getLast? <;> exact ih _ _ hb hs'
      | line =>
        have hb : ∃ r ∈ declaredRecords n rest, r.mode = .other := by
          obtain ⟨r', h1, h2⟩ := hbad
          rcases List.mem_cons.mp h1 with rfl | h1
          · rw [hm] at h2; cases h2
          · exact ⟨r', h1, h2⟩
        simp only [segLoop, hm]
        cases acc.getLast? with
        | none => rfl
        | some p =>
          simp only [if_neg (hspeed r (by simp) hm)]
          exact ih _ _ hb hs'

/-- C04: a path with an unknown mode among the declared records is rejected. -/
theorem C04_unknown_mode_rejected (dist vel : ℝ) (ended : Bool) (n : ℕ) (lines : List SegLine)
    (hbad : ∃ r ∈ declaredRecords n lines, r.mode = .other)
    (hspeed : ∀ r ∈ declaredRecords n lines, r.mode = .line → r.param * vel ≠ 0) :
    loadSegment dist vel ended n lines = .thrown :=
  segLoop_other dist vel n [] ended lines hbad hspeed

/-- A concrete file for C04: a point, a line at speed 2, a marker after them and one more declared line. -/
example :
    let lines : List SegLine := [.record ⟨.point, ⟨0, 0, 0⟩, 0, 1⟩, .record ⟨.line, ⟨4, 0, 0⟩, 1, 2⟩, .marker]
    (∀ r, (declaredRecords 3 lines)[0]? = some r → r.mode = .point) ∧
    (∀ r ∈ declaredRecords 3 lines, r.mode ≠ .other) ∧
    (∀ r ∈ declaredRecords 3 lines, r.mode = .line → r.param * 1 ≠ 0) ∧
    (∀ r ∈ declaredRecords 3 lines, r.mode = .point → 0 ≤ r.param) ∧
    (declaredRecords 3 lines).length = 2 ∧ recordDuration 1 1 (declaredRecords 3 lines) 1 = 2 := by
  intro lines
  have hl : declaredRecords 3 lines = [⟨.point, ⟨0, 0, 0⟩, 0, 1⟩, ⟨.line, ⟨4, 0, 0⟩, 1, 2⟩] := by
    simp [lines, declaredRecords, SegLine.isMarker, SegLine.toRecord?]
  rw [hl]
  refine ⟨by simp, by simp, by simp, by simp, by simp, ?_⟩
  simp only [recordDuration, euclid, inMetres, List.getElem?_cons_succ, List.getElem?_cons_zero, Nat.sub_self]
  have : Real.sqrt ((1 * 4 - 1 * 0) ^ 2 + (1 * 0 - 1 * 0) ^ 2 + (1 * 0 - 1 * 0) ^ 2) = 4 := by
    rw [show ((1 * 4 - 1 * 0) ^ 2 + (1 * 0 - 1 * 0) ^ 2 + (1 * 0 - 1 * 0) ^ 2 : ℝ) = 4 ^ 2 by norm_num]
    exact Real.sqrt_sq (by norm_num)
  rw [this]; norm_num

/-- C04 (surprise worth knowing): the marker directly after exactly the declared number of records is **not**
noticed, because the loop condition stops before reading that line (`ScanPath.cc:74`). -/
theorem C04_marker_after_declared_count_unnoticed :
    ∃ segs, loadSegment 1 1 false 1 [.record ⟨.point, ⟨0, 0, 0⟩, 0, 1⟩, .marker] = .ok segs false := by
  refine ⟨[⟨1, 0, scalePt 1 ⟨0, 0, 0⟩, none⟩], ?_⟩
  simp [loadSegment, segLoop]

/-! ### C05 -/

theorem eventLoop_eq (dist : ℝ) (acc : List Segment) (lp : ℝ) (ended five : Bool) (lines : List EventLine) :
    eventLoop dist acc lp ended five lines =
      (acc ++ List.zipWith (fun pw (r : EventRecord) => (⟨r.time, pw, scalePt dist r.pos, r.rotation⟩ : Segment))
          (lp :: (events lines).map EventRecord.power) (events lines),
        ended || lines.any EventLine.isMarker, five || (events lines).any (fun r => r.rotation.isSome)) := by
  induction lines generalizing acc lp ended five with
  | nil => simp [eventLoop, events]
  | cons l rest ih =>
    match l with
    | .empty =>
      have : events (.empty :: rest) = events rest := by
        simp [events, EventLine.isMarker, EventLine.toRecord?, List.filterMap_cons]
      simp [eventLoop, ih, this, EventLine.isMarker]
    | .marker => simp [eventLoop, events, EventLine.isMarker]
    | .record r =>
      have : events (.record r :: rest) = r :: events rest := by
        simp [events, EventLine.isMarker, EventLine.toRecord?, List.filterMap_cons]
      simp [eventLoop, ih, this, EventLine.isMarker, Bool.or_assoc]

/-- C05: one segment per event, in order; each ends at its event's time and scaled position, carries the rotation
of its event and the power written on the previous event (zero for the first); the path is finished iff the
marker is present and five-axis iff some event has a rotation. -/
theorem C05_load_event_series (dist : ℝ) (lines : List EventLine) :
    ∃ segs, loadEventSeries dist false false lines =
        (segs, lines.any EventLine.isMarker, (events lines).any (fun r => r.rotation.isSome)) ∧
      segs.length = (events lines).length ∧
      ∀ i r, (events lines)[i]? = some r →
        ∃ s, segs[i]? = some s ∧ s.endTime = r.time ∧ s.endPoint = inMetres dist r.pos ∧
          s.endRotation = r.rotation ∧
          (i = 0 → s.power = 0) ∧
          (∀ j p, i = j + 1 → (events lines)[j]? = some p → s.power = p.power) := by
  refine ⟨_, by rw [loadEventSeries, eventLoop_eq, Bool.false_or, Bool.false_or], ?_, ?_⟩
  · simp
  · intro i r hi
    simp only [List.nil_append, List.getElem?_zipWith]
    cases i with
    | zero =>
      refine ⟨⟨r.time, 0, scalePt dist r.pos, r.rotation⟩, ?_, rfl, scalePt_eq _ _, rfl, fun _ => rfl, ?_⟩
      · simp [hi]
      · intro j p h; omega
    | succ j =>
      have hlt : j + 1 < (events lines).length := (List.getElem?_eq_some_iff.mp hi).1
      have hj : (events lines)[j]? = some (events lines)[j] := List.getElem?_eq_getElem (by omega)
      refine ⟨⟨r.time, ((events lines)[j]).power, scalePt dist r.pos, r.rotation⟩, ?_, rfl, scalePt_eq _ _, rfl,
        fun h => by omega, ?_⟩
      · simp [hi, hj]
      · intro j' p h hp
        have : j' = j := by omega
        subst this
        rw [hj] at hp; cases hp; rfl

/-- A concrete event series for C05: an empty line, two events (the second with a rotation) and the marker. -/
example : (events [.record ⟨1, ⟨0, 0, 0⟩, none, 5⟩, .empty, .record ⟨2, ⟨1, 0, 0⟩, some ⟨1, 0, 0, 0⟩, 0⟩, .marker,
    .record ⟨3, ⟨2, 0, 0⟩, none, 1⟩]).length = 2 := by
  simp [events, EventLine.isMarker, EventLine.toRecord?, List.filterMap_cons]

end Verif.ScanPath
