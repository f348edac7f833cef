import Verif.Text.Split
import Verif.ScanPath.LoadProps
import Mathlib.Data.List.Infix

/-!
# C124: the text of a scan path file

`ScanPath::load_segment_scan_path` and `ScanPath::load_event_series_scan_path`, `source/ScanPath.cc:58-195`, from the characters of
the file.  A file is the list of its lines; `std::stod` and `std::stoi` are parameters.
-/

namespace Verif.ScanPath

open Verif.Quat Verif.Text

/-! ## Model -/

/-- `line.find("SCAN_PATH_END") != std::string::npos`, `ScanPath.cc:77, 157`. -/
def hasMarker (line : List Char) : Bool := decide ("SCAN_PATH_END".toList <:+: line)

/-- The separators of an event series, `boost::is_any_of(" ,,")`, `ScanPath.cc:168`. -/
def eventSep (c : Char) : Bool := c == ' ' || c == ','

/-- The separator of a segment file, `boost::is_any_of(" ")`, `ScanPath.cc:84`. -/
def segSep (c : Char) : Bool := c == ' '

/-- One line of an event series, `ScanPath.cc:163-193`: the rotation is read only if there are exactly nine tokens, the power is the
last token. -/
noncomputable def readEvent (r : Numbers) (line : List Char) : Out EventRecord :=
  let ts := split eventSep line
  (num r ts 0).bind fun t => (num r ts 1).bind fun x => (num r ts 2).bind fun y => (num r ts 3).bind fun z =>
    (if ts.length = 9 then
      (num r ts 4).bind fun a => (num r ts 5).bind fun b => (num r ts 6).bind fun c => (num r ts 7).bind fun d =>
        Out.ok (some (⟨a, b, c, d⟩ : Q ℝ))
    else .ok none).bind fun q =>
      (num r ts (ts.length - 1)).bind fun p => .ok ⟨t, ⟨x, y, z⟩, q, p⟩

/-- The lines of an event series up to the marker, `ScanPath.cc:151-162`. -/
noncomputable def eventLines (r : Numbers) : List (List Char) → Out (List EventLine)
  | [] => .ok []
  | l :: ls =>
    if l = [] then (eventLines r ls).map fun es => .empty :: es
    else if hasMarker l then .ok [.marker]
    else (readEvent r l).bind fun e => (eventLines r ls).map fun es => .record e :: es

/-- `ScanPath::load_event_series_scan_path`, `ScanPath.cc:143-195`: `_segment_list`, `_scan_path_end` and `_five_axis` afterwards. -/
noncomputable def loadEventText (r : Numbers) (dist : ℝ) (ended five : Bool) (lines : List (List Char)) :
    Out (List Segment × Bool × Bool) :=
  (eventLines r lines).map fun es => loadEventSeries dist ended five es

/-- One line of a segment file, `ScanPath.cc:83-136`; `first` says that `_segment_list` is empty. -/
noncomputable def readSegment (r : Numbers) (first : Bool) (line : List Char) : Out SegRecord :=
  let ts := split segSep line
  (token ts 0).bind fun m =>
    (if m = ['0'] then (if first then Out.thrown else Out.ok Mode.line)
    else if m = ['1'] then Out.ok Mode.point
    else Out.thrown).bind fun mode =>
      (num r ts 1).bind fun x => (num r ts 2).bind fun y => (num r ts 3).bind fun z => (num r ts 4).bind fun p =>
        (num r ts 5).bind fun v => .ok ⟨mode, ⟨x, y, z⟩, p, v⟩

/-- The lines of a segment file up to the marker or until `n` segments have been read, `ScanPath.cc:74-81`. -/
noncomputable def segLines (r : Numbers) : ℕ → Bool → List (List Char) → Out (List SegLine)
  | 0, _, _ => .ok []
  | _ + 1, _, [] => .ok []
  | n + 1, first, l :: ls =>
    if hasMarker l then .ok [.marker]
    else (readSegment r first l).bind fun e => (segLines r n false ls).map fun es => .record e :: es

/-- `unsigned int n_segments = std::stoi(line)`, `ScanPath.cc:69`. -/
def declared (r : Numbers) (line : List Char) : Out ℕ :=
  match r.stoi line with
  | some z => .ok (z % 4294967296).toNat
  | none => .thrown

/-- `ScanPath::load_segment_scan_path`, `ScanPath.cc:58-141`; `second` is the second line of the file, `lines` those after the
third.  (A file of fewer than three lines is not modelled.) -/
noncomputable def loadSegmentText (r : Numbers) (dist vel : ℝ) (ended : Bool) (second : List Char) (lines : List (List Char)) : Out Load :=
  (declared r second).bind fun n => (segLines r n true lines).map fun es => loadSegment dist vel ended n es

/-! ## Specification -/

/-- The line is not the end marker: it does not contain the word. -/
def NoMarker (line : List Char) : Prop := ¬ "SCAN_PATH_END".toList <:+: line

/-- The numbers of an event in the order of the documentation: time, position, rotation (if any), power. -/
def eventNumbers (e : EventRecord) : List ℝ :=
  [e.time, e.pos.x, e.pos.y, e.pos.z] ++ (match e.rotation with | some q => [q.r, q.i, q.j, q.k] | none => []) ++ [e.power]

/-- The line spells the event: its numbers, separated by blanks and commas. -/
def SpellsEvent (r : Numbers) (line : List Char) (e : EventRecord) : Prop :=
  NoMarker line ∧ ∃ fs, Fields eventSep fs line ∧ fs.map r.stod = (eventNumbers e).map some

/-- The line spells the record of a segment file: `0` (line) or `1` (point), position, power modifier, and speed or dwell time, separated
by blanks; blanks may follow. -/
def SpellsSegment (r : Numbers) (line : List Char) (s : SegRecord) : Prop :=
  NoMarker line ∧ ∃ (m : List Char) (fs : List (List Char)) (body tail : List Char), line = body ++ tail ∧ (∀ c ∈ tail, c = ' ') ∧
    Fields segSep (m :: fs) body ∧ (s.mode = .line ∧ m = ['0'] ∨ s.mode = .point ∧ m = ['1']) ∧
    fs.map r.stod = [some s.pos.x, some s.pos.y, some s.pos.z, some s.power, some s.param]

/-! ## Proofs -/

theorem hasMarker_iff (line : List Char) : hasMarker line = true ↔ "SCAN_PATH_END".toList <:+: line := by
  unfold hasMarker
  exact decide_eq_true_iff

theorem noMarker_iff (line : List Char) : NoMarker line ↔ hasMarker line = false := by
  rw [NoMarker, ← hasMarker_iff, Bool.not_eq_true]

theorem readEvent_spells {r : Numbers} {line : List Char} {e : EventRecord} {fs : List (List Char)} (h : Fields eventSep fs line)
    (hm : fs.map r.stod = (eventNumbers e).map some) : readEvent r line = .ok e := by
  have hlen : fs.length = (eventNumbers e).length := by
    have := congrArg List.length hm
    simpa using this
  rw [readEvent, split_eq eventSep h]
  obtain ⟨t, ⟨x, y, z⟩, q, p⟩ := e
  cases q with
  | none =>
    have hl : fs.length = 5 := by rw [hlen]; rfl
    have n0 : num r fs 0 = .ok t := num_of_map hm rfl
    have n1 : num r fs 1 = .ok x := num_of_map hm rfl
    have n2 : num r fs 2 = .ok y := num_of_map hm rfl
    have n3 : num r fs 3 = .ok z := num_of_map hm rfl
    have n4 : num r fs 4 = .ok p := num_of_map hm rfl
    simp [hl, n0, n1, n2, n3, n4]
  | some q =>
    obtain ⟨a, b, c, d⟩ := q
    have hl : fs.length = 9 := by rw [hlen]; rfl
    have n0 : num r fs 0 = .ok t := num_of_map hm rfl
    have n1 : num r fs 1 = .ok x := num_of_map hm rfl
    have n2 : num r fs 2 = .ok y := num_of_map hm rfl
    have n3 : num r fs 3 = .ok z := num_of_map hm rfl
    have n4 : num r fs 4 = .ok a := num_of_map hm rfl
    have n5 : num r fs 5 = .ok b := num_of_map hm rfl
    have n6 : num r fs 6 = .ok c := num_of_map hm rfl
    have n7 : num r fs 7 = .ok d := num_of_map hm rfl
    have n8 : num r fs 8 = .ok p := num_of_map hm rfl
    simp [hl, n0, n1, n2, n3, n4, n5, n6, n7, n8]

/-- The lines, without the empty ones, spell the events: what is passed to the loop. -/
theorem eventLines_spells {r : Numbers} (lines rest : List (List Char)) (evs : List EventRecord)
    (h : List.Forall₂ (SpellsEvent r) (lines.filter fun l => decide (l ≠ [])) evs) :
    ∃ es, eventLines r (lines ++ rest) = (eventLines r rest).map (fun es' => es ++ es') ∧ es.any EventLine.isMarker = false ∧
      es.filterMap EventLine.toRecord? = evs := by
  induction lines generalizing evs with
  | nil =>
    rw [List.filter_nil, List.forall₂_nil_left_iff] at h
    subst h
    refine ⟨[], ?_, rfl, rfl⟩
    rw [List.nil_append]
    cases eventLines r rest <;> rfl
  | cons l ls ih =>
    by_cases hl : l = []
    · subst hl
      rw [List.filter_cons_of_neg (by simp)] at h
      obtain ⟨es, h1, h2, h3⟩ := ih evs h
      refine ⟨.empty :: es, ?_, by simpa [EventLine.isMarker] using h2, by rw [List.filterMap_cons]; exact h3⟩
      rw [List.cons_append, eventLines, if_pos rfl, h1]
      cases eventLines r rest <;> rfl
    · rw [List.filter_cons_of_pos (by simpa using hl), List.forall₂_cons_left_iff] at h
      obtain ⟨e, evs', ⟨hn, fs, hf, hm⟩, hrest, rfl⟩ := h
      obtain ⟨es, h1, h2, h3⟩ := ih evs' hrest
      refine ⟨.record e :: es, ?_, by simpa [EventLine.isMarker] using h2, ?_⟩
      · rw [List.cons_append, eventLines, if_neg hl, (noMarker_iff l).1 hn, readEvent_spells hf hm, h1]
        cases eventLines r rest <;> rfl
      · simp [EventLine.toRecord?, h3]

theorem events_append {es es' : List EventLine} (h : es.any EventLine.isMarker = false) :
    events (es ++ es') = es.filterMap EventLine.toRecord? ++ events es' := by
  rw [events, List.takeWhile_append_of_pos, List.filterMap_append]
  · rfl
  · intro l hl
    rw [List.any_eq_false] at h
    have := h l hl
    simpa using this

/-- **C124, event series.**  A file whose lines spell the events `evs`, with any number of blanks and commas between the numbers and any
number of empty lines, is loaded as exactly these events: the end of the segments are the positions at the given times, in metres, with
the given rotations, and the power of an event is used from then on, i.e. for the next segment.  The path is not finished. -/
theorem C124_event_series_partial (r : Numbers) (dist : ℝ) (lines : List (List Char)) (evs : List EventRecord)
    (h : List.Forall₂ (SpellsEvent r) (lines.filter fun l => decide (l ≠ [])) evs) :
    ∃ segs, loadEventText r dist false false lines = .ok (segs, false, evs.any fun e => e.rotation.isSome) ∧
      segs.length = evs.length ∧
      ∀ (i : ℕ) (e : EventRecord), evs[i]? = some e → ∃ s, segs[i]? = some s ∧ s.endTime = e.time ∧ s.endPoint = inMetres dist e.pos ∧
        s.endRotation = e.rotation ∧ (i = 0 → s.power = 0) ∧ (∀ (j : ℕ) (p : EventRecord), i = j + 1 → evs[j]? = some p → s.power = p.power) := by
  obtain ⟨es, h1, h2, h3⟩ := eventLines_spells lines [] evs h
  rw [List.append_nil] at h1
  have he : events es = evs := by
    have := events_append (es' := []) h2
    rw [List.append_nil, h3] at this
    rw [this]
    simp [events]
  obtain ⟨segs, hs, hlen, hi⟩ := C05_load_event_series dist es
  rw [he] at hs hlen hi
  rw [h2] at hs
  refine ⟨segs, ?_, hlen, hi⟩
  rw [loadEventText, h1]
  simp [eventLines, hs]

/-- **C124, end of an event series.**  Whatever follows a line with `SCAN_PATH_END` is not looked at, and the path is finished. -/
theorem C124_event_end (r : Numbers) (dist : ℝ) (lines rest : List (List Char)) (m : List Char) (evs : List EventRecord)
    (h : List.Forall₂ (SpellsEvent r) (lines.filter fun l => decide (l ≠ [])) evs) (hm : "SCAN_PATH_END".toList <:+: m) :
    ∃ segs five, loadEventText r dist false false lines = .ok (segs, false, five) ∧
      loadEventText r dist false false (lines ++ m :: rest) = .ok (segs, true, five) := by
  obtain ⟨es, h1, h2, h3⟩ := eventLines_spells lines [] evs h
  obtain ⟨es', h1', h2', h3'⟩ := eventLines_spells lines (m :: rest) evs h
  have hne : m ≠ [] := by
    intro hc
    rw [hc, List.infix_nil] at hm
    simp at hm
  have hmark : eventLines r (m :: rest) = .ok [.marker] := by
    rw [eventLines, if_neg hne, if_pos ((hasMarker_iff m).2 hm)]
  rw [hmark] at h1'
  rw [List.append_nil] at h1
  have e1 : events es = evs := by
    have := events_append (es' := []) h2
    rw [List.append_nil, h3] at this
    rw [this]
    simp [events]
  have e2 : events (es' ++ [.marker]) = evs := by
    rw [events_append h2', h3']
    simp [events, EventLine.isMarker]
  refine ⟨(loadEventSeries dist false false es).1, evs.any fun e => e.rotation.isSome, ?_, ?_⟩
  · rw [loadEventText, h1]
    simp only [eventLines, Out.map_ok, List.append_nil, loadEventSeries, eventLoop_eq, h2, e1, Bool.or_false, Bool.false_or]
  · rw [loadEventText, h1']
    simp only [Out.map_ok, loadEventSeries, eventLoop_eq, e2, e1]
    simp [EventLine.isMarker]

/-! ### Segment files -/

theorem readSegment_spells {r : Numbers} {line : List Char} {s : SegRecord} (h : SpellsSegment r line s) (first : Bool)
    (hf : first = true → s.mode = .point) : readSegment r first line = .ok s := by
  obtain ⟨-, m, fs, body, tail, rfl, htail, hfs, hm, hn⟩ := h
  have hsplit : ∃ ext, split segSep (body ++ tail) = m :: fs ++ ext := by
    by_cases ht : tail = []
    · refine ⟨[], ?_⟩
      rw [ht, List.append_nil, split_eq segSep hfs, List.append_nil]
    · refine ⟨[[]], split_trailing segSep hfs ht fun c hc => ?_⟩
      rw [htail c hc]
      rfl
  obtain ⟨ext, he⟩ := hsplit
  have hlen : fs.length = 5 := by
    have := congrArg List.length hn
    simpa using this
  have hnum : ∀ (k : ℕ) (x : ℝ), [s.pos.x, s.pos.y, s.pos.z, s.power, s.param][k]? = some x → k < 5 →
      num r (m :: fs ++ ext) (k + 1) = .ok x := by
    intro k x hk hk5
    have hget : (m :: fs ++ ext)[k + 1]? = fs[k]? := by
      rw [List.cons_append, List.getElem?_cons_succ, List.getElem?_append_left (by omega)]
    have hn' : fs.map r.stod = [s.pos.x, s.pos.y, s.pos.z, s.power, s.param].map some := by rw [hn]; rfl
    have := num_of_map hn' hk
    simp only [num, token] at this ⊢
    rw [hget]
    exact this
  have n1 := hnum 0 s.pos.x rfl (by omega)
  have n2 := hnum 1 s.pos.y rfl (by omega)
  have n3 := hnum 2 s.pos.z rfl (by omega)
  have n4 := hnum 3 s.power rfl (by omega)
  have n5 := hnum 4 s.param rfl (by omega)
  have h0 : token (m :: fs ++ ext) 0 = .ok m := by simp [token]
  rw [readSegment]
  rw [he]
  simp only [h0, Out.bind_ok, n1, n2, n3, n4, n5]
  rcases hm with ⟨hmode, rfl⟩ | ⟨hmode, rfl⟩
  · have hff : first = false := by
      cases first with
      | false => rfl
      | true => have := hf rfl; rw [hmode] at this; cases this
    rw [hff]
    simp [← hmode]
  · simp [← hmode]

theorem segLines_spells {r : Numbers} (lines rest : List (List Char)) (recs : List SegRecord) (n : ℕ) (first : Bool)
    (h : List.Forall₂ (SpellsSegment r) lines recs) (hlen : lines.length ≤ n) (hfirst : first = true → ∀ s, recs[0]? = some s → s.mode = .point) :
    segLines r n first (lines ++ rest) =
      (segLines r (n - lines.length) (first && recs.isEmpty) rest).map (fun es' => recs.map SegLine.record ++ es') := by
  induction h generalizing n first with
  | nil =>
    simp only [List.nil_append, List.length_nil, Nat.sub_zero, List.isEmpty_nil, Bool.and_true, List.map_nil]
    cases segLines r n first rest <;> rfl
  | cons hl hrest ih =>
    rename_i l s ls ss
    obtain ⟨k, rfl⟩ : ∃ k, n = k + 1 := ⟨n - 1, by simp at hlen; omega⟩
    rw [List.cons_append, segLines, (noMarker_iff l).1 hl.1, readSegment_spells hl first fun hf => hfirst hf s rfl,
      Out.bind_ok, ih k false (by simpa using hlen) (by intro hc; cases hc)]
    simp only [Bool.false_eq_true, if_false, List.length_cons, Nat.add_sub_add_right, List.isEmpty_cons, Bool.and_false, Bool.false_and,
      List.map_cons, List.cons_append]
    cases segLines r (k - ls.length) false rest <;> rfl

theorem declaredRecords_map (n : ℕ) (recs : List SegRecord) (end_ : List SegLine) (he : end_ = [] ∨ end_ = [.marker])
    (h : recs.length + end_.length ≤ n) : declaredRecords n (recs.map SegLine.record ++ end_) = recs := by
  have hm : ∀ l ∈ recs.map SegLine.record, (fun l : SegLine => !l.isMarker) l = true := by
    intro l hl
    rw [List.mem_map] at hl
    obtain ⟨s, -, rfl⟩ := hl
    rfl
  have hf : (recs.map SegLine.record).filterMap SegLine.toRecord? = recs := by
    rw [List.filterMap_map]
    have : (SegLine.toRecord? ∘ SegLine.record) = some := rfl
    rw [this, List.filterMap_some]
  rw [declaredRecords, List.take_of_length_le (by simpa using h), List.takeWhile_append_of_pos hm, List.filterMap_append, hf]
  rcases he with rfl | rfl
  · simp
  · simp [SegLine.isMarker]

theorem declared_eq {r : Numbers} {second : List Char} {n : ℕ} (hn : r.stoi second = some (n : ℤ)) (hmax : n < 4294967296) :
    declared r second = .ok n := by
  rw [declared, hn]
  simp only [Out.ok.injEq]
  omega

theorem spells_mode {r : Numbers} {lines : List (List Char)} {recs : List SegRecord} (h : List.Forall₂ (SpellsSegment r) lines recs) :
    ∀ s ∈ recs, s.mode ≠ .other := by
  induction h with
  | nil => intro s hs; cases hs
  | cons hl hrest ih =>
    intro s hs
    rcases List.mem_cons.1 hs with rfl | hs
    · obtain ⟨-, m, fs, body, tail, -, -, -, hm, -⟩ := hl
      rcases hm with ⟨hm, -⟩ | ⟨hm, -⟩ <;> rw [hm] <;> simp
    · exact ih s hs

theorem loadSegmentText_spells (r : Numbers) (dist vel : ℝ) (second : List Char) (n : ℕ) (lines rest : List (List Char)) (recs : List SegRecord)
    (end_ : List SegLine) (he : end_ = [] ∨ end_ = [.marker]) (hn : r.stoi second = some (n : ℤ)) (hmax : n < 4294967296)
    (hlen : lines.length + end_.length ≤ n)
    (hend : ∀ b, segLines r (n - lines.length) b rest = .ok end_)
    (h : List.Forall₂ (SpellsSegment r) lines recs) (hfirst : ∀ s, recs[0]? = some s → s.mode = .point)
    (hspeed : ∀ s ∈ recs, s.mode = .line → s.param * vel ≠ 0) :
    ∃ segs, loadSegmentText r dist vel false second (lines ++ rest) = .ok (.ok segs (end_.any SegLine.isMarker)) ∧ segs.length = recs.length ∧
      ∀ (i : ℕ) (e : SegRecord), recs[i]? = some e → ∃ s, segs[i]? = some s ∧ s.endPoint = inMetres dist e.pos ∧ s.power = e.power ∧
        s.endRotation = none ∧ s.endTime = ∑ j ∈ Finset.range (i + 1), recordDuration dist vel recs j := by
  have hl := segLines_spells lines rest recs n true h (by omega) fun _ => hfirst
  rw [hend, Out.map_ok] at hl
  have hrl : recs.length + end_.length ≤ n := by rw [← h.length_eq]; exact hlen
  have hdr := declaredRecords_map n recs end_ he hrl
  obtain ⟨segs, h1, h2, h3⟩ := C04_load_segment dist vel false n (recs.map SegLine.record ++ end_) (by rw [hdr]; exact hfirst)
    (by rw [hdr]; exact spells_mode h) (by rw [hdr]; exact hspeed)
  rw [hdr] at h2 h3
  refine ⟨segs, ?_, h2, h3⟩
  rw [loadSegmentText, declared_eq hn hmax, Out.bind_ok, hl, Out.map_ok, h1]
  have hany : (recs.map SegLine.record).any SegLine.isMarker = false := by
    rw [List.any_eq_false]
    intro l hl
    rw [List.mem_map] at hl
    obtain ⟨s, -, rfl⟩ := hl
    simp [SegLine.isMarker]
  rw [List.take_of_length_le (by simpa using hrl), List.any_append, hany]
  simp

/-- **C124, segment files.**  A file that declares at least as many segments as it has lines, and whose lines spell the records `recs`,
the first of them a point and no line with speed zero, is loaded as exactly these records: the segments end at the given positions, in
metres, with the given power, and each lasts as long as the record says. -/
theorem C124_segment_partial (r : Numbers) (dist vel : ℝ) (second : List Char) (n : ℕ) (lines : List (List Char)) (recs : List SegRecord)
    (hn : r.stoi second = some (n : ℤ)) (hmax : n < 4294967296) (hlen : lines.length ≤ n)
    (h : List.Forall₂ (SpellsSegment r) lines recs) (hfirst : ∀ s, recs[0]? = some s → s.mode = .point)
    (hspeed : ∀ s ∈ recs, s.mode = .line → s.param * vel ≠ 0) :
    ∃ segs, loadSegmentText r dist vel false second lines = .ok (.ok segs false) ∧ segs.length = recs.length ∧
      ∀ (i : ℕ) (e : SegRecord), recs[i]? = some e → ∃ s, segs[i]? = some s ∧ s.endPoint = inMetres dist e.pos ∧ s.power = e.power ∧
        s.endRotation = none ∧ s.endTime = ∑ j ∈ Finset.range (i + 1), recordDuration dist vel recs j := by
  have hnil : ∀ (k : ℕ) (b : Bool), segLines r k b [] = .ok [] := by intro k b; cases k <;> rfl
  have := loadSegmentText_spells r dist vel second n lines [] recs [] (Or.inl rfl) hn hmax (by simpa using hlen) (hnil _) h hfirst hspeed
  rw [List.append_nil] at this
  exact this

/-- **C124, end of a segment file.**  If fewer segments than declared precede a line with `SCAN_PATH_END`, what follows is not looked at,
and the path is finished. -/
theorem C124_segment_end (r : Numbers) (dist vel : ℝ) (second m : List Char) (n : ℕ) (lines rest : List (List Char)) (recs : List SegRecord)
    (hn : r.stoi second = some (n : ℤ)) (hmax : n < 4294967296) (hlen : lines.length < n)
    (h : List.Forall₂ (SpellsSegment r) lines recs) (hfirst : ∀ s, recs[0]? = some s → s.mode = .point)
    (hspeed : ∀ s ∈ recs, s.mode = .line → s.param * vel ≠ 0) (hm : "SCAN_PATH_END".toList <:+: m) :
    ∃ segs, loadSegmentText r dist vel false second lines = .ok (.ok segs false) ∧
      loadSegmentText r dist vel false second (lines ++ m :: rest) = .ok (.ok segs true) := by
  have hnil : ∀ (k : ℕ) (b : Bool), segLines r k b [] = .ok [] := by intro k b; cases k <;> rfl
  obtain ⟨segs, h1, h2, h3⟩ := loadSegmentText_spells r dist vel second n lines [] recs [] (Or.inl rfl) hn hmax (by simpa using hlen.le)
    (hnil _) h hfirst hspeed
  rw [List.append_nil] at h1
  have hmark : ∀ b, segLines r (n - lines.length) b (m :: rest) = .ok [.marker] := by
    intro b
    obtain ⟨k, hk⟩ : ∃ k, n - lines.length = k + 1 := ⟨n - lines.length - 1, by omega⟩
    rw [hk, segLines, if_pos ((hasMarker_iff m).2 hm)]
  obtain ⟨segs', h1', h2', h3'⟩ := loadSegmentText_spells r dist vel second n lines (m :: rest) recs [.marker] (Or.inr rfl) hn hmax
    (by simpa using hlen) hmark h hfirst hspeed
  have hs : segs = segs' := by
    apply List.ext_getElem?
    intro i
    cases hi : recs[i]? with
    | none =>
      rw [List.getElem?_eq_none_iff] at hi
      rw [List.getElem?_eq_none (by omega), List.getElem?_eq_none (by omega)]
    | some e =>
      obtain ⟨s, a1, a2, a3, a4, a5⟩ := h3 i e hi
      obtain ⟨s', b1, b2, b3, b4, b5⟩ := h3' i e hi
      rw [a1, b1]
      congr 1
      obtain ⟨t, p, x, q⟩ := s
      obtain ⟨t', p', x', q'⟩ := s'
      simp_all
  refine ⟨segs, h1, ?_⟩
  rw [h1', hs]
  rfl

/-- **C124, number of segments.**  What follows the declared number of segments in a segment file is not looked at. -/
theorem C124_declared_number (r : Numbers) (dist vel : ℝ) (second : List Char) (lines rest : List (List Char)) (recs : List SegRecord)
    (hn : r.stoi second = some (lines.length : ℤ)) (hmax : lines.length < 4294967296)
    (h : List.Forall₂ (SpellsSegment r) lines recs) (hfirst : ∀ s, recs[0]? = some s → s.mode = .point) :
    loadSegmentText r dist vel false second (lines ++ rest) = loadSegmentText r dist vel false second lines := by
  have h1 := segLines_spells lines rest recs lines.length true h le_rfl fun _ => hfirst
  have h2 := segLines_spells lines [] recs lines.length true h le_rfl fun _ => hfirst
  rw [Nat.sub_self] at h1 h2
  rw [List.append_nil] at h2
  rw [loadSegmentText, loadSegmentText, declared_eq hn hmax, Out.bind_ok, Out.bind_ok, h1, h2]
  rfl

/-! ### Files that are not read as written -/

/-- **C124 fails for blanks at the end of a line of an event series**: `std::stod` throws for the empty last token, although the line
spells an event. -/
theorem C124_trailing_blank_refuted (r : Numbers) (hr : r.stod [] = none) (dist : ℝ) (ended five : Bool) (line tail : List Char)
    (rest : List (List Char)) (e : EventRecord) (h : SpellsEvent r line e) (ht : tail ≠ []) (hs : ∀ c ∈ tail, c = ' ' ∨ c = ',')
    (hm : NoMarker (line ++ tail)) : loadEventText r dist ended five ((line ++ tail) :: rest) = .thrown := by
  obtain ⟨-, fs, hf, hn⟩ := h
  have hlen : fs.length = (eventNumbers e).length := by
    have := congrArg List.length hn
    simpa using this
  have hsep : ∀ c ∈ tail, eventSep c = true := by
    intro c hc
    rcases hs c hc with rfl | rfl <;> rfl
  have hsp := split_trailing eventSep hf ht hsep
  have hev : readEvent r (line ++ tail) = .thrown := by
    have hnum : ∀ (k : ℕ) (x : ℝ), (eventNumbers e)[k]? = some x → num r (fs ++ [[]]) k = .ok x := by
      intro k x hk
      have hk' : k < fs.length := by
        rw [hlen]
        by_contra hc
        rw [List.getElem?_eq_none (by omega)] at hk
        cases hk
      have := num_of_map hn hk
      simp only [num, token] at this ⊢
      rw [List.getElem?_append_left hk']
      exact this
    have hlast : num r (fs ++ [[]]) ((fs ++ [[]]).length - 1) = .thrown := by
      refine num_none (t := []) ?_ hr
      simp
    have h9 : (fs ++ [[]]).length ≠ 9 := by
      rw [List.length_append, hlen]
      obtain ⟨t, x, q, p⟩ := e
      cases q <;> simp [eventNumbers]
    rw [readEvent, hsp]
    rw [hnum 0 e.time rfl, hnum 1 e.pos.x rfl, hnum 2 e.pos.y rfl, hnum 3 e.pos.z rfl, hlast, if_neg h9]
    rfl
  have hne : line ++ tail ≠ [] := by simp [ht]
  rw [loadEventText, eventLines, if_neg hne, (noMarker_iff _).1 hm, hev]
  rfl

/-- **C124 fails for blanks at the start of a line of an event series**, which is an exception as well. -/
theorem C124_leading_blank_refuted (r : Numbers) (hr : r.stod [] = none) (dist : ℝ) (ended five : Bool) (line head : List Char)
    (rest : List (List Char)) (e : EventRecord) (h : SpellsEvent r line e) (hh : head ≠ []) (hs : ∀ c ∈ head, c = ' ' ∨ c = ',')
    (hm : NoMarker (head ++ line)) : loadEventText r dist ended five ((head ++ line) :: rest) = .thrown := by
  obtain ⟨-, fs, hf, -⟩ := h
  have hsep : ∀ c ∈ head, eventSep c = true := by
    intro c hc
    rcases hs c hc with rfl | rfl <;> rfl
  have hsp := split_leading eventSep hf hh hsep
  have hev : readEvent r (head ++ line) = .thrown := by
    rw [readEvent, hsp]
    have h0 : num r ([] :: fs) 0 = .thrown := num_none (t := []) rfl hr
    rw [h0]
    rfl
  have hne : head ++ line ≠ [] := by simp [hh]
  rw [loadEventText, eventLines, if_neg hne, (noMarker_iff _).1 hm, hev]
  rfl

/-- **C124 fails for a line without power**: the file is accepted, and the beam has the third coordinate of the point as its power in the
next segment. -/
theorem C124_missing_power_refuted (r : Numbers) (dist : ℝ) (l1 l2 : List Char) (fs : List (List Char)) (t x y z : ℝ) (e : EventRecord)
    (h1 : Fields eventSep fs l1) (hm : NoMarker l1) (hn : fs.map r.stod = [some t, some x, some y, some z]) (h2 : SpellsEvent r l2 e) :
    ∃ s1 s2 five, loadEventText r dist false false [l1, l2] = .ok ([s1, s2], false, five) ∧ s2.power = z := by
  have hlen : fs.length = 4 := by
    have := congrArg List.length hn
    simpa using this
  have hn' : fs.map r.stod = [t, x, y, z].map some := by rw [hn]; rfl
  have n0 : num r fs 0 = .ok t := num_of_map hn' rfl
  have n1 : num r fs 1 = .ok x := num_of_map hn' rfl
  have n2 : num r fs 2 = .ok y := num_of_map hn' rfl
  have n3 : num r fs 3 = .ok z := num_of_map hn' rfl
  have hev : readEvent r l1 = .ok ⟨t, ⟨x, y, z⟩, none, z⟩ := by
    rw [readEvent, split_eq eventSep h1]
    simp [hlen, n0, n1, n2, n3]
  obtain ⟨hm2, fs2, hf2, hn2⟩ := h2
  have hl : eventLines r [l1, l2] = .ok [.record ⟨t, ⟨x, y, z⟩, none, z⟩, .record e] := by
    rw [eventLines, if_neg (fields_ne_nil h1), (noMarker_iff _).1 hm, hev]
    rw [eventLines, if_neg (fields_ne_nil hf2), (noMarker_iff _).1 hm2, readEvent_spells hf2 hn2]
    rfl
  refine ⟨⟨t, 0, scalePt dist ⟨x, y, z⟩, none⟩, ⟨e.time, z, scalePt dist e.pos, e.rotation⟩, e.rotation.isSome, ?_, rfl⟩
  rw [loadEventText, hl]
  simp [loadEventSeries, eventLoop]

/-- **C124 fails for an empty line in a segment file**, for instance at its end, if more segments are declared: the file is rejected,
whereas an event series may have empty lines. -/
theorem C124_empty_line_refuted (r : Numbers) (dist vel : ℝ) (second : List Char) (n : ℕ) (lines rest : List (List Char))
    (recs : List SegRecord) (hn : r.stoi second = some (n : ℤ)) (hmax : n < 4294967296) (hlen : lines.length < n)
    (h : List.Forall₂ (SpellsSegment r) lines recs) (hfirst : ∀ s, recs[0]? = some s → s.mode = .point) :
    loadSegmentText r dist vel false second (lines ++ [] :: rest) = .thrown := by
  have hl := segLines_spells lines ([] :: rest) recs n true h hlen.le fun _ => hfirst
  have he : ∀ b, segLines r (n - lines.length) b ([] :: rest) = .thrown := by
    intro b
    obtain ⟨k, hk⟩ : ∃ k, n - lines.length = k + 1 := ⟨n - lines.length - 1, by omega⟩
    have hno : hasMarker [] = false := by
      rw [← noMarker_iff, NoMarker, List.infix_nil]
      simp
    rw [hk, segLines, hno]
    rfl
  rw [he] at hl
  rw [loadSegmentText, declared_eq hn hmax, Out.bind_ok, hl]
  rfl

/-- Numbers of one digit. -/
noncomputable def oneDigit : Numbers where
  stod
    | [c] => if c.isDigit then some ((c.toNat - 48 : ℕ) : ℝ) else none
    | _ => none
  stoi
    | [c] => if c.isDigit then some ((c.toNat - 48 : ℕ) : ℤ) else none
    | _ => none

/-- A line of an event series with blanks and commas spells its event, and a line of a segment file followed by a blank its record. -/
theorem oneDigit_spells :
    SpellsEvent oneDigit "1, 2 3,4  5".toList ⟨(1 : ℕ), ⟨(2 : ℕ), (3 : ℕ), (4 : ℕ)⟩, none, (5 : ℕ)⟩ ∧
    SpellsEvent oneDigit "1 2 3 4 1 0 0 0 7".toList ⟨(1 : ℕ), ⟨(2 : ℕ), (3 : ℕ), (4 : ℕ)⟩, some ⟨(1 : ℕ), (0 : ℕ), (0 : ℕ), (0 : ℕ)⟩, (7 : ℕ)⟩ ∧
    SpellsSegment oneDigit "1 2 3 4  0 6 ".toList ⟨.point, ⟨(2 : ℕ), (3 : ℕ), (4 : ℕ)⟩, (0 : ℕ), (6 : ℕ)⟩ ∧
    oneDigit.stod [] = none := by
  have hone : ∀ (sep : Char → Bool) (c : Char), sep c = false → Fields sep [[c]] [c] := by
    intro sep c h
    refine .one [c] (by simp) ?_
    intro d hd
    rw [List.mem_singleton.1 hd]
    exact h
  have hcons : ∀ (sep : Char → Bool) (c : Char) (gap : List Char) (fs : List (List Char)) (rest : List Char), sep c = false → gap ≠ [] →
      (∀ d ∈ gap, sep d = true) → Fields sep fs rest → Fields sep ([c] :: fs) ([c] ++ gap ++ rest) := by
    intro sep c gap fs rest h hg hgs hr
    refine .cons [c] gap fs rest (by simp) ?_ hg hgs hr
    intro d hd
    rw [List.mem_singleton.1 hd]
    exact h
  refine ⟨⟨(noMarker_iff _).2 (by decide), [['1'], ['2'], ['3'], ['4'], ['5']], ?_, rfl⟩,
    ⟨(noMarker_iff _).2 (by decide), [['1'], ['2'], ['3'], ['4'], ['1'], ['0'], ['0'], ['0'], ['7']], ?_, rfl⟩,
    ⟨(noMarker_iff _).2 (by decide), ['1'], [['2'], ['3'], ['4'], ['0'], ['6']], "1 2 3 4  0 6".toList, [' '], by decide, by simp, ?_,
      Or.inr ⟨rfl, rfl⟩, rfl⟩, rfl⟩
  · exact hcons _ '1' [',', ' '] _ _ rfl (by simp) (by decide) (hcons _ '2' [' '] _ _ rfl (by simp) (by decide)
      (hcons _ '3' [','] _ _ rfl (by simp) (by decide) (hcons _ '4' [' ', ' '] _ _ rfl (by simp) (by decide) (hone _ '5' rfl))))
  · exact hcons _ '1' [' '] _ _ rfl (by simp) (by decide) (hcons _ '2' [' '] _ _ rfl (by simp) (by decide)
      (hcons _ '3' [' '] _ _ rfl (by simp) (by decide) (hcons _ '4' [' '] _ _ rfl (by simp) (by decide)
      (hcons _ '1' [' '] _ _ rfl (by simp) (by decide) (hcons _ '0' [' '] _ _ rfl (by simp) (by decide)
      (hcons _ '0' [' '] _ _ rfl (by simp) (by decide) (hcons _ '0' [' '] _ _ rfl (by simp) (by decide) (hone _ '7' rfl))))))))
  · exact hcons _ '1' [' '] _ _ rfl (by simp) (by decide) (hcons _ '2' [' '] _ _ rfl (by simp) (by decide)
      (hcons _ '3' [' '] _ _ rfl (by simp) (by decide) (hcons _ '4' [' ', ' '] _ _ rfl (by simp) (by decide)
      (hcons _ '0' [' '] _ _ rfl (by simp) (by decide) (hone _ '6' rfl)))))

/-- An event series of two lines and an empty one between them meets the hypotheses of `C124_event_series_partial`. -/
example : List.Forall₂ (SpellsEvent oneDigit) (["1, 2 3,4  5".toList, [], "1 2 3 4 1 0 0 0 7".toList].filter fun l => decide (l ≠ []))
    [⟨(1 : ℕ), ⟨(2 : ℕ), (3 : ℕ), (4 : ℕ)⟩, none, (5 : ℕ)⟩,
      ⟨(1 : ℕ), ⟨(2 : ℕ), (3 : ℕ), (4 : ℕ)⟩, some ⟨(1 : ℕ), (0 : ℕ), (0 : ℕ), (0 : ℕ)⟩, (7 : ℕ)⟩] :=
  .cons oneDigit_spells.1 (.cons oneDigit_spells.2.1 .nil)

/-- A segment file with one point meets the hypotheses of `C124_segment_partial`. -/
example : oneDigit.stoi ['1'] = some ((1 : ℕ) : ℤ) ∧
    List.Forall₂ (SpellsSegment oneDigit) ["1 2 3 4  0 6 ".toList] [⟨.point, ⟨(2 : ℕ), (3 : ℕ), (4 : ℕ)⟩, (0 : ℕ), (6 : ℕ)⟩] :=
  ⟨rfl, .cons oneDigit_spells.2.2.1 .nil⟩

end Verif.ScanPath
