import Verif.Text.Split
import Verif.Input.Tree
import Verif.ExpData.Timestamps

/-!
# C55: the text of the camera log

The lines of the log file, `source/experimental_data_utils.cc:168-204`, from their characters: what `C55` takes as the fields of a line.
`std::stoi` and `std::stod` are parameters.
-/

namespace Verif.ExpData

open Verif.Text (Numbers)

/-- `std::isspace` in the C locale: blank, tab, line feed, vertical tab, form feed, carriage return. -/
def isSpace (c : Char) : Bool := c == ' ' || (decide (9 ≤ c.toNat) && decide (c.toNat ≤ 13))

/-- `boost::trim`, `experimental_data_utils.cc:183`. -/
def trim (s : List Char) : List Char := ((s.dropWhile isSpace).reverse.dropWhile isSpace).reverse

/-- A field after the first, `:198-200`: an empty one is skipped. -/
noncomputable def fieldOf (r : Numbers) (s : List Char) : Field :=
  if s = [] then .empty
  else
    match r.stod s with
    | some v => .num v
    | none => .bad

/-- The fields of a line, `:176-203`: `std::getline(s_stream, substring, ',')` as long as the stream is good gives the pieces between the
commas, also an empty last one after a comma at the end, and a single empty one for the empty line. -/
noncomputable def lineOf (r : Numbers) (line : List Char) : LogLine :=
  match (Verif.Input.splitComma line).map trim with
  | [] => ⟨none, []⟩
  | f :: fs => ⟨r.stoi f, fs.map (fieldOf r)⟩

/-- `read_frame_timestamps`, `:139-206`, from the text of the log. -/
noncomputable def readLogText (r : Numbers) (offset : ℝ) (first last nCam : ℕ) (lines : List (List Char)) : Out (List (List ℝ)) :=
  readTimestamps offset first last nCam (lines.map (lineOf r))

/-! ## Specification -/

/-- White space: blank, tab, line feed, vertical tab, form feed, carriage return. -/
def whiteSpace : List Char := [' ', '\t', '\n', '\x0b', '\x0c', '\r']

/-- `s` is the text `t` with white space around it; `t` does not start or end with white space. -/
def Padded (t s : List Char) : Prop :=
  (∃ before after, s = before ++ t ++ after ∧ (∀ c ∈ before, c ∈ whiteSpace) ∧ ∀ c ∈ after, c ∈ whiteSpace) ∧
    (∀ c, t.head? = some c → c ∉ whiteSpace) ∧ ∀ c, t.getLast? = some c → c ∉ whiteSpace

/-- The line spells frame `n` with the given times, one field per camera, empty if there is no time: the number of the frame and the times
are separated by commas, with white space anywhere around them. -/
def SpellsFrame (r : Numbers) (line : List Char) (n : ℕ) (times : List (Option ℝ)) : Prop :=
  ∃ (f : List Char) (fs : List (List Char)), line = List.intercalate [','] (f :: fs) ∧ (∀ p ∈ f :: fs, ',' ∉ p) ∧
    (∃ t, Padded t f ∧ r.stoi t = some (n : ℤ)) ∧
    List.Forall₂ (fun p x => Padded [] p ∧ x = none ∨ ∃ t v, t ≠ [] ∧ Padded t p ∧ r.stod t = some v ∧ x = some v) fs times

/-! ## Proofs -/

theorem isSpace_iff (c : Char) : isSpace c = true ↔ c ∈ whiteSpace := by
  have hv : ∀ (d : Char), c = d ↔ c.toNat = d.toNat := by
    intro d
    constructor
    · rintro rfl; rfl
    · intro h; exact Char.toNat_inj.1 h
  simp only [isSpace, whiteSpace, Bool.or_eq_true, beq_iff_eq, Bool.and_eq_true, decide_eq_true_eq, List.mem_cons, List.not_mem_nil, or_false,
    hv]
  have h1 : ' '.toNat = 32 := rfl
  have h2 : '\t'.toNat = 9 := rfl
  have h3 : '\n'.toNat = 10 := rfl
  have h4 : '\x0b'.toNat = 11 := rfl
  have h5 : '\x0c'.toNat = 12 := rfl
  have h6 : '\r'.toNat = 13 := rfl
  rw [h1, h2, h3, h4, h5, h6]
  omega

theorem dropWhile_all (s rest : List Char) (h : ∀ c ∈ s, isSpace c = true) : (s ++ rest).dropWhile isSpace = rest.dropWhile isSpace := by
  induction s with
  | nil => rfl
  | cons c cs ih =>
    rw [List.cons_append, List.dropWhile_cons_of_pos (h c (by simp))]
    exact ih fun d hd => h d (List.mem_cons_of_mem _ hd)

theorem dropWhile_head (t rest : List Char) (ht : t ≠ []) (h : ∀ c, t.head? = some c → isSpace c = false) :
    (t ++ rest).dropWhile isSpace = t ++ rest := by
  cases t with
  | nil => exact absurd rfl ht
  | cons c cs =>
    have := h c rfl
    rw [List.cons_append, List.dropWhile_cons_of_neg (by rw [this]; simp)]

theorem trim_padded {t s : List Char} (h : Padded t s) : trim s = t := by
  obtain ⟨⟨before, after, rfl, hb', ha'⟩, hh', hl'⟩ := h
  have hb : ∀ c ∈ before, isSpace c = true := fun c hc => (isSpace_iff c).2 (hb' c hc)
  have ha : ∀ c ∈ after, isSpace c = true := fun c hc => (isSpace_iff c).2 (ha' c hc)
  have hh : ∀ c, t.head? = some c → isSpace c = false := fun c hc =>
    Bool.eq_false_iff.2 fun hs => hh' c hc ((isSpace_iff c).1 hs)
  have hl : ∀ c, t.getLast? = some c → isSpace c = false := fun c hc =>
    Bool.eq_false_iff.2 fun hs => hl' c hc ((isSpace_iff c).1 hs)
  have har : ∀ c ∈ after.reverse, isSpace c = true := fun c hc => ha c (List.mem_reverse.1 hc)
  rw [trim, List.append_assoc, dropWhile_all before _ hb]
  by_cases ht : t = []
  · subst ht
    rw [List.nil_append]
    have h1 := dropWhile_all after [] ha
    rw [List.append_nil] at h1
    rw [h1]
    rfl
  · rw [dropWhile_head t after ht hh, List.reverse_append, dropWhile_all after.reverse _ har]
    have h1 := dropWhile_head t.reverse [] (by simpa using ht) (fun c hc => hl c (by rwa [List.head?_reverse] at hc))
    rw [List.append_nil] at h1
    rw [h1, List.reverse_reverse]

theorem lineOf_spells {r : Numbers} {line : List Char} {n : ℕ} {times : List (Option ℝ)} (h : SpellsFrame r line n times) :
    lineOf r line = ⟨some (n : ℤ), times.map fun x => x.elim Field.empty Field.num⟩ := by
  obtain ⟨f, fs, rfl, hc, ⟨t, htp, hti⟩, hfs⟩ := h
  rw [lineOf, Verif.Input.splitComma_intercalate (f :: fs) (by simp) hc]
  simp only [List.map_cons, trim_padded htp, hti, LogLine.mk.injEq, true_and, List.map_map]
  clear hc
  induction hfs with
  | nil => rfl
  | cons hp hrest ih =>
    rw [List.map_cons, List.map_cons, ih]
    rcases hp with ⟨hp, rfl⟩ | ⟨u, v, hu, hup, hur, rfl⟩
    · simp [trim_padded hp, fieldOf]
    · simp [trim_padded hup, fieldOf, hu, hur]

theorem readable_spells {r : Numbers} {nCam : ℕ} {lines : List (List Char)} {log : List (ℕ × List (Option ℝ))}
    (h : List.Forall₂ (fun line e => SpellsFrame r line e.1 e.2) lines log) (hn : ∀ e ∈ log, e.1 < 4294967296 ∧ e.2.length ≤ nCam) :
    ∀ ln ∈ lines.map (lineOf r), Readable nCam ln := by
  induction h with
  | nil => intro ln hln; cases hln
  | cons hl hrest ih =>
    rename_i line e ls es
    intro ln hln
    rw [List.map_cons, List.mem_cons] at hln
    rcases hln with rfl | hln
    · rw [lineOf_spells hl]
      refine ⟨⟨e.1, rfl, (hn e (by simp)).1⟩, ?_, ?_⟩
      · intro f hf
        obtain ⟨x, -, rfl⟩ := List.mem_map.1 hf
        cases x <;> simp
      · intro c v hv
        have := (List.getElem?_eq_some_iff.1 hv).1
        simp only [List.length_map] at this
        exact lt_of_lt_of_le this (hn e (by simp)).2
    · exact ih (fun e he => hn e (List.mem_cons_of_mem _ he)) ln hln

theorem expected_spells {r : Numbers} (offset : ℝ) (first last c : ℕ) {lines : List (List Char)} {log : List (ℕ × List (Option ℝ))}
    (h : List.Forall₂ (fun line e => SpellsFrame r line e.1 e.2) lines log) :
    expected offset first last (lines.map (lineOf r)) c =
      (log.filter fun e => decide (first ≤ e.1 ∧ e.1 ≤ last)).filterMap fun e => (e.2[c]?).join.map (· + offset) := by
  induction h with
  | nil => simp [expected]
  | cons hl hrest ih =>
    rename_i line e ls es
    unfold expected at ih ⊢
    have hreq : Requested first last (lineOf r line) ↔ (first ≤ e.1 ∧ e.1 ≤ last) := by
      rw [lineOf_spells hl]
      constructor
      · rintro ⟨m, hm, hm2⟩
        have : e.1 = m := by simpa using hm
        rw [this]
        exact hm2
      · intro hh
        exact ⟨e.1, rfl, hh⟩
    have htime : (lineOf r line).time c = (e.2[c]?).join := by
      rw [lineOf_spells hl]
      simp only [LogLine.time, List.getElem?_map]
      cases e.2[c]? with
      | none => rfl
      | some x => cases x <;> rfl
    rw [List.map_cons]
    by_cases hh : first ≤ e.1 ∧ e.1 ≤ last
    · rw [List.filter_cons, if_pos (by simpa using hreq.2 hh), List.filter_cons, if_pos (by simpa using hh), List.filterMap_cons, List.filterMap_cons,
        htime, ih]
    · rw [List.filter_cons, if_neg (by simpa using fun h => hh (hreq.1 h)), List.filter_cons, if_neg (by simpa using hh), ih]

/-- **C55, from the text of the log.**  If the lines of the log spell frames with their times, with any white space around the numbers,
the list of camera `c` has the corrected times of exactly the requested frames that have a time for it, in the order of the log. -/
theorem C55_text_lines_partial (r : Numbers) (offset : ℝ) (first last nCam : ℕ) (lines : List (List Char)) (log : List (ℕ × List (Option ℝ)))
    (h : List.Forall₂ (fun line e => SpellsFrame r line e.1 e.2) lines log) (hn : ∀ e ∈ log, e.1 < 4294967296 ∧ e.2.length ≤ nCam) :
    ∃ ts, readLogText r offset first last nCam lines = .ok ts ∧ ts.length = nCam ∧ ∀ c < nCam, ts[c]? = some
      ((log.filter fun e => decide (first ≤ e.1 ∧ e.1 ≤ last)).filterMap fun e => (e.2[c]?).join.map (· + offset)) := by
  obtain ⟨ts, h1, h2, h3⟩ := C55_requested_frames_partial offset first last nCam (lines.map (lineOf r)) (readable_spells h hn)
  refine ⟨ts, h1, h2, fun c hc => ?_⟩
  rw [h3 c hc, expected_spells offset first last c h]

/-- **C55, from the text of a complete log.**  If the log has one line for each of the consecutive frames from `start` on, each with a
time for every camera, and the requested frames are among them, then entry `k` of camera `c` is the corrected time of frame `first + k`,
and there are exactly `last - first + 1` of them. -/
theorem C55_text_partial (r : Numbers) (offset : ℝ) (first last nCam start : ℕ) (time : ℕ → ℕ → ℝ) (lines : List (List Char))
    (h : ∀ (i : ℕ) (line : List Char), lines[i]? = some line →
      SpellsFrame r line (start + i) ((List.range nCam).map fun c => some (time (start + i) c)))
    (hfit : start + lines.length ≤ 4294967296) (hcov : start ≤ first ∧ last < start + lines.length) (hfl : first ≤ last) :
    ∃ ts, readLogText r offset first last nCam lines = .ok ts ∧ ts.length = nCam ∧
      ∀ c < nCam, ∃ l, ts[c]? = some l ∧ l.length = last - first + 1 ∧
        ∀ (k : ℕ), k < last - first + 1 → l[k]? = some (time (first + k) c + offset) := by
  refine C55_complete_log_partial offset first last nCam start time (lines.map (lineOf r)) ?_ (by simpa using hfit) (by simpa using hcov) hfl
  intro i ln hi
  rw [List.getElem?_map, Option.map_eq_some_iff] at hi
  obtain ⟨line, hl, rfl⟩ := hi
  rw [lineOf_spells (h i line hl)]
  refine ⟨rfl, by simp, fun c hc => ?_⟩
  simp [hc]

/-- **C55 fails for an empty line in the log**, for instance at its end: `std::stoi` throws. -/
theorem C55_empty_line_refuted (r : Numbers) (hr : r.stoi [] = none) (offset : ℝ) (first last nCam : ℕ) (lines rest : List (List Char))
    (log : List (ℕ × List (Option ℝ))) (h : List.Forall₂ (fun line e => SpellsFrame r line e.1 e.2) lines log)
    (hn : ∀ e ∈ log, e.1 < 4294967296 ∧ e.2.length ≤ nCam) : readLogText r offset first last nCam (lines ++ [] :: rest) = .thrown := by
  have hempty : lineOf r [] = ⟨none, []⟩ := by
    simp [lineOf, Verif.Input.splitComma, trim, hr]
  have hread := readable_spells h hn
  rw [readLogText, readTimestamps, List.map_append, List.map_cons, hempty]
  obtain ⟨ts, h1, -, -⟩ := readLines_spec offset first last nCam (lines.map (lineOf r)) hread (List.replicate nCam []) (by simp)
  have happ : ∀ (a b : List LogLine) (ts ts' : List (List ℝ)), readLines offset first last a ts = .ok ts' →
      readLines offset first last (a ++ b) ts = readLines offset first last b ts' := by
    intro a b
    induction a with
    | nil =>
      intro ts ts' h
      rw [readLines, Out.ok.injEq] at h
      rw [List.nil_append, h]
    | cons ln a ih =>
      intro ts ts' h
      rw [readLines] at h
      rw [List.cons_append, readLines]
      cases hl : readLine offset first last ln ts with
      | ok u =>
        rw [hl] at h
        exact ih u ts' h
      | thrown => rw [hl] at h; cases h
      | ub => rw [hl] at h; cases h
  rw [happ _ _ _ _ h1, readLines]
  rfl

/-- A line with blanks around its two numbers, and an empty field, spells its frame. -/
example : SpellsFrame ⟨fun s => if s = ['5'] then some 5 else none, fun s => if s = ['7'] then some 7 else none⟩ " 7, 5, \t".toList 7
    [some 5, none] := by
  refine ⟨[' ', '7'], [[' ', '5'], [' ', '\t']], by decide, by decide, ⟨['7'], ⟨⟨[' '], [], rfl, by decide, by decide⟩, ?_, ?_⟩, rfl⟩,
    .cons (Or.inr ⟨['5'], 5, by decide, ⟨⟨[' '], [], rfl, by decide, by decide⟩, ?_, ?_⟩, rfl, rfl⟩)
    (.cons (Or.inl ⟨⟨⟨[' ', '\t'], [], rfl, by decide, by decide⟩, ?_, ?_⟩, rfl⟩) .nil)⟩
  all_goals
    intro c hc
    cases hc
    try decide

end Verif.ExpData
