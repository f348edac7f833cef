import Mathlib.Data.Real.Basic
import Mathlib.Data.List.Basic
import Mathlib.Tactic.NormNum
import Mathlib.Tactic.Linarith

/-!
# C55: the camera log

`read_frame_timestamps`, `source/experimental_data_utils.cc:139-206`.
A line of the log is split at the commas (`:179-183` loops while the stream is good: an empty line has one, empty, field); here a line is the list of its
trimmed fields with what `std::stoi`/`std::stod` make of them.
-/

namespace Verif.ExpData

/-- The number in a field after the first: `empty` (nothing between two commas), `bad` (`std::stod` throws), or a value. -/
inductive Field
  | empty
  | bad
  | num (t : ℝ)

/-- A line: what `std::stoi` makes of the first field (`none`: it throws, for instance on an empty line), and the other fields. -/
structure LogLine where
  frame : Option ℤ
  stamps : List Field

/-- What the call does: returns, throws, or writes outside of `time_stamps` (undefined behaviour). -/
inductive Out (α : Type)
  | ok (a : α)
  | thrown
  | ub

/-- `UINT_MAX` of `experimental_data_utils.cc:178`. -/
def uintMax : ℕ := 4294967295

/-- Conversion of an `int` to `unsigned int`. -/
def toUnsigned (z : ℤ) : ℕ := (z % 4294967296).toNat

/-- `time_stamps[k].push_back(v)`, `:199-200`; `none` when `k` is out of range. -/
def pushAt : List (List ℝ) → ℕ → ℝ → Option (List (List ℝ))
  | [], _, _ => none
  | l :: ls, 0, v => some ((l ++ [v]) :: ls)
  | l :: ls, k + 1, v => (pushAt ls k v).map (l :: ·)

/-- The fields after the first one, `:196-202`; `k` is `entry_index - 1`. -/
noncomputable def readStamps (offset : ℝ) (interest : Bool) : ℕ → List Field → List (List ℝ) → Out (List (List ℝ))
  | _, [], ts => .ok ts
  | k, f :: fs, ts =>
    if interest then
      match f with
      | .empty => readStamps offset interest (k + 1) fs ts
      | .bad => .thrown
      | .num v =>
        match pushAt ts k (v + offset) with
        | some ts' => readStamps offset interest (k + 1) fs ts'
        | none => .ub
    else readStamps offset interest (k + 1) fs ts

/-- One line, `:173-204`. The variable `frame` is declared inside the loop over the lines (`:178`), so it is `UINT_MAX` when the check of `:187-191` is made. -/
noncomputable def readLine (offset : ℝ) (first last : ℕ) (ln : LogLine) (ts : List (List ℝ)) : Out (List (List ℝ)) :=
  let frame := uintMax
  match ln.frame with
  | none => .thrown
  | some z =>
    if toUnsigned (z - frame) = 1 ∨ frame = uintMax then
      let frame := toUnsigned z
      readStamps offset (decide (frame ≥ first) && decide (frame ≤ last)) 0 ln.stamps ts
    else .thrown

/-- The loop over the lines, `:173`. -/
noncomputable def readLines (offset : ℝ) (first last : ℕ) : List LogLine → List (List ℝ) → Out (List (List ℝ))
  | [], ts => .ok ts
  | ln :: rest, ts =>
    match readLine offset first last ln ts with
    | .ok ts' => readLines offset first last rest ts'
    | .thrown => .thrown
    | .ub => .ub

/-- `read_frame_timestamps`, `:139-206`; `nCam = last_camera_id - first_camera_id + 1`. -/
noncomputable def readTimestamps (offset : ℝ) (first last nCam : ℕ) (log : List LogLine) : Out (List (List ℝ)) :=
  readLines offset first last log (List.replicate nCam [])

/-! ## specification -/

/-- The time a line gives for camera `c`, if any. -/
def LogLine.time (ln : LogLine) (c : ℕ) : Option ℝ :=
  match ln.stamps[c]? with
  | some (.num v) => some v
  | _ => none

/-- The line is about one of the requested frames. -/
def Requested (first last : ℕ) (ln : LogLine) : Prop := ∃ n : ℕ, ln.frame = some (n : ℤ) ∧ first ≤ n ∧ n ≤ last

/-- The line is readable: a frame number that fits, numbers or nothing in the other fields, and no more time stamps than cameras. -/
def Readable (nCam : ℕ) (ln : LogLine) : Prop :=
  (∃ n : ℕ, ln.frame = some (n : ℤ) ∧ n < 4294967296) ∧ (∀ f ∈ ln.stamps, f ≠ .bad) ∧ (∀ (c : ℕ) (v : ℝ), ln.stamps[c]? = some (.num v) → c < nCam)

/-! ## proofs -/

theorem pushAt_some (ts : List (List ℝ)) (k : ℕ) (v : ℝ) (h : k < ts.length) :
    ∃ ts', pushAt ts k v = some ts' ∧ ts'.length = ts.length ∧
      ∀ (c : ℕ) (l : List ℝ), ts[c]? = some l → ts'[c]? = some (if c = k then l ++ [v] else l) := by
  induction ts generalizing k with
  | nil => simp at h
  | cons l ls ih =>
    cases k with
    | zero =>
      refine ⟨_, rfl, by simp, ?_⟩
      intro c l' hc
      cases c with
      | zero => simp at hc; simp [hc]
      | succ c => simp at hc; simp [hc]
    | succ k =>
      obtain ⟨ts', h1, h2, h3⟩ := ih k (by simpa using h)
      refine ⟨l :: ts', by simp [pushAt, h1], by simp [h2], ?_⟩
      intro c l' hc
      cases c with
      | zero => simp at hc; simp [hc]
      | succ c => simp only [List.getElem?_cons_succ] at hc ⊢; rw [h3 c l' hc]; simp

theorem readStamps_spec (offset : ℝ) (nCam : ℕ) (fs : List Field) (k : ℕ) (ts : List (List ℝ)) (hlen : ts.length = nCam)
    (hbad : ∀ f ∈ fs, f ≠ .bad) (hc : ∀ (c : ℕ) (v : ℝ), fs[c]? = some (.num v) → k + c < nCam) :
    ∃ ts', readStamps offset true k fs ts = .ok ts' ∧ ts'.length = nCam ∧
      ∀ (c : ℕ) (l : List ℝ), ts[c]? = some l →
        ts'[c]? = some (l ++ (match (if k ≤ c then fs[c - k]? else none) with | some (.num v) => [v + offset] | _ => [])) := by
  induction fs generalizing k ts with
  | nil => exact ⟨ts, rfl, hlen, by intro c l h; simp [h]⟩
  | cons f fs ih =>
    have hbad' : ∀ g ∈ fs, g ≠ .bad := fun g hg => hbad g (List.mem_cons_of_mem _ hg)
    have hc' : ∀ (c : ℕ) (v : ℝ), fs[c]? = some (.num v) → k + 1 + c < nCam := by
      intro c v h
      have := hc (c + 1) v (by simpa using h)
      omega
    have key : ∀ (c : ℕ) , k + 1 ≤ c → (f :: fs)[c - k]? = fs[c - (k + 1)]? := by
      intro c h
      obtain ⟨d, rfl⟩ := Nat.exists_eq_add_of_le h
      rw [show k + 1 + d - k = d + 1 by omega, show k + 1 + d - (k + 1) = d by omega]; simp
    cases f with
    | empty =>
      obtain ⟨ts', h1, h2, h3⟩ := ih (k + 1) ts hlen hbad' hc'
      refine ⟨ts', by simpa [readStamps] using h1, h2, ?_⟩
      intro c l hl
      rw [h3 c l hl]
      by_cases hk : k + 1 ≤ c
      · rw [if_pos hk, if_pos (by omega), key c hk]
      · rw [if_neg hk]
        by_cases hk2 : k ≤ c
        · have : c = k := by omega
          subst this; simp
        · rw [if_neg hk2]
    | bad => exact absurd rfl (hbad _ List.mem_cons_self)
    | num v =>
      have hkn : k < ts.length := by have := hc 0 v (by simp); omega
      obtain ⟨ts1, g1, g2, g3⟩ := pushAt_some ts k (v + offset) hkn
      obtain ⟨ts', h1, h2, h3⟩ := ih (k + 1) ts1 (by omega) hbad' hc'
      refine ⟨ts', by simp [readStamps, g1, h1], h2, ?_⟩
      intro c l hl
      rw [h3 c _ (g3 c l hl)]
      by_cases hk : k + 1 ≤ c
      · rw [if_pos hk, if_pos (show k ≤ c by omega), key c hk, if_neg (show c ≠ k by omega)]
      · rw [if_neg hk]
        by_cases hk2 : k ≤ c
        · have : c = k := by omega
          subst this; simp
        · rw [if_neg hk2, if_neg (show c ≠ k by omega)]

theorem readStamps_false (offset : ℝ) (fs : List Field) (k : ℕ) (ts : List (List ℝ)) : readStamps offset false k fs ts = .ok ts := by
  induction fs generalizing k with
  | nil => rfl
  | cons f fs ih => simp [readStamps, ih]

open Classical in
/-- What the lines contribute to camera `c`. -/
noncomputable def expected (offset : ℝ) (first last : ℕ) (log : List LogLine) (c : ℕ) : List ℝ :=
  (log.filter fun ln => Requested first last ln).filterMap fun ln => (ln.time c).map (· + offset)

theorem toUnsigned_nat (n : ℕ) (h : n < 4294967296) : toUnsigned (n : ℤ) = n := by
  unfold toUnsigned
  rw [Int.emod_eq_of_lt (by omega) (by omega)]
  simp

open Classical in
theorem readLines_spec (offset : ℝ) (first last nCam : ℕ) (log : List LogLine) (h : ∀ ln ∈ log, Readable nCam ln) (ts : List (List ℝ)) (hlen : ts.length = nCam) :
    ∃ ts', readLines offset first last log ts = .ok ts' ∧ ts'.length = nCam ∧
      ∀ (c : ℕ) (l : List ℝ), ts[c]? = some l → ts'[c]? = some (l ++ expected offset first last log c) := by
  induction log generalizing ts with
  | nil => exact ⟨ts, rfl, hlen, by intro c l hl; simp [expected, hl]⟩
  | cons ln rest ih =>
    obtain ⟨⟨n, hn, hn2⟩, hbad, hcam⟩ := h ln List.mem_cons_self
    by_cases hint : first ≤ n ∧ n ≤ last
    · obtain ⟨ts1, g1, g2, g3⟩ := readStamps_spec offset nCam ln.stamps 0 ts hlen hbad (by intro c v hv; simpa using hcam c v hv)
      obtain ⟨ts', h1, h2, h3⟩ := ih (fun l hl => h l (List.mem_cons_of_mem _ hl)) ts1 g2
      have hl1 : readLine offset first last ln ts = .ok ts1 := by
        simp [readLine, hn, toUnsigned_nat n hn2, hint.1, hint.2, g1]
      refine ⟨ts', by simp [readLines, hl1, h1], h2, ?_⟩
      intro c l hl
      rw [h3 c _ (g3 c l hl)]
      have hreq : Requested first last ln := ⟨n, hn, hint⟩
      rw [List.append_assoc]
      congr 2
      unfold expected
      rw [List.filter_cons, if_pos (show decide (Requested first last ln) = true by simpa using hreq)]
      rw [List.filterMap_cons]
      simp only [Nat.zero_le, if_true, Nat.sub_zero]
      rcases hs : ln.stamps[c]? with _ | f
      · have ht : ln.time c = none := by simp [LogLine.time, hs]
        rw [ht]; simp
      · cases f with
        | empty => have ht : ln.time c = none := by simp [LogLine.time, hs]
                   rw [ht]; simp
        | bad => have ht : ln.time c = none := by simp [LogLine.time, hs]
                 rw [ht]; simp
        | num v => have ht : ln.time c = some v := by simp [LogLine.time, hs]
                   rw [ht]; simp
    · obtain ⟨ts', h1, h2, h3⟩ := ih (fun l hl => h l (List.mem_cons_of_mem _ hl)) ts hlen
      have hl1 : readLine offset first last ln ts = .ok ts := by
        have : (decide (n ≥ first) && decide (n ≤ last)) = false := by
          rw [Bool.and_eq_false_iff]
          rcases not_and_or.1 hint with h | h
          · left; simpa using h
          · right; simpa using h
        simp [readLine, hn, toUnsigned_nat n hn2, this, readStamps_false]
      refine ⟨ts', by simp [readLines, hl1, h1], h2, ?_⟩
      intro c l hl
      rw [h3 c l hl]
      have hreq : ¬ Requested first last ln := by
        rintro ⟨m, hm, hm2⟩
        rw [hn] at hm
        have : n = m := by simpa using hm
        subst this; exact hint hm2
      unfold expected
      rw [List.filter_cons, if_neg (by simpa using hreq)]

/-- **C55**, the part that holds for every readable log: one list per camera; the list of camera `c` has the offset-corrected times of exactly the requested frames for which
the log has a time for that camera, in the order of the log. -/
theorem C55_requested_frames_partial (offset : ℝ) (first last nCam : ℕ) (log : List LogLine) (h : ∀ ln ∈ log, Readable nCam ln) :
    ∃ ts, readTimestamps offset first last nCam log = .ok ts ∧ ts.length = nCam ∧
      ∀ c < nCam, ts[c]? = some (expected offset first last log c) := by
  obtain ⟨ts, h1, h2, h3⟩ := readLines_spec offset first last nCam log h (List.replicate nCam []) (by simp)
  refine ⟨ts, h1, h2, fun c hc => ?_⟩
  rw [h3 c [] (by simp [hc])]; simp

/-- A complete log: line `i` is frame `start + i` and has a time for every camera. -/
def CompleteLog (start nCam : ℕ) (time : ℕ → ℕ → ℝ) (log : List LogLine) : Prop :=
  ∀ (i : ℕ) (ln : LogLine), log[i]? = some ln → ln.frame = some ((start + i : ℕ) : ℤ) ∧ ln.stamps.length = nCam ∧
    ∀ c < nCam, ln.stamps[c]? = some (.num (time (start + i) c))

theorem expected_complete (offset : ℝ) (first last nCam : ℕ) (time : ℕ → ℕ → ℝ) (c : ℕ) (hc : c < nCam) (log : List LogLine) (start : ℕ)
    (hcomp : CompleteLog start nCam time log) :
    expected offset first last log c = ((List.range' start log.length).filter fun n => first ≤ n ∧ n ≤ last).map fun n => time n c + offset := by
  induction log generalizing start with
  | nil => simp [expected]
  | cons ln rest ih =>
    have h0 := hcomp 0 ln (by simp)
    have hrest : CompleteLog (start + 1) nCam time rest := by
      intro i l hl
      have := hcomp (i + 1) l (by simpa using hl)
      rw [show start + (i + 1) = start + 1 + i by omega] at this
      exact this
    have hi := ih (start + 1) hrest
    unfold expected at hi ⊢
    simp only [List.length_cons, List.range'_succ]
    have hreq : Requested first last ln ↔ (first ≤ start ∧ start ≤ last) := by
      constructor
      · rintro ⟨m, hm, hm2⟩
        rw [h0.1] at hm
        have : start + 0 = m := by simpa using hm
        subst this; simpa using hm2
      · intro hh
        exact ⟨start, by simpa using h0.1, hh⟩
    have htime : ln.time c = some (time start c) := by simp [LogLine.time, h0.2.2 c hc]
    by_cases hh : first ≤ start ∧ start ≤ last
    · rw [List.filter_cons, if_pos (by simpa using hreq.2 hh), List.filter_cons, if_pos (by simpa using hh), List.map_cons, List.filterMap_cons, htime]
      simp only [Option.map_some]
      rw [hi]
    · rw [List.filter_cons, if_neg (by simpa using fun h => hh (hreq.1 h)), List.filter_cons, if_neg (by simpa using hh), hi]

/-- **C55** for a complete log with consecutive frames that covers the requested ones: entry `k` of camera `c` is the corrected time of frame `first + k`, and there are exactly
`last - first + 1` of them. -/
theorem C55_complete_log_partial (offset : ℝ) (first last nCam start : ℕ) (time : ℕ → ℕ → ℝ) (log : List LogLine) (hcomp : CompleteLog start nCam time log)
    (hfit : start + log.length ≤ 4294967296) (hcov : start ≤ first ∧ last < start + log.length) (hfl : first ≤ last) :
    ∃ ts, readTimestamps offset first last nCam log = .ok ts ∧ ts.length = nCam ∧
      ∀ c < nCam, ∃ l, ts[c]? = some l ∧ l.length = last - first + 1 ∧ ∀ (k : ℕ), k < last - first + 1 → l[k]? = some (time (first + k) c + offset) := by
  have hread : ∀ ln ∈ log, Readable nCam ln := by
    intro ln hln
    obtain ⟨i, hi, hi'⟩ := List.mem_iff_getElem.1 hln
    obtain ⟨h1, h2, h3⟩ := hcomp i ln (by rw [List.getElem?_eq_getElem hi, hi'])
    refine ⟨⟨start + i, h1, by omega⟩, ?_, ?_⟩
    · intro f hf
      obtain ⟨j, hj, hj'⟩ := List.mem_iff_getElem.1 hf
      have := h3 j (by omega)
      rw [List.getElem?_eq_getElem hj, hj'] at this
      have h4 : f = _ := Option.some.inj this
      rw [h4]; simp
    · intro c v hv
      have := (List.getElem?_eq_some_iff.1 hv).1
      omega
  obtain ⟨ts, h1, h2, h3⟩ := C55_requested_frames_partial offset first last nCam log hread
  refine ⟨ts, h1, h2, fun c hc => ⟨_, h3 c hc, ?_⟩⟩
  rw [expected_complete offset first last nCam time c hc log start hcomp]
  have hrange : (List.range' start log.length).filter (fun n => decide (first ≤ n ∧ n ≤ last)) = List.range' first (last - first + 1) := by
    have hsplit : List.range' start log.length =
        List.range' start (first - start) ++ (List.range' first (last - first + 1) ++ List.range' (last + 1) (start + log.length - (last + 1))) := by
      have e1 : List.range' first (last - first + 1) ++ List.range' (last + 1) (start + log.length - (last + 1)) = List.range' first (start + log.length - first) := by
        have := List.range'_append_1 (s := first) (m := last - first + 1) (n := start + log.length - (last + 1))
        rw [show first + (last - first + 1) = last + 1 by omega] at this
        rw [this]; congr 1; omega
      rw [e1]
      have := List.range'_append_1 (s := start) (m := first - start) (n := start + log.length - first)
      rw [show start + (first - start) = first by omega] at this
      rw [this]; congr 1; omega
    rw [hsplit, List.filter_append, List.filter_append]
    have f1 : (List.range' start (first - start)).filter (fun n => decide (first ≤ n ∧ n ≤ last)) = [] := by
      rw [List.filter_eq_nil_iff]; intro n hn; rw [List.mem_range'_1] at hn; simp; omega
    have f2 : (List.range' (last + 1) (start + log.length - (last + 1))).filter (fun n => decide (first ≤ n ∧ n ≤ last)) = [] := by
      rw [List.filter_eq_nil_iff]; intro n hn; rw [List.mem_range'_1] at hn; simp; omega
    have f3 : (List.range' first (last - first + 1)).filter (fun n => decide (first ≤ n ∧ n ≤ last)) = List.range' first (last - first + 1) := by
      rw [List.filter_eq_self]; intro n hn; rw [List.mem_range'_1] at hn; simp; omega
    rw [f1, f2, f3]; simp
  rw [hrange]
  refine ⟨by simp, ?_⟩
  intro k hk
  simp [List.getElem?_range', hk]

/-- The hypotheses can be met: two cameras, frames 3, 4, 5 of a log that starts at frame 2. -/
example : CompleteLog 2 2 (fun n c => (n : ℝ) + c) ((List.range 5).map fun i => ⟨some ((2 + i : ℕ) : ℤ), [.num ((2 + i : ℕ) : ℝ), .num ((2 + i : ℕ) + 1)]⟩) := by
  intro i ln h
  simp only [List.getElem?_map, Option.map_eq_some_iff] at h
  obtain ⟨j, hj, rfl⟩ := h
  have : j = i := by
    obtain ⟨hlt, he⟩ := List.getElem?_eq_some_iff.1 hj
    simpa using he.symm
  subst this
  refine ⟨rfl, rfl, ?_⟩
  intro c hc
  rcases c with _ | _ | c
  · simp
  · simp
  · omega

/-- **C55**: a log that skips a frame is *accepted*; the check compares the frame of a line with a variable that has just been initialised. The entry `[0][1]`, which the
driver uses as the time of frame 1, is the time of frame 2. -/
theorem C55_gap_accepted_refuted :
    readTimestamps 0 0 2 1 [⟨some 0, [.num 10]⟩, ⟨some 2, [.num 30]⟩] = .ok [[10, 30]] := by
  simp [readTimestamps, readLines, readLine, readStamps, pushAt, toUnsigned, uintMax]

/-- **C55**: for *every* log, whatever its frame numbers, the check never rejects: replacing the frame numbers outside the requested range by other ones outside of it does not
change the outcome, consecutive or not. -/
theorem C55_no_order_check_refuted (offset : ℝ) (first last nCam : ℕ) (log : List LogLine) (ln : LogLine) (n : ℕ) (hn : ln.frame = some (n : ℤ))
    (hfit : n < 4294967296) (hout : n < first ∨ last < n) (pre : List LogLine) :
    readTimestamps offset first last nCam (pre ++ ln :: log) = readTimestamps offset first last nCam (pre ++ log) := by
  unfold readTimestamps
  generalize List.replicate nCam ([] : List ℝ) = ts
  induction pre generalizing ts with
  | nil =>
    have hl1 : readLine offset first last ln ts = .ok ts := by
      have : (decide (n ≥ first) && decide (n ≤ last)) = false := by
        rw [Bool.and_eq_false_iff]
        rcases hout with h | h
        · left; simpa using h
        · right; simpa using h
      simp [readLine, hn, toUnsigned_nat n hfit, this, readStamps_false]
    simp [readLines, hl1]
  | cons a as ih =>
    simp only [List.cons_append, readLines]
    cases readLine offset first last a ts with
    | ok t => exact ih t
    | thrown => rfl
    | ub => rfl

/-- **C55**: a camera that has no time for a requested frame: the later times move up, entry `[0][1]` is the time of frame 2. -/
theorem C55_missing_time_shifts_refuted :
    readTimestamps 0 0 2 2 [⟨some 0, [.num 10, .num 10]⟩, ⟨some 1, [.empty, .num 20]⟩, ⟨some 2, [.num 30, .num 30]⟩] = .ok [[10, 30], [10, 20, 30]] := by
  simp [readTimestamps, readLines, readLine, readStamps, pushAt, toUnsigned, uintMax]

/-- **C55**: a log with more columns than `last_camera_id - first_camera_id + 1` writes outside of the vector. -/
theorem C55_extra_column_refuted : readTimestamps 0 0 2 1 [⟨some 0, [.num 10, .num 11]⟩] = .ub := by
  simp [readTimestamps, readLines, readLine, readStamps, pushAt, toUnsigned, uintMax]

end Verif.ExpData
