import Verif.ScanPath.Text
import Verif.ScanPath.QueryProps
import Mathlib.Tactic.NormNum

/-!
# The scan path tests of the project, on the model

`/repo/tests/test_scan_path.cc` (cases `scan_path` and `scan_path_location`) with the texts of `/repo/tests/data/scan_path.txt` and
`/repo/tests/data/scan_path_event_series.inp`.  These are tests of the model, not proofs of properties: they show that the model gives the
values the project expects of the code.
-/

namespace Verif.Conformance

open Verif.Quat Verif.Text Verif.ScanPath

/-- The numbers in the two files, as `std::stod` and `std::stoi` read them. -/
noncomputable def fileNumbers : Numbers where
  stod s :=
    if s = "0.000".toList ∨ s = "0".toList ∨ s = "0.0".toList then some 0
    else if s = "0.002".toList then some (2 / 1000)
    else if s = "0.1".toList then some (1 / 10)
    else if s = "1".toList ∨ s = "1.0".toList then some 1
    else if s = "0.8".toList then some (8 / 10)
    else if s = "1e-6".toList then some (1 / 1000000)
    else if s = "0.5".toList then some (1 / 2)
    else if s = "2.0".toList then some 2
    else none
  stoi s := if s = "2".toList then some 2 else none

/-- The lines of `scan_path.txt` after the third. -/
def scanPathLines : List (List Char) :=
  ["1       0.000   0.1  0.1   0       1e-6".toList, "0       0.002   0.1  0.1   1       0.8".toList]

/-- The lines of `scan_path_event_series.inp`. -/
def eventSeriesLines : List (List Char) :=
  ["0.1, 0.0, 0.0, 0.0, 1.0".toList, "1.0, 0.5, 0.0, 0.0, 0.5".toList, "2.0, 0.5, 0.5, 0.0, 1.0".toList]

/-- The two segments the test expects. -/
noncomputable def scanPathSegments : List Segment :=
  [⟨1 / 1000000, 0, ⟨0, 1 / 10, 1 / 10⟩, none⟩, ⟨1 / 1000000 + 2 / 1000 / (8 / 10), 1, ⟨2 / 1000, 1 / 10, 1 / 10⟩, none⟩]

theorem scanPath_records : segLines fileNumbers 2 true scanPathLines =
    .ok [.record ⟨.point, ⟨0, 1 / 10, 1 / 10⟩, 0, 1 / 1000000⟩, .record ⟨.line, ⟨2 / 1000, 1 / 10, 1 / 10⟩, 1, 8 / 10⟩] := by
  have h1 : hasMarker "1       0.000   0.1  0.1   0       1e-6".toList = false := by decide
  have h2 : hasMarker "0       0.002   0.1  0.1   1       0.8".toList = false := by decide
  have s1 : split segSep "1       0.000   0.1  0.1   0       1e-6".toList =
      ["1".toList, "0.000".toList, "0.1".toList, "0.1".toList, "0".toList, "1e-6".toList] := by decide
  have s2 : split segSep "0       0.002   0.1  0.1   1       0.8".toList =
      ["0".toList, "0.002".toList, "0.1".toList, "0.1".toList, "1".toList, "0.8".toList] := by decide
  simp only [scanPathLines, segLines, h1, h2, readSegment, s1, s2]
  simp [token, num, fileNumbers]

/-- `tests/test_scan_path.cc`, `scan_path`: the segments of the segment file. -/
theorem conformance_segment_file : loadSegmentText fileNumbers 1 1 false "2".toList scanPathLines = .ok (.ok scanPathSegments false) := by
  have hd : declared fileNumbers "2".toList = .ok 2 := by simp [declared, fileNumbers]
  have hdist : distance ⟨2 / 1000, 1 / 10, 1 / 10⟩ ⟨0, 1 / 10, 1 / 10⟩ = 2 / 1000 := by
    rw [distance]
    rw [show ((2 / 1000 - 0 : ℝ)) ^ 2 + (1 / 10 - 1 / 10) ^ 2 + (1 / 10 - 1 / 10) ^ 2 = (2 / 1000) ^ 2 by norm_num]
    exact Real.sqrt_sq (by norm_num)
  rw [loadSegmentText, hd, Out.bind_ok, scanPath_records]
  simp [loadSegment, segLoop, scalePt, scanPathSegments] at hdist ⊢
  rw [hdist]
  norm_num [abs_of_pos]

/-- `tests/test_scan_path.cc`, `scan_path`: the segments of the event series; the power of an event holds after it. -/
theorem conformance_event_series : loadEventText fileNumbers 1 false false eventSeriesLines =
    .ok ([⟨1 / 10, 0, ⟨0, 0, 0⟩, none⟩, ⟨1, 1, ⟨1 / 2, 0, 0⟩, none⟩, ⟨2, 1 / 2, ⟨1 / 2, 1 / 2, 0⟩, none⟩], false, false) := by
  have h1 : hasMarker "0.1, 0.0, 0.0, 0.0, 1.0".toList = false := by decide
  have h2 : hasMarker "1.0, 0.5, 0.0, 0.0, 0.5".toList = false := by decide
  have h3 : hasMarker "2.0, 0.5, 0.5, 0.0, 1.0".toList = false := by decide
  have s1 : split eventSep "0.1, 0.0, 0.0, 0.0, 1.0".toList =
      ["0.1".toList, "0.0".toList, "0.0".toList, "0.0".toList, "1.0".toList] := by decide
  have s2 : split eventSep "1.0, 0.5, 0.0, 0.0, 0.5".toList =
      ["1.0".toList, "0.5".toList, "0.0".toList, "0.0".toList, "0.5".toList] := by decide
  have s3 : split eventSep "2.0, 0.5, 0.5, 0.0, 1.0".toList =
      ["2.0".toList, "0.5".toList, "0.5".toList, "0.0".toList, "1.0".toList] := by decide
  have n1 : "0.1, 0.0, 0.0, 0.0, 1.0".toList ≠ [] := by decide
  have n2 : "1.0, 0.5, 0.0, 0.0, 0.5".toList ≠ [] := by decide
  have n3 : "2.0, 0.5, 0.5, 0.0, 1.0".toList ≠ [] := by decide
  simp only [loadEventText, eventSeriesLines, eventLines, h1, h2, h3, n1, n2, n3, if_false, readEvent, s1, s2, s3]
  simp [token, num, fileNumbers, loadEventSeries, eventLoop, scalePt]

/-- The path of `scan_path.txt` after the calls already made. -/
noncomputable def scanPath (old : ℕ) : Path := ⟨scanPathSegments, false, old⟩

/-- `tests/test_scan_path.cc`, `scan_path_location`: the positions at `1e-7`, at `0.001001` and after the end, and the power after the
end. -/
theorem conformance_location :
    (value (scanPath 0) (1 / 10000000) true).1 = .value ⟨0, 1 / 10, 1 / 10⟩ ∧
    (value (scanPath 0) (1001 / 1000000) true).1 = .value ⟨8 / 10000, 1 / 10, 1 / 10⟩ ∧
    (value (scanPath 1) 100 true).1 = .outOfDomain ∧
    (powerModifier (scanPath 1) 100).1 = .value 0 := by
  refine ⟨?_, ?_, ?_, ?_⟩
  · have hs : search scanPathSegments (1 / 10000000) 0 = some 0 := by
      rw [search]
      norm_num [scanPathSegments]
    simp only [value, scanPath, current, hs]
    norm_num [scanPathSegments, segStart, lerp]
  · have hs : search scanPathSegments (1001 / 1000000) 0 = some 1 := by
      rw [search, search]
      norm_num [scanPathSegments]
    simp only [value, scanPath, current, hs]
    norm_num [scanPathSegments, segStart, lerp]
  · norm_num [value, scanPath, scanPathSegments]
  · norm_num [powerModifier, scanPath, scanPathSegments]

end Verif.Conformance
