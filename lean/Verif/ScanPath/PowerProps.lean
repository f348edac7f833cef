import Verif.ScanPath.QueryProps

/-!
# C88: power and rotation of a scan path on every record

Model: `ScanPath.cc:259-288` (`powerModifier`, `rotatePoint`).
-/

namespace Verif.ScanPath

open Verif.Quat

/-- **C88** (power). On a path with strictly increasing end times the power at a time is that of the record whose interval
(from the end of the previous record, excluded, to its own end, included) contains the time. -/
theorem C88_power_on_record (segs : List Segment) (five : Bool) (hs : StrictTimes segs) (i : ℕ) (hi : i < segs.length)
    (t : ℝ) (h0 : ∀ j (hj : j < segs.length), j + 1 = i → segs[j].endTime < t) (h1 : t ≤ segs[i].endTime) :
    (powerModifier (fresh segs five) t).1 = .value segs[i].power := by
  obtain ⟨l, hl, hle⟩ := le_last hs hi
  have hc := fresh_current (five := five) hs hi h1 h0
  unfold powerModifier
  rw [hc]
  have hl' : (fresh segs five).segs.getLast? = some l := hl
  rw [hl']
  simp only [if_neg (not_lt.mpr (h1.trans hle))]

/-- **C88** (power, every time). The power is that of some record, or zero after the end: in particular it is zero whenever all
records have zero power, and never negative when none is. -/
theorem C88_power_bounds (segs : List Segment) (five : Bool) (hs : StrictTimes segs) (hne : segs ≠ []) (t : ℝ) :
    ∃ p, (powerModifier (fresh segs five) t).1 = .value p ∧ (p = 0 ∨ ∃ s ∈ segs, p = s.power) := by
  by_cases h : ∃ i, ∃ hi : i < segs.length, t ≤ segs[i].endTime
  · classical
    obtain ⟨hi, h1⟩ := Nat.find_spec h
    refine ⟨_, C88_power_on_record segs five hs (Nat.find h) hi t ?_ h1, Or.inr ⟨_, List.getElem_mem hi, rfl⟩⟩
    intro j hj hji
    have := Nat.find_min h (m := j) (by omega)
    push Not at this
    exact this hj
  · push Not at h
    have hlen : 0 < segs.length := List.length_pos_iff.2 hne
    have hl : (listAfter segs []).getLast? = some segs[segs.length - 1] := by
      change segs.getLast? = _
      rw [List.getLast?_eq_getElem?, List.getElem?_eq_getElem (by omega)]
    have := (C08_off_after_end segs five true [] trivial _ hl t (h _ (by omega))).2
    exact ⟨0, this, Or.inl rfl⟩

/-- **C88** (paths without rotations). The orientation is the identity at every time, whatever the history, and points are not
rotated. -/
theorem C88_no_rotation (P : Path) (hf : P.fiveAxis = false) (t : ℝ) :
    quaternion P t = .value ⟨1, 0, 0, 0⟩ ∧ (P.segs ≠ [] → ∀ p, rotatePoint P t p = .value p) := by
  have hq : quaternion P t = .value ⟨1, 0, 0, 0⟩ := by unfold quaternion; rw [if_pos hf]
  refine ⟨hq, fun hne p => ?_⟩
  unfold rotatePoint
  obtain ⟨l, hl⟩ : ∃ l, P.segs.getLast? = some l := by
    cases h : P.segs.getLast? with
    | none => exact absurd (List.getLast?_eq_none_iff.mp h) hne
    | some l => exact ⟨l, rfl⟩
  rw [hl]
  by_cases ht : t > l.endTime
  · simp only [if_pos ht]
  · simp only [if_neg ht, hq]
    congr 1
    ext <;> simp [Q.rotate, Mat3.apply, Q.rotationMatrix]

/-- **C88** (rotating a point). Until the end of the path a point is turned by the orientation reported for the time. -/
theorem C88_rotate_until_end_partial (P : Path) (l : Segment) (hl : P.segs.getLast? = some l) (t : ℝ) (ht : t ≤ l.endTime)
    (q : Q ℝ) (hq : quaternion P t = .value q) (p : Pt3 ℝ) : rotatePoint P t p = .value (q.rotate p) := by
  unfold rotatePoint
  rw [hl]
  simp only [if_neg (not_lt.2 ht), hq]

/-- **C88** refuted after the end of a five-axis path: the reported orientation is the last recorded rotation, but points are
no longer rotated; e.g. a path that ends turned by a quarter about the third axis. -/
theorem C88_rotate_after_end_refuted (P : Path) (hf : P.fiveAxis = true) (l : Segment) (hl : P.segs.getLast? = some l)
    (q : Q ℝ) (hr : l.endRotation = some q) (t : ℝ) (ht : l.endTime < t) :
    quaternion P t = .value q ∧ ∀ p, rotatePoint P t p = .value p := by
  constructor
  · unfold quaternion
    rw [if_neg (by simp [hf]), hl]
    simp only [if_pos ht, hr]
  · intro p
    unfold rotatePoint
    rw [hl]
    simp only [if_pos ht]

/-- Hypotheses of C88 are met, and the two answers really differ. -/
example : ∃ (P : Path) (l : Segment) (q : Q ℝ), P.fiveAxis = true ∧ P.segs.getLast? = some l ∧ l.endRotation = some q ∧
    q.IsUnit ∧ l.endTime < 2 ∧ q.rotate ⟨1, 0, 0⟩ ≠ ⟨1, 0, 0⟩ := by
  refine ⟨⟨[⟨1, 1, ⟨0, 0, 0⟩, some ⟨3 / 5, 0, 0, 4 / 5⟩⟩], true, 0⟩, _, ⟨3 / 5, 0, 0, 4 / 5⟩, rfl, rfl, rfl, ?_, ?_, ?_⟩
  · norm_num [Q.IsUnit]
  · norm_num
  · intro h
    have := congrArg Pt3.x h
    norm_num [Q.rotate, Mat3.apply, Q.rotationMatrix] at this

example : StrictTimes twoSegs ∧ twoSegs ≠ [] := ⟨by simp [StrictTimes, twoSegs], by simp [twoSegs]⟩

end Verif.ScanPath
