import Verif.HeatSource.ValueProps
import Mathlib.Analysis.Real.Sqrt

/-!
# C66: the bounding boxes of the beam heat sources
-/

namespace Verif.HeatSource

open Verif.Quat Verif.ScanPath

/-- `p` lies in the closed box. -/
def Box3.Contains (b : Box3) (p : Pt3 ℝ) : Prop :=
  b.lo.x ≤ p.x ∧ p.x ≤ b.hi.x ∧ b.lo.y ≤ p.y ∧ p.y ≤ b.hi.y ∧ b.lo.z ≤ p.z ∧ p.z ≤ b.hi.z

theorem nonzero_inside {s s' : Source} {t : ℝ} (h : s.updateTime t = some s') (hb : s.props.Valid)
    {rho2 z : ℝ} (hne : s'.scalarAt rho2 z ≠ 0) : -s.props.depth ≤ z ∧ rho2 ≤ 5 * s.props.radius ^ 2 := by
  obtain ⟨m, hm, -⟩ := updateTime_spec h
  rw [scalarAt_eq h hb hm] at hne
  by_contra hc
  rw [not_and_or, not_le, not_le] at hc
  exact hne (if_pos hc)

theorem sqrt5_bound {a r scaling : ℝ} (hr : 0 < r) (hs : Real.sqrt 5 ≤ scaling) (h : a ^ 2 ≤ 5 * r ^ 2) :
    -(scaling * r) ≤ a ∧ a ≤ scaling * r := by
  have h1 : |a| ≤ Real.sqrt 5 * r := by
    apply abs_le_of_sq_le_sq _ (by positivity)
    rw [mul_pow, Real.sq_sqrt (by norm_num)]
    exact h
  have h2 : |a| ≤ scaling * r := h1.trans (mul_le_mul_of_nonneg_right hs hr.le)
  exact abs_le.1 h2

theorem one_le_sqrt5 : (1 : ℝ) ≤ Real.sqrt 5 := by
  rw [Real.one_le_sqrt]
  norm_num

theorem boundingBox3_three_axis {s s' : Source} {t : ℝ} (h : s.updateTime t = some s') (scaling : ℝ) {c : Pt3 ℝ}
    (hc : BeamAt s t c) (h5 : s.path.fiveAxis = false) :
    s'.boundingBox3 t scaling = some (boxAround s.props c scaling) := by
  obtain ⟨m, -, -, hp, -, -, -, -, -, -, -, hsame⟩ := updateTime_spec h
  unfold Source.boundingBox3
  rw [hsame.value false false, show (ScanPath.value s.path t false).1 = .value c from hc]
  simp only
  rw [hsame.five, h5, hp]
  simp

theorem boxAround_contains {b : BeamProps} (hb : b.Valid) {c r : Pt3 ℝ} {scaling : ℝ} (hs : Real.sqrt 5 ≤ scaling)
    (hz : r.z ≤ c.z) (h1 : -b.depth ≤ r.z - c.z) (h2 : rho2In3D c r ≤ 5 * b.radius ^ 2) :
    (boxAround b c scaling).Contains r := by
  unfold rho2In3D at h2
  have hx := sqrt5_bound (a := r.x - c.x) hb.radius hs (by nlinarith [sq_nonneg (r.y - c.y)])
  have hy := sqrt5_bound (a := r.y - c.y) hb.radius hs (by nlinarith [sq_nonneg (r.x - c.x)])
  have hd : b.depth ≤ scaling * b.depth := by
    have := one_le_sqrt5.trans hs
    nlinarith [hb.depth]
  refine ⟨?_, ?_, ?_, ?_, ?_, ?_⟩ <;> simp only [boxAround] <;> linarith

/-- **C66**. On a three-axis path the box is exactly: `scaling` beam radii to each side of the beam and `scaling` beam
depths below it (so a larger scaling widens it in every direction, upwards excepted). -/
theorem C66_box_extent (s s' : Source) (t scaling : ℝ) (h : s.updateTime t = some s') (c : Pt3 ℝ) (hc : BeamAt s t c)
    (h5 : s.path.fiveAxis = false) :
    ∃ B, s'.boundingBox3 t scaling = some B ∧ ∀ p : Pt3 ℝ, B.Contains p ↔
      |p.x - c.x| ≤ scaling * s.props.radius ∧ |p.y - c.y| ≤ scaling * s.props.radius ∧
        p.z ≤ c.z ∧ c.z - p.z ≤ scaling * s.props.depth := by
  refine ⟨_, boundingBox3_three_axis h scaling hc h5, fun p => ?_⟩
  simp only [Box3.Contains, boxAround, abs_le]
  constructor
  · rintro ⟨h1, h2, h3, h4, h5, h6⟩
    refine ⟨⟨?_, ?_⟩, ⟨?_, ?_⟩, ?_, ?_⟩ <;> linarith
  · rintro ⟨⟨h1, h2⟩, ⟨h3, h4⟩, h5, h6⟩
    refine ⟨?_, ?_, ?_, ?_, ?_, ?_⟩ <;> linarith

/-- **C66**, 2D: the same with the height in the second coordinate. -/
theorem C66_box_extent_2d (s s' : Source) (t scaling : ℝ) (h : s.updateTime t = some s') (c : Pt3 ℝ)
    (hc : BeamAt s t c) :
    ∃ xlo zlo xhi zhi : ℝ, s'.boundingBox2 t scaling = some ((xlo, zlo), (xhi, zhi)) ∧ ∀ x z : ℝ,
      (xlo ≤ x ∧ x ≤ xhi ∧ zlo ≤ z ∧ z ≤ zhi) ↔
      |x - c.x| ≤ scaling * s.props.radius ∧ z ≤ c.y ∧ c.y - z ≤ scaling * s.props.depth := by
  obtain ⟨m, -, -, hp, -, -, -, -, -, -, -, hsame⟩ := updateTime_spec h
  refine ⟨c.x - scaling * s'.props.radius, c.y - scaling * s'.props.depth, c.x + scaling * s'.props.radius, c.y, ?_,
    fun x z => ?_⟩
  · unfold Source.boundingBox2
    rw [hsame.value false false, show (ScanPath.value s.path t false).1 = .value c from hc]
  · rw [hp, abs_le]
    constructor
    · rintro ⟨h1, h2, h3, h4⟩
      refine ⟨⟨?_, ?_⟩, ?_, ?_⟩ <;> linarith
    · rintro ⟨⟨h1, h2⟩, h5, h6⟩
      refine ⟨?_, ?_, ?_, ?_⟩ <;> linarith

/-- **C66** (partial: three-axis path, scaling at least `√5`). The box of the source at the time it was updated to
exists and contains every point at or below the beam whose scalar heat is not zero. -/
theorem C66_box_contains_partial (s s' : Source) (t scaling : ℝ) (h : s.updateTime t = some s') (hb : s.props.Valid)
    (hs : Real.sqrt 5 ≤ scaling) (c : Pt3 ℝ) (hc : BeamAt s t c) (h5 : s.path.fiveAxis = false)
    (h5' : s.fiveAxis = false) :
    ∃ B, s'.boundingBox3 t scaling = some B ∧
      ∀ (p : Pt3 ℝ) (v : ℝ), s'.value3 p = some v → v ≠ 0 → p.z ≤ c.z → B.Contains p := by
  refine ⟨_, boundingBox3_three_axis h scaling hc h5, fun p v hv hne hz => ?_⟩
  rw [value3_eq h (Or.inl ⟨h5', rfl⟩) hc] at hv
  injection hv with hv
  rw [← hv] at hne
  obtain ⟨h1, h2⟩ := nonzero_inside h hb hne
  exact boxAround_contains hb hs hz h1 h2

/-- **C66** (partial), five-axis path with an orientation that does not rotate: same claim. -/
theorem C66_five_axis_identity_partial (s s' : Source) (t scaling : ℝ) (h : s.updateTime t = some s')
    (hb : s.props.Valid) (hs : Real.sqrt 5 ≤ scaling) (c : Pt3 ℝ) (hc : BeamAt s t c) (q : Q ℝ)
    (hq : quaternion s.path t = .value q) (hid : ∀ p : Pt3 ℝ, q.rotate p = p) (h5 : s.path.fiveAxis = true)
    (h5' : s.fiveAxis = true) :
    ∃ B, s'.boundingBox3 t scaling = some B ∧
      ∀ (p : Pt3 ℝ) (v : ℝ), s'.value3 p = some v → v ≠ 0 → p.z ≤ c.z → B.Contains p := by
  obtain ⟨m, -, -, hp, -, -, -, -, -, -, -, hsame⟩ := updateTime_spec h
  have hrot : ∀ x : Pt3 ℝ, rotatePoint s'.path t x = .value x := by
    intro x
    rw [hsame.rotatePoint]
    have hne : s.path.segs.getLast? ≠ none := by
      intro hl
      have : (ScanPath.value s.path t false).1 = .ub := by
        unfold ScanPath.value
        rw [hl]
      rw [show (ScanPath.value s.path t false).1 = .value c from hc] at this
      cases this
    unfold rotatePoint
    cases hl : s.path.segs.getLast? with
    | none => exact absurd hl hne
    | some l =>
      simp only
      split
      · rfl
      · rw [hq]
        simp only [hid]
  have hr := hb.radius
  have hd := hb.depth
  have hsc : 0 ≤ scaling := (Real.sqrt_nonneg 5).trans hs
  have hsort : sortCorners (boxAround s.props c scaling).hi (boxAround s.props c scaling).lo =
      boxAround s.props c scaling := by
    have e1 : 0 ≤ scaling * s.props.radius := mul_nonneg hsc hr.le
    have e2 : 0 ≤ scaling * s.props.depth := mul_nonneg hsc hd.le
    unfold sortCorners boxAround
    simp only
    rw [min_eq_right (by linarith), min_eq_right (by linarith), min_eq_right (by linarith), max_eq_left (by linarith),
      max_eq_left (by linarith), max_eq_left (by linarith)]
  refine ⟨boxAround s.props c scaling, ?_, fun p v hv hne hz => ?_⟩
  · unfold Source.boundingBox3
    rw [hsame.value false false, show (ScanPath.value s.path t false).1 = .value c from hc]
    simp only
    rw [hsame.five, h5, hp, hrot, hrot]
    simp only [if_true]
    rw [hsort]
  · rw [value3_eq h (r := p) (Or.inr ⟨h5', q, hq, (hid p).symm⟩) hc] at hv
    injection hv with hv
    rw [← hv] at hne
    obtain ⟨h1, h2⟩ := nonzero_inside h hb hne
    exact boxAround_contains hb hs hz h1 h2

/-- **C66** (partial: scaling at least `√5`), 2D. -/
theorem C66_box_contains_2d_partial (s s' : Source) (t scaling : ℝ) (h : s.updateTime t = some s') (hb : s.props.Valid)
    (hs : Real.sqrt 5 ≤ scaling) (c : Pt3 ℝ) (hc : BeamAt s t c) :
    ∃ xlo zlo xhi zhi : ℝ, s'.boundingBox2 t scaling = some ((xlo, zlo), (xhi, zhi)) ∧
      ∀ x z v : ℝ, s'.value2 x z = some v → v ≠ 0 → z ≤ c.y → xlo ≤ x ∧ x ≤ xhi ∧ zlo ≤ z ∧ z ≤ zhi := by
  obtain ⟨m, -, -, hp, -, -, -, -, -, -, -, hsame⟩ := updateTime_spec h
  refine ⟨c.x - scaling * s'.props.radius, c.y - scaling * s'.props.depth, c.x + scaling * s'.props.radius, c.y, ?_,
    fun x z v hv hne hz => ?_⟩
  · unfold Source.boundingBox2
    rw [hsame.value false false, show (ScanPath.value s.path t false).1 = .value c from hc]
  · rw [value2_eq h x z hc] at hv
    injection hv with hv
    rw [← hv] at hne
    obtain ⟨h1, h2⟩ := nonzero_inside h hb hne
    have hx := sqrt5_bound hb.radius hs h2
    have hd : s.props.depth ≤ scaling * s.props.depth := by
      have := one_le_sqrt5.trans hs
      nlinarith [hb.depth]
    rw [hp]
    refine ⟨?_, ?_, ?_, ?_⟩ <;> linarith

/-- **C66** refuted for every scaling between one and `√5` (the refinement code uses two): a point at the height of the
beam is heated and is outside the box, for both beam classes. -/
theorem C66_small_scaling_refuted (k : Kind) (scaling t : ℝ) (h1 : 1 ≤ scaling) (h2 : scaling < Real.sqrt 5)
    (ht : t ≤ 1) :
    ∃ s' B p v, (Source.new k unitProps spotPath).updateTime t = some s' ∧ s'.boundingBox3 t scaling = some B ∧
      BeamAt (Source.new k unitProps spotPath) t ⟨0, 0, 0⟩ ∧ p.z ≤ 0 ∧ s'.value3 p = some v ∧ v ≠ 0 ∧
      ¬ B.Contains p := by
  obtain ⟨s', hs', hb, -⟩ := spot_update k ht
  have hm : (powerModifier (Source.new k unitProps spotPath).path t).1 = .value 1 := by
    rw [show (Source.new k unitProps spotPath).path = spotPath from rfl, spot_power ht]
  set x := Real.sqrt 5 with hx
  have hx2 : x ^ 2 = 5 := Real.sq_sqrt (by norm_num)
  have hval := (C65_formula _ s' t 1 hs' unitProps_valid ⟨0, 0, 0⟩ hb hm ⟨x, 0, 0⟩ ⟨x, 0, 0⟩ (Or.inl ⟨rfl, rfl⟩)).1
    (by norm_num [Source.new, unitProps]) (by norm_num [Source.new, unitProps]; linarith)
  refine ⟨s', _, ⟨x, 0, 0⟩, _, hs', boundingBox3_three_axis hs' scaling hb rfl, hb, le_rfl, hval, ?_, ?_⟩
  · apply ne_of_gt
    have hpi := Real.pi_pos
    have hl : 0 < Real.log 10 := Real.log_pos (by norm_num)
    cases k
    · simp only [formula, goldakFormula, Source.new, unitProps]
      positivity
    · simp only [formula, electronBeamFormula, Source.new, unitProps]
      norm_num
      positivity
  · rintro ⟨-, h, -⟩
    simp only [boxAround, Source.new, unitProps] at h
    linarith

/-! ## Five-axis witness -/

/-- A rotation about the vertical axis with cosine `-7/25` and sine `24/25`. -/
noncomputable def turn : Q ℝ := ⟨3 / 5, 0, 0, 4 / 5⟩

theorem turn_unit : turn.IsUnit := by norm_num [turn, Q.IsUnit]

/-- A spot at `(100, 0, 0)` in the frame of the beam, with the part turned. -/
noncomputable def turnedPath : Path := ⟨[⟨1, 1, ⟨100, 0, 0⟩, some turn⟩], true, 0⟩

theorem turned_current {t : ℝ} (ht : t ≤ 1) : current turnedPath t = some (0, ⟨1, 1, ⟨100, 0, 0⟩, some turn⟩) := by
  have : search turnedPath.segs t turnedPath.old = some 0 :=
    search_intro le_rfl (by simp [turnedPath]) (by simpa [turnedPath] using ht) (by intro j _ _ h; omega)
  unfold current
  rw [this]
  rfl

theorem turned_quaternion {t : ℝ} (ht : t ≤ 1) : quaternion turnedPath t = .value turn := by
  unfold quaternion
  rw [if_neg (by simp [turnedPath]), show turnedPath.segs.getLast? = some ⟨1, 1, ⟨100, 0, 0⟩, some turn⟩ from rfl]
  simp only
  rw [if_neg (not_lt.2 ht), turned_current ht]
  simp [segStart, slerp]

/-- **C66** refuted for a five-axis path, for every scaling up to one hundred: the heated region in the part is the
*inverse* rotation of the region around the beam (`value` rotates the point), but the box rotates two of its corners
forward.  The point under the centre of the beam, which is heated, is outside the box. -/
theorem C66_five_axis_refuted (k : Kind) (scaling t : ℝ) (h1 : 0 ≤ scaling) (h2 : scaling ≤ 100) (ht : t ≤ 1) :
    ∃ s' B v, (Source.new k unitProps turnedPath).updateTime t = some s' ∧ s'.boundingBox3 t scaling = some B ∧
      turn.rotate ⟨-28, -96, 0⟩ = ⟨100, 0, 0⟩ ∧ BeamAt (Source.new k unitProps turnedPath) t ⟨100, 0, 0⟩ ∧
      s'.value3 ⟨-28, -96, 0⟩ = some v ∧ v ≠ 0 ∧ ¬ B.Contains ⟨-28, -96, 0⟩ := by
  have hlast : turnedPath.segs.getLast? = some ⟨1, 1, ⟨100, 0, 0⟩, some turn⟩ := rfl
  have hm : (powerModifier turnedPath t).1 = .value 1 := by
    unfold powerModifier
    rw [hlast]
    simp only
    rw [if_neg (not_lt.2 ht), turned_current ht]
  have hb : BeamAt (Source.new k unitProps turnedPath) t ⟨100, 0, 0⟩ := by
    show (ScanPath.value turnedPath t false).1 = _
    unfold ScanPath.value
    rw [hlast]
    simp only
    rw [if_neg (not_lt.2 ht), turned_current ht]
    simp [segStart, lerp]
  obtain ⟨s', hs'⟩ := updateTime_exists (s := Source.new k unitProps turnedPath) (t := t) (m := 1) hm
  obtain ⟨m, -, -, hp, -, -, -, -, -, -, -, hsame⟩ := updateTime_spec hs'
  have hrotp : turn.rotate ⟨-28, -96, 0⟩ = ⟨100, 0, 0⟩ := by
    ext <;> norm_num [turn, Q.rotate, Mat3.apply, Q.rotationMatrix]
  have hrot : ∀ x : Pt3 ℝ, rotatePoint s'.path t x = .value (turn.rotate x) := by
    intro x
    rw [hsame.rotatePoint]
    show rotatePoint turnedPath t x = _
    unfold rotatePoint
    rw [hlast]
    simp only
    rw [if_neg (not_lt.2 ht), turned_quaternion ht]
  have hval := (C65_formula _ s' t 1 hs' unitProps_valid ⟨100, 0, 0⟩ hb hm ⟨-28, -96, 0⟩ ⟨100, 0, 0⟩
    (Or.inr ⟨rfl, turn, turned_quaternion ht, hrotp.symm⟩)).1
    (by norm_num [Source.new, unitProps]) (by norm_num [Source.new, unitProps])
  set b := boxAround unitProps ⟨100, 0, 0⟩ scaling with hbdef
  refine ⟨s', sortCorners (turn.rotate b.hi) (turn.rotate b.lo), _, hs', ?_, hrotp, hb, hval, ?_, ?_⟩
  · unfold Source.boundingBox3
    rw [hsame.value false false, show (ScanPath.value (Source.new k unitProps turnedPath).path t false).1 = _ from hb]
    simp only
    rw [hsame.five, hp, hrot, hrot]
    simp [Source.new, turnedPath, ← hbdef]
  · apply ne_of_gt
    have hpi := Real.pi_pos
    have hl : 0 < Real.log 10 := Real.log_pos (by norm_num)
    cases k
    · simp only [formula, goldakFormula, Source.new, unitProps]
      positivity
    · simp only [formula, electronBeamFormula, Source.new, unitProps]
      norm_num
      positivity
  · rintro ⟨-, -, h, -⟩
    simp only [sortCorners, hbdef, boxAround, unitProps, turn, Q.rotate, Mat3.apply, Q.rotationMatrix] at h
    rw [min_le_iff] at h
    rcases h with h | h <;> norm_num at h <;> linarith

end Verif.HeatSource
