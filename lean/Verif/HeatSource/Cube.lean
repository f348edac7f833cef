import Mathlib.Data.Real.Basic
import Mathlib.Tactic.NormNum
import Mathlib.Data.List.FinRange

/-!
# C67: the cube heat source, `source/CubeHeatSource.cc`

The dimension is arbitrary (`Fin d`; the code instantiates 2 and 3).  The vectorised code spells the comparisons out for
each dimension (`CubeHeatSource.cc:82-105`); they are the conjunction over the coordinates.
-/

namespace Verif.HeatSource

/-- `CubeHeatSource`, `CubeHeatSource.hh:59-64`. -/
structure Cube (d : ℕ) where
  sourceOn : Bool
  startTime : ℝ
  endTime : ℝ
  value : ℝ
  lo : Fin d → ℝ
  hi : Fin d → ℝ

/-- The constructor, `CubeHeatSource.cc:12-43`: the box is scaled by the length unit, the value by the power unit; the
source is off (`HeatSource.hh:108`). -/
noncomputable def Cube.new {d : ℕ} (dimScaling powerScaling start stop value : ℝ) (lo hi : Fin d → ℝ) : Cube d where
  sourceOn := false
  startTime := start
  endTime := stop
  value := value * powerScaling
  lo := fun i => lo i * dimScaling
  hi := fun i => hi i * dimScaling

open Classical in
/-- `update_time`, `CubeHeatSource.cc:45-49`. -/
noncomputable def Cube.updateTime {d : ℕ} (c : Cube d) (t : ℝ) : Cube d :=
  { c with sourceOn := decide (t > c.startTime) && decide (t < c.endTime) }

open Classical in
/-- The loop over the coordinates with `break`, `CubeHeatSource.cc:56-65`: `true` if no coordinate is outside. -/
noncomputable def Cube.inSource {d : ℕ} (c : Cube d) (p : Fin d → ℝ) : List (Fin d) → Bool
  | [] => true
  | i :: rest => if p i < c.lo i ∨ p i > c.hi i then false else c.inSource p rest

/-- Scalar `value`, `CubeHeatSource.cc:51-72`. -/
noncomputable def Cube.scalar {d : ℕ} (c : Cube d) (p : Fin d → ℝ) : ℝ :=
  if c.sourceOn then (if c.inSource p (List.finRange d) then c.value else 0) else 0

open Classical in
/-- Vectorised `value`, `CubeHeatSource.cc:74-110`: a mask per lane, multiplied with the value. -/
noncomputable def Cube.vector {d n : ℕ} (c : Cube d) (p : Fin n → Fin d → ℝ) (j : Fin n) : ℝ :=
  (if c.sourceOn then (if ∀ i, p j i ≥ c.lo i ∧ p j i ≤ c.hi i then 1 else 0) else 0) * c.value

/-- `get_bounding_box`, `CubeHeatSource.cc:112-127`; time and scaling are ignored. -/
def Cube.boundingBox {d : ℕ} (c : Cube d) (_t _scaling : ℝ) : (Fin d → ℝ) × (Fin d → ℝ) := (c.lo, c.hi)

theorem Cube.inSource_iff {d : ℕ} (c : Cube d) (p : Fin d → ℝ) (l : List (Fin d)) :
    c.inSource p l = true ↔ ∀ i ∈ l, c.lo i ≤ p i ∧ p i ≤ c.hi i := by
  induction l with
  | nil => simp [inSource]
  | cons i rest ih =>
    unfold inSource
    by_cases h : p i < c.lo i ∨ p i > c.hi i
    · rw [if_pos h]
      constructor
      · intro hf; cases hf
      · intro ha
        have := ha i (by simp)
        rcases h with h | h
        · exact absurd this.1 (not_le.2 h)
        · exact absurd this.2 (not_le.2 h)
    · rw [if_neg h, ih]
      rw [not_or, not_lt, gt_iff_lt, not_lt] at h
      simp [h]

/-- **C67**. A cube source built from the input and updated to any time has its (scaled) value at a point exactly if the
time is strictly between start and end and the point is in the closed (scaled) box, and zero otherwise. -/
theorem C67_scalar {d : ℕ} (L P start stop value : ℝ) (lo hi : Fin d → ℝ) (t : ℝ) (p : Fin d → ℝ) :
    ((start < t ∧ t < stop) ∧ (∀ i, lo i * L ≤ p i ∧ p i ≤ hi i * L) →
      ((Cube.new L P start stop value lo hi).updateTime t).scalar p = value * P) ∧
    (¬ ((start < t ∧ t < stop) ∧ (∀ i, lo i * L ≤ p i ∧ p i ≤ hi i * L)) →
      ((Cube.new L P start stop value lo hi).updateTime t).scalar p = 0) := by
  have hs := Cube.inSource_iff ((Cube.new L P start stop value lo hi).updateTime t) p (List.finRange d)
  have hb : (∀ i ∈ List.finRange d, ((Cube.new L P start stop value lo hi).updateTime t).lo i ≤ p i ∧
      p i ≤ ((Cube.new L P start stop value lo hi).updateTime t).hi i) ↔ ∀ i, lo i * L ≤ p i ∧ p i ≤ hi i * L := by
    constructor
    · intro h i; exact h i (List.mem_finRange i)
    · intro h i _; exact h i
  rw [hb] at hs
  have ho : ((Cube.new L P start stop value lo hi).updateTime t).sourceOn = true ↔ start < t ∧ t < stop := by
    unfold Cube.updateTime Cube.new
    rw [Bool.and_eq_true, decide_eq_true_iff, decide_eq_true_iff]
  unfold Cube.scalar
  constructor
  · rintro ⟨h1, h2⟩
    rw [if_pos (ho.2 h1), if_pos (hs.2 h2)]
    rfl
  · intro hn
    by_cases h1 : start < t ∧ t < stop
    · rw [if_pos (ho.2 h1), if_neg]
      intro h2
      exact hn ⟨h1, hs.1 h2⟩
    · rw [if_neg (fun h => h1 (ho.1 h))]

/-- **C67**. Every lane of the vectorised code gives the scalar value of its point, whatever the other lanes. -/
theorem C67_vector {d n : ℕ} (c : Cube d) (p : Fin n → Fin d → ℝ) (j : Fin n) : c.vector p j = c.scalar (p j) := by
  unfold Cube.vector Cube.scalar
  have hs := Cube.inSource_iff c (p j) (List.finRange d)
  by_cases h : c.sourceOn = true
  · rw [if_pos h, if_pos h]
    by_cases h2 : ∀ i, p j i ≥ c.lo i ∧ p j i ≤ c.hi i
    · rw [if_pos h2, if_pos (hs.2 fun i _ => h2 i), one_mul]
    · rw [if_neg h2, if_neg (fun h3 => h2 fun i => hs.1 h3 i (List.mem_finRange i)), zero_mul]
  · rw [if_neg h, if_neg h, zero_mul]

/-- **C66** for the cube: the box, at any time and scaling, contains every heated point. -/
theorem C66_cube_box {d : ℕ} (c : Cube d) (t scaling : ℝ) (p : Fin d → ℝ) (h : c.scalar p ≠ 0) (i : Fin d) :
    (c.boundingBox t scaling).1 i ≤ p i ∧ p i ≤ (c.boundingBox t scaling).2 i := by
  unfold Cube.scalar at h
  by_cases h1 : c.sourceOn = true
  · rw [if_pos h1] at h
    by_cases h2 : c.inSource p (List.finRange d) = true
    · exact (Cube.inSource_iff c p _).1 h2 i (List.mem_finRange i)
    · rw [if_neg h2] at h; exact absurd rfl h
  · rw [if_neg h1] at h; exact absurd rfl h

/-- **C65** for the cube: with a non-negative value the heat is non-negative, and zero when the source is off. -/
theorem C65_cube {d : ℕ} (c : Cube d) (p : Fin d → ℝ) (h : 0 ≤ c.value) :
    0 ≤ c.scalar p ∧ (c.sourceOn = false → c.scalar p = 0) := by
  unfold Cube.scalar
  constructor
  · split
    · split
      · exact h
      · exact le_rfl
    · exact le_rfl
  · intro h1
    rw [if_neg (by simp [h1])]

/-- A cube in two dimensions, heated in its closed unit square (corner included) and not outside. -/
example : ((Cube.new (d := 2) 1 1 0 1 7 (fun _ => 0) (fun _ => 1)).updateTime (1 / 2)).scalar (fun _ => 1) = 7 := by
  have := (C67_scalar (d := 2) 1 1 0 1 7 (fun _ => 0) (fun _ => 1) (1 / 2) (fun _ => 1)).1
    (by norm_num)
  rw [this]; norm_num

example : ((Cube.new (d := 2) 1 1 0 1 7 (fun _ => 0) (fun _ => 1)).updateTime 1).scalar (fun _ => 1) = 0 :=
  (C67_scalar (d := 2) 1 1 0 1 7 (fun _ => 0) (fun _ => 1) 1 (fun _ => 1)).2 (by norm_num)

end Verif.HeatSource
