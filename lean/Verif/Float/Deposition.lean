import Verif.Float.Path
import Verif.Deposition.Model

/-!
# C133: deposition along a segment in floating-point arithmetic

The `while (in_segment)` loop of `deposition_along_scan_path` (`source/material_deposition.cc:172-315`) for one powered segment without
rotation, `dim = 3`, with every operation rounded, `Point::distance` included (the C++ evaluates it as a square root of a sum of squares).
`Verif.Deposition.Model` is the same code in exact arithmetic.
-/

namespace Verif.Float

open Verif.Deposition (LoopState Box SegCtx Params)

/-! ## Model -/

/-- `dealii::Point<3>::distance`: `std::sqrt(distance_square)`, the sum of the squared differences in the order of the coordinates. -/
noncomputable def distR (R : Rounding ℝ) (p q : Pt3 ℝ) : ℝ :=
  let dx := R.rd (p.x - q.x)
  let dy := R.rd (p.y - q.y)
  let dz := R.rd (p.z - q.z)
  R.rd (Real.sqrt (R.rd (R.rd (R.rd (dx * dx) + R.rd (dy * dy)) + R.rd (dz * dz))))

/-- What the loop knows about a powered segment, `material_deposition.cc:144-181`, with the deposition parameters and `eps = eps_time`. -/
structure TrackR where
  start : Pt3 ℝ
  finish : Pt3 ℝ
  t0 : ℝ
  t1 : ℝ
  length : ℝ
  height : ℝ
  width : ℝ
  lead : ℝ
  eps : ℝ

section
variable (R : Rounding ℝ) (c : TrackR)

/-- `segment_length`, `material_deposition.cc:180-181`. -/
noncomputable def TrackR.len : ℝ := distR R c.finish c.start

open Classical in
/-- `cos`, `material_deposition.cc:189-192`. -/
noncomputable def TrackR.cos : ℝ := if c.len R ≠ 0 then R.rd (R.rd (c.finish.x - c.start.x) / c.len R) else 1

open Classical in
/-- `sin`, `material_deposition.cc:193-196`. -/
noncomputable def TrackR.sin : ℝ := if c.len R ≠ 0 then R.rd (R.rd (c.finish.y - c.start.y) / c.len R) else 0

/-- `distance_to_box_center`, `material_deposition.cc:201-202`. -/
noncomputable def TrackR.dist (s : LoopState) : ℝ := distR R s.center c.start

/-- The test that ends the loop, `material_deposition.cc:282`. -/
def TrackR.stops (s : LoopState) : Prop := R.rd (c.dist R s + c.eps) > c.len R

open Classical in
/-- `center_increment`, `material_deposition.cc:290-295`. -/
noncomputable def TrackR.inc (s : LoopState) : ℝ :=
  if R.rd (c.dist R s + c.length) > c.len R then R.rd (c.len R - c.dist R s) else c.length

open Classical in
/-- The next centre and box length, `material_deposition.cc:286-313`. -/
noncomputable def TrackR.next (s : LoopState) : LoopState where
  center := ⟨R.rd (s.center.x + R.rd (c.cos R * c.inc R s)), R.rd (s.center.y + R.rd (c.sin R * c.inc R s)), s.center.z⟩
  nbl := if R.rd (c.dist R s + c.length) > c.len R then R.rd (c.len R - c.dist R s) else s.nbl

/-- The state at the `n`-th evaluation of the loop body. -/
noncomputable def TrackR.state : ℕ → LoopState
  | 0 => ⟨c.start, c.length⟩
  | n + 1 => c.next R (TrackR.state n)

open Classical in
/-- The time of a box whose centre is at distance `d`, `material_deposition.cc:184-185, 203-205, 274-276`, if the segment takes time. -/
noncomputable def TrackR.time (d : ℝ) : ℝ :=
  let v := R.rd (c.len R / R.rd (c.t1 - c.t0))
  max (R.rd (R.rd (c.t0 + (if v ≠ 0 then R.rd (d / v) else 0)) - c.lead)) c.eps

/-- The box of a state, `material_deposition.cc:243-268`. -/
noncomputable def TrackR.box (s : LoopState) : Box 3 :=
  let xl := R.rd (R.rd (|c.cos R| * s.nbl) + R.rd (|c.sin R| * c.width))
  let yl := R.rd (R.rd (|c.cos R| * c.width) + R.rd (|c.sin R| * s.nbl))
  { lo := ![R.rd (s.center.x - R.rd (0.5 * xl)), R.rd (s.center.y - R.rd (0.5 * yl)), R.rd (s.center.z - c.height)]
    hi := ![R.rd (s.center.x + R.rd (0.5 * xl)), R.rd (s.center.y + R.rd (0.5 * yl)), s.center.z] }

end

/-! ## Without rounding -/

/-- The segment of `Verif.Deposition.Model`. -/
def TrackR.ctx (c : TrackR) (power : ℝ) : SegCtx := ⟨c.t0, c.start, c.start, ⟨c.t1, power, c.finish, none⟩⟩

/-- The parameters of `Verif.Deposition.Model`. -/
def TrackR.params (c : TrackR) : Params := ⟨c.length, c.height, c.width, c.lead⟩

theorem distR_exact (p q : Pt3 ℝ) : distR (Rounding.exact ℝ) p q = ScanPath.distance p q := by
  unfold distR ScanPath.distance
  simp only [Rounding.exact, id, pow_two]

theorem state_exact (c : TrackR) (power : ℝ) (n : ℕ) :
    c.state (Rounding.exact ℝ) n = (c.ctx power).state c.params n := by
  induction n with
  | zero => rfl
  | succ n ih =>
    rw [TrackR.state, SegCtx.state, ih]
    generalize (c.ctx power).state c.params n = s
    have hd : c.dist (Rounding.exact ℝ) s = (c.ctx power).dist s := distR_exact _ _
    have hl : c.len (Rounding.exact ℝ) = (c.ctx power).len := distR_exact _ _
    unfold TrackR.next SegCtx.next TrackR.inc SegCtx.increment TrackR.cos TrackR.sin SegCtx.cos SegCtx.sin
    rw [hd, hl]
    rfl

/-- Without rounding the loop ends in the same pass, with the same boxes and times. -/
theorem track_exact (c : TrackR) (power : ℝ) (n : ℕ) (he : c.eps = Deposition.eps) (ht : c.t0 < c.t1) :
    let s := c.state (Rounding.exact ℝ) n
    (c.stops (Rounding.exact ℝ) s ↔ (c.ctx power).stops s) ∧
    some (c.box (Rounding.exact ℝ) s) = Deposition.box3 c.params (c.ctx power) s ∧
    some (c.time (Rounding.exact ℝ) (c.dist (Rounding.exact ℝ) s)) = (c.ctx power).pushTime c.params ((c.ctx power).dist s) := by
  intro s
  have hd : c.dist (Rounding.exact ℝ) s = (c.ctx power).dist s := distR_exact _ _
  have hl : c.len (Rounding.exact ℝ) = (c.ctx power).len := distR_exact _ _
  refine ⟨?_, ?_, ?_⟩
  · unfold TrackR.stops SegCtx.stops
    rw [hd, hl, he]
    rfl
  · unfold TrackR.box Deposition.box3 TrackR.cos TrackR.sin
    rw [hl]
    simp only [Rounding.exact, id, TrackR.ctx, TrackR.params, Deposition.planarBox3, SegCtx.cos, SegCtx.sin]
  · have h0 : ¬ (c.ctx power).seg.endTime - (c.ctx power).startTime = 0 := by
      simp only [TrackR.ctx]
      exact (sub_pos.2 ht).ne'
    unfold TrackR.time SegCtx.pushTime SegCtx.timeTo
    rw [hd, hl, he, if_neg h0]
    change some (max (c.t0 + (if (c.ctx power).len / (c.t1 - c.t0) ≠ 0 then (c.ctx power).dist s / ((c.ctx power).len / (c.t1 - c.t0)) else 0) -
      c.lead) Deposition.eps) = Option.map (fun t => max (c.t0 + t - c.lead) Deposition.eps)
        (if (c.ctx power).len / (c.t1 - c.t0) ≠ 0 then some ((c.ctx power).dist s / ((c.ctx power).len / (c.t1 - c.t0))) else some 0)
    by_cases hv : (c.ctx power).len / (c.t1 - c.t0) = 0
    · rw [if_neg (not_not.2 hv), if_neg (not_not.2 hv)]
      rfl
    · rw [if_pos hv, if_pos hv]
      rfl

/-! ## Lemmas -/

section
variable {R : Rounding ℝ}

theorem rd_sq {x : ℝ} (hu : R.u ≤ 1 / 64) :
    (1 - R.u) ^ 3 * x ^ 2 ≤ R.rd (R.rd x * R.rd x) ∧ R.rd (R.rd x * R.rd x) ≤ (1 + R.u) ^ 3 * x ^ 2 := by
  have hu0 := u_nonneg R
  obtain ⟨e, he, hx⟩ := rd_rel (R := R) x
  obtain ⟨e1, e2⟩ := abs_le.1 he
  obtain ⟨h1, h2⟩ := rd_between R (mul_self_nonneg (R.rd x))
  have hs : R.rd x * R.rd x = (1 + e) ^ 2 * x ^ 2 := by rw [hx]; ring
  rw [hs] at h1 h2 ⊢
  have hx0 := sq_nonneg x
  constructor
  · refine le_trans ?_ h1
    have : (1 - R.u) ^ 2 ≤ (1 + e) ^ 2 := pow_le_pow_left₀ (by linarith) (by linarith) 2
    have := mul_le_mul_of_nonneg_right this hx0
    calc (1 - R.u) ^ 3 * x ^ 2 = (1 - R.u) * ((1 - R.u) ^ 2 * x ^ 2) := by ring
      _ ≤ _ := mul_le_mul_of_nonneg_left this (by linarith)
  · refine le_trans h2 ?_
    have : (1 + e) ^ 2 ≤ (1 + R.u) ^ 2 := pow_le_pow_left₀ (by linarith) (by linarith) 2
    have := mul_le_mul_of_nonneg_right this hx0
    calc (1 + R.u) * ((1 + e) ^ 2 * x ^ 2) ≤ (1 + R.u) * ((1 + R.u) ^ 2 * x ^ 2) := mul_le_mul_of_nonneg_left this (by linarith)
      _ = _ := by ring

/-- The computed distance is the distance up to four rounding errors. -/
theorem distR_bounds (hu : R.u ≤ 1 / 64) (p q : Pt3 ℝ) :
    (1 - R.u) ^ 4 * ScanPath.distance p q ≤ distR R p q ∧ distR R p q ≤ (1 + R.u) ^ 4 * ScanPath.distance p q := by
  have hu0 := u_nonneg R
  have a0 : 0 ≤ 1 - R.u := by linarith
  have a1 : 1 - R.u ≤ 1 := by linarith
  have b1 : 1 ≤ 1 + R.u := by linarith
  unfold distR ScanPath.distance
  obtain ⟨x1, x2⟩ := rd_sq (R := R) (x := p.x - q.x) hu
  obtain ⟨y1, y2⟩ := rd_sq (R := R) (x := p.y - q.y) hu
  obtain ⟨z1, z2⟩ := rd_sq (R := R) (x := p.z - q.z) hu
  simp only
  generalize R.rd (R.rd (p.x - q.x) * R.rd (p.x - q.x)) = X at *
  generalize R.rd (R.rd (p.y - q.y) * R.rd (p.y - q.y)) = Y at *
  generalize R.rd (R.rd (p.z - q.z) * R.rd (p.z - q.z)) = Z at *
  have dx := sq_nonneg (p.x - q.x)
  have dy := sq_nonneg (p.y - q.y)
  have dz := sq_nonneg (p.z - q.z)
  generalize (p.x - q.x) ^ 2 = A at *
  generalize (p.y - q.y) ^ 2 = B at *
  generalize (p.z - q.z) ^ 2 = C at *
  have hX : 0 ≤ X := le_trans (mul_nonneg (pow_nonneg a0 3) dx) x1
  have hY : 0 ≤ Y := le_trans (mul_nonneg (pow_nonneg a0 3) dy) y1
  have hZ : 0 ≤ Z := le_trans (mul_nonneg (pow_nonneg a0 3) dz) z1
  obtain ⟨s1, s2⟩ := rd_between R (add_nonneg hX hY)
  generalize R.rd (X + Y) = S at *
  have hS : 0 ≤ S := le_trans (mul_nonneg a0 (add_nonneg hX hY)) s1
  obtain ⟨t1, t2⟩ := rd_between R (add_nonneg hS hZ)
  generalize R.rd (S + Z) = T at *
  have hT : 0 ≤ T := le_trans (mul_nonneg a0 (add_nonneg hS hZ)) t1
  have hABC : 0 ≤ A + B + C := by linarith
  have lo : ((1 - R.u) ^ 3) ^ 2 * (A + B + C) ≤ T := by
    have h1 : (1 - R.u) ^ 4 * (A + B) ≤ S := by
      refine le_trans ?_ s1
      calc (1 - R.u) ^ 4 * (A + B) = (1 - R.u) * ((1 - R.u) ^ 3 * A + (1 - R.u) ^ 3 * B) := by ring
        _ ≤ _ := mul_le_mul_of_nonneg_left (add_le_add x1 y1) a0
    have h2 : (1 - R.u) ^ 4 * C ≤ Z := by
      refine le_trans ?_ z1
      exact mul_le_mul_of_nonneg_right (pow_le_pow_of_le_one a0 a1 (by norm_num)) dz
    calc ((1 - R.u) ^ 3) ^ 2 * (A + B + C) = (1 - R.u) * ((1 - R.u) * ((1 - R.u) ^ 4 * (A + B) + (1 - R.u) ^ 4 * C)) := by ring
      _ ≤ 1 * ((1 - R.u) * ((1 - R.u) ^ 4 * (A + B) + (1 - R.u) ^ 4 * C)) := mul_le_mul_of_nonneg_right a1 (by positivity)
      _ = (1 - R.u) * ((1 - R.u) ^ 4 * (A + B) + (1 - R.u) ^ 4 * C) := one_mul _
      _ ≤ (1 - R.u) * (S + Z) := mul_le_mul_of_nonneg_left (add_le_add h1 h2) a0
      _ ≤ T := t1
  have hi : T ≤ ((1 + R.u) ^ 3) ^ 2 * (A + B + C) := by
    have h1 : S ≤ (1 + R.u) ^ 4 * (A + B) := by
      refine le_trans s2 ?_
      calc (1 + R.u) * (X + Y) ≤ (1 + R.u) * ((1 + R.u) ^ 3 * A + (1 + R.u) ^ 3 * B) :=
            mul_le_mul_of_nonneg_left (add_le_add x2 y2) (by linarith)
        _ = _ := by ring
    have h2 : Z ≤ (1 + R.u) ^ 4 * C :=
      le_trans z2 (mul_le_mul_of_nonneg_right (pow_le_pow_right₀ b1 (by norm_num)) dz)
    calc T ≤ (1 + R.u) * (S + Z) := t2
      _ ≤ (1 + R.u) * ((1 + R.u) ^ 4 * (A + B) + (1 + R.u) ^ 4 * C) := mul_le_mul_of_nonneg_left (add_le_add h1 h2) (by linarith)
      _ = 1 * ((1 + R.u) * ((1 + R.u) ^ 4 * (A + B) + (1 + R.u) ^ 4 * C)) := (one_mul _).symm
      _ ≤ (1 + R.u) * ((1 + R.u) * ((1 + R.u) ^ 4 * (A + B) + (1 + R.u) ^ 4 * C)) := mul_le_mul_of_nonneg_right b1 (by positivity)
      _ = _ := by ring
  obtain ⟨r1, r2⟩ := rd_between R (Real.sqrt_nonneg T)
  have q1 : (1 - R.u) ^ 3 * Real.sqrt (A + B + C) ≤ Real.sqrt T := by
    have := Real.sqrt_le_sqrt lo
    rwa [Real.sqrt_mul (sq_nonneg _), Real.sqrt_sq (pow_nonneg a0 3)] at this
  have q2 : Real.sqrt T ≤ (1 + R.u) ^ 3 * Real.sqrt (A + B + C) := by
    have := Real.sqrt_le_sqrt hi
    rwa [Real.sqrt_mul (sq_nonneg _), Real.sqrt_sq (by positivity)] at this
  constructor
  · refine le_trans ?_ r1
    calc (1 - R.u) ^ 4 * Real.sqrt (A + B + C) = (1 - R.u) * ((1 - R.u) ^ 3 * Real.sqrt (A + B + C)) := by ring
      _ ≤ _ := mul_le_mul_of_nonneg_left q1 a0
  · refine le_trans r2 ?_
    calc (1 + R.u) * Real.sqrt T ≤ (1 + R.u) * ((1 + R.u) ^ 3 * Real.sqrt (A + B + C)) := mul_le_mul_of_nonneg_left q2 (by linarith)
      _ = _ := by ring

/-- The same with linear factors. -/
theorem distR_lin (hu : R.u ≤ 1 / 64) (p q : Pt3 ℝ) :
    (1 - 4 * R.u) * ScanPath.distance p q ≤ distR R p q ∧ distR R p q ≤ (1 + 5 * R.u) * ScanPath.distance p q := by
  have hu0 := u_nonneg R
  obtain ⟨h1, h2⟩ := distR_bounds hu p q
  have hd : 0 ≤ ScanPath.distance p q := Real.sqrt_nonneg _
  have e1 : 1 - 4 * R.u ≤ (1 - R.u) ^ 4 := by nlinarith [sq_nonneg R.u, sq_nonneg (R.u ^ 2), mul_nonneg hu0 (sq_nonneg R.u)]
  have e2 : (1 + R.u) ^ 4 ≤ 1 + 5 * R.u := by
    have q2 : R.u ^ 2 ≤ 1 / 64 * R.u := by nlinarith
    have q3 : R.u ^ 3 ≤ 1 / 4096 * R.u := by nlinarith [mul_nonneg hu0 hu0]
    have q4 : R.u ^ 4 ≤ 1 / 4096 * R.u := by nlinarith [mul_nonneg hu0 hu0, pow_nonneg hu0 3]
    nlinarith
  exact ⟨le_trans (mul_le_mul_of_nonneg_right e1 hd) h1, le_trans h2 (mul_le_mul_of_nonneg_right e2 hd)⟩

theorem dir_err (hu : R.u ≤ 1 / 64) {a l len : ℝ} (hl : 0 < l) (h1 : (1 - 4 * R.u) * l ≤ len) (h2 : len ≤ (1 + 5 * R.u) * l) :
    ∃ k, |k| ≤ 8 * R.u ∧ R.rd (R.rd a / len) = a / l * (1 + k) := by
  have hu0 := u_nonneg R
  obtain ⟨e1, b1, r1⟩ := rd_rel (R := R) a
  obtain ⟨e2, b2, r2⟩ := rd_rel (R := R) (R.rd a / len)
  obtain ⟨n, hn⟩ : ∃ n, len = l * (1 + n) := ⟨len / l - 1, by field_simp; ring⟩
  have n1 : -(4 * R.u) ≤ n := by
    rw [hn] at h1
    have : (1 - 4 * R.u) * l ≤ (1 + n) * l := by linarith
    have := le_of_mul_le_mul_right this hl
    linarith
  have n2 : n ≤ 5 * R.u := by
    rw [hn] at h2
    have : (1 + n) * l ≤ (1 + 5 * R.u) * l := by linarith
    have := le_of_mul_le_mul_right this hl
    linarith
  have hpos : 0 < 1 + n := by linarith
  refine ⟨(1 + e1) * (1 + e2) / (1 + n) - 1, ?_, ?_⟩
  · have : (1 + e1) * (1 + e2) / (1 + n) - 1 = ((1 + e1) * (1 + e2) - 1 - n) / (1 + n) := by field_simp; ring
    rw [this, abs_div, abs_of_pos hpos, div_le_iff₀ hpos]
    have hN : |(1 + e1) * (1 + e2) - 1| ≤ R.u * (17 / 16) + R.u :=
      factor_step hu0 (by linarith) b2 (by rwa [add_sub_cancel_left])
    have hn' : |n| ≤ 5 * R.u := abs_le.2 ⟨by linarith, n2⟩
    refine le_trans (abs_sub _ _) (le_trans (add_le_add hN hn') ?_)
    have := mul_le_mul_of_nonneg_left (show 15 / 16 ≤ 1 + n by linarith) (show 0 ≤ 8 * R.u by linarith)
    linarith
  · rw [r2, r1, hn]
    field_simp
    ring

theorem step_err (hu : R.u ≤ 1 / 64) {x al k inc X : ℝ} (ha : |al| ≤ 1) (hk : |k| ≤ 8 * R.u) (hi : 0 ≤ inc) (hx : |x| ≤ X) :
    |R.rd (x + R.rd (al * (1 + k) * inc)) - (x + al * inc)| ≤ R.u * X + 12 * R.u * inc := by
  have hu0 := u_nonneg R
  obtain ⟨e, b, r⟩ := rd_rel (R := R) (al * (1 + k) * inc)
  have hN : |(1 + k) * (1 + e) - 1| ≤ 8 * R.u * (17 / 16) + R.u :=
    factor_step hu0 (by linarith) b (by rwa [add_sub_cancel_left])
  have hg : |al * inc| ≤ inc := by
    rw [abs_mul, abs_of_nonneg hi]
    have := mul_le_mul_of_nonneg_right ha hi
    linarith
  set g := R.rd (al * (1 + k) * inc) with hgd
  have h1 : |g - al * inc| ≤ 10 * R.u * inc := by
    have : g - al * inc = al * inc * ((1 + k) * (1 + e) - 1) := by rw [r]; ring
    rw [this, abs_mul]
    refine le_trans (mul_le_mul hg hN (abs_nonneg _) hi) ?_
    have := mul_nonneg hu0 hi
    linarith
  have h2 : |x + g| ≤ X + 2 * inc := by
    have : x + g = x + al * inc + (g - al * inc) := by ring
    rw [this]
    refine le_trans (abs_add_le _ _) (le_trans (add_le_add (le_trans (abs_add_le _ _) (add_le_add hx hg)) h1) ?_)
    have := mul_le_mul_of_nonneg_right hu hi
    linarith
  have h3 := R.rel (x + g)
  have h4 : R.rd (x + g) - (x + al * inc) = (R.rd (x + g) - (x + g)) + (g - al * inc) := by ring
  rw [h4]
  refine le_trans (abs_add_le _ _) (le_trans (add_le_add h3 h1) ?_)
  have := mul_le_mul_of_nonneg_left h2 hu0
  linarith

end

/-! ## Specification -/

/-- How far a point is along the segment. -/
noncomputable def along (c : TrackR) (p : Pt3 ℝ) : ℝ :=
  ((p.x - c.start.x) * (c.finish.x - c.start.x) + (p.y - c.start.y) * (c.finish.y - c.start.y)) / ScanPath.distance c.finish c.start

/-- How far a point is beside the line of the segment. -/
noncomputable def beside (c : TrackR) (p : Pt3 ℝ) : ℝ :=
  |(p.x - c.start.x) * (c.finish.y - c.start.y) - (p.y - c.start.y) * (c.finish.x - c.start.x)| / ScanPath.distance c.finish c.start

/-- A horizontal segment of a path whose coordinates, together with the length of the segment, are not so large that the deposition
length or `eps` were lost in their rounding; `S` bounds the coordinates of the start. -/
structure Sane (R : Rounding ℝ) (c : TrackR) (S : ℝ) : Prop where
  flat : c.finish.z = c.start.z
  x : |c.start.x| ≤ S
  y : |c.start.y| ≤ S
  length : 0 < c.length
  rdLength : R.rd c.length = c.length
  eps : 0 < c.eps
  precise : R.u ≤ 1 / 64
  notLost : 128 * R.u * (S + ScanPath.distance c.finish c.start) ≤ min c.length c.eps

/-! ## The loop -/

section
variable {R : Rounding ℝ} {c : TrackR} {S : ℝ}

theorem TrackR.rd_dist (s : LoopState) : R.rd (c.dist R s) = c.dist R s := R.idem _

theorem TrackR.rd_len : R.rd (c.len R) = c.len R := R.idem _

theorem TrackR.dist_nonneg (s : LoopState) : 0 ≤ c.dist R s := rd_ge0 R (Real.sqrt_nonneg _)

theorem TrackR.len_nonneg : 0 ≤ c.len R := rd_ge0 R (Real.sqrt_nonneg _)

/-- One pass that does not end the loop. -/
theorem not_stopped (h : Sane R c S) (s : LoopState) (hs : ¬ c.stops R s) :
    c.dist R s ≤ c.len R ∧ 0 ≤ c.inc R s ∧ c.inc R s ≤ c.len R ∧ min c.length c.eps - 3 * R.u * c.len R ≤ c.inc R s ∧
      c.dist R s + c.inc R s ≤ c.len R + 2 * R.u * c.len R := by
  have hu := h.precise
  have hu0 := u_nonneg R
  have hd0 := TrackR.dist_nonneg (R := R) (c := c) s
  have hl0 := TrackR.len_nonneg (R := R) (c := c)
  have hs' : R.rd (c.dist R s + c.eps) ≤ c.len R := not_lt.1 hs
  have hdl : c.dist R s ≤ c.len R := le_trans (le_rd' R (TrackR.rd_dist s) (by linarith [h.eps])) hs'
  refine ⟨hdl, ?_⟩
  have hul : 0 ≤ R.u * c.len R := mul_nonneg hu0 hl0
  -- if `rd (d + x) ≤ len`, then `d + x` is at most slightly larger
  have key : ∀ x : ℝ, 0 < x → R.rd (c.dist R s + x) ≤ c.len R → c.dist R s + x ≤ c.len R + 2 * R.u * c.len R := by
    intro x hx h1
    have h2 := (rd_between R (show 0 ≤ c.dist R s + x by linarith)).1
    have h3 : (1 - R.u) * (c.dist R s + x) ≤ (1 - R.u) * (c.len R + 2 * R.u * c.len R) := by
      refine le_trans h2 (le_trans h1 ?_)
      have : 0 ≤ R.u * c.len R * (1 - 2 * R.u) := mul_nonneg hul (by linarith)
      nlinarith
    exact le_of_mul_le_mul_left h3 (by linarith)
  unfold TrackR.inc
  by_cases hc : R.rd (c.dist R s + c.length) > c.len R
  · rw [if_pos hc]
    have hsub : 0 ≤ c.len R - c.dist R s := by linarith
    obtain ⟨g1, g2⟩ := rd_between R hsub
    have hle : R.rd (c.len R - c.dist R s) ≤ c.len R := rd_le' R TrackR.rd_len (by linarith)
    have he := key c.eps h.eps hs'
    have hx : R.u * (c.len R - c.dist R s) ≤ R.u * c.len R := mul_le_mul_of_nonneg_left (by linarith) hu0
    have hm := min_le_right c.length c.eps
    refine ⟨rd_ge0 R hsub, hle, ?_, ?_⟩ <;> linarith
  · rw [if_neg hc]
    have hL : R.rd (c.dist R s + c.length) ≤ c.len R := not_lt.1 hc
    have hle : c.length ≤ c.len R := le_trans (le_rd' R h.rdLength (by linarith)) hL
    have hm := min_le_left c.length c.eps
    refine ⟨h.length.le, hle, by linarith, key c.length h.length hL⟩

theorem unit_parts {a b l : ℝ} (hl : 0 < l) (h : a ^ 2 + b ^ 2 = l ^ 2) :
    |a / l| ≤ 1 ∧ |b / l| ≤ 1 ∧ (a / l) ^ 2 + (b / l) ^ 2 = 1 := by
  have h1 : (a / l) ^ 2 + (b / l) ^ 2 = 1 := by
    rw [div_pow, div_pow, ← add_div, h, div_self (by positivity)]
  refine ⟨?_, ?_, h1⟩ <;> rw [← sq_le_one_iff_abs_le_one] <;> nlinarith [sq_nonneg (a / l), sq_nonneg (b / l)]

theorem dist_flat (p q : Pt3 ℝ) (h : p.z = q.z) : (p.x - q.x) ^ 2 + (p.y - q.y) ^ 2 = ScanPath.distance p q ^ 2 := by
  unfold ScanPath.distance
  rw [Real.sq_sqrt (by positivity), h]
  ring

theorem plane_step {X Y al be inc dx dy E : ℝ} (ha : |al| ≤ 1) (hb : |be| ≤ 1) (hab : al ^ 2 + be ^ 2 = 1) (hx : |dx| ≤ E) (hy : |dy| ≤ E) :
    X * al + Y * be + inc - 2 * E ≤ (X + al * inc + dx) * al + (Y + be * inc + dy) * be ∧
    (X + al * inc + dx) * al + (Y + be * inc + dy) * be ≤ X * al + Y * be + inc + 2 * E ∧
    |(X + al * inc + dx) * be - (Y + be * inc + dy) * al| ≤ |X * be - Y * al| + 2 * E := by
  have hE0 : 0 ≤ E := le_trans (abs_nonneg _) hx
  have p : ∀ a b : ℝ, |a| ≤ E → |b| ≤ 1 → |a * b| ≤ E := by
    intro a b h1 h2
    rw [abs_mul]
    have := mul_le_mul h1 h2 (abs_nonneg _) hE0
    linarith
  obtain ⟨a1, a2⟩ := abs_le.1 (p dx al hx ha)
  obtain ⟨b1, b2⟩ := abs_le.1 (p dy be hy hb)
  have e : (X + al * inc + dx) * al + (Y + be * inc + dy) * be = X * al + Y * be + inc + (dx * al + dy * be) := by
    linear_combination inc * hab
  have e' : (X + al * inc + dx) * be - (Y + be * inc + dy) * al = (X * be - Y * al) + (dx * be - dy * al) := by ring
  rw [e, e']
  refine ⟨by linarith, by linarith, le_trans (abs_add_le _ _) (add_le_add le_rfl (le_trans (abs_sub _ _) ?_))⟩
  have := p dx be hx hb
  have := p dy al hy ha
  linarith

theorem plane_le {X Y al be D : ℝ} (hab : al ^ 2 + be ^ 2 = 1) (hD0 : 0 ≤ D) (hD : X ^ 2 + Y ^ 2 = D ^ 2) :
    X * al + Y * be ≤ D ∧ |X| ≤ D ∧ |Y| ≤ D := by
  refine ⟨le_trans (le_abs_self _) (abs_le_of_sq_le_sq ?_ hD0), abs_le_of_sq_le_sq ?_ hD0, abs_le_of_sq_le_sq ?_ hD0⟩
  · have : (X * al + Y * be) ^ 2 + (X * be - Y * al) ^ 2 = D ^ 2 := by linear_combination D ^ 2 * hab + (al ^ 2 + be ^ 2) * hD
    linarith [sq_nonneg (X * be - Y * al)]
  · linarith [sq_nonneg Y]
  · linarith [sq_nonneg X]

/-- The directions and the size of the quantities in one pass. -/
theorem one_pass (h : Sane R c S) (hl : 0 < ScanPath.distance c.finish c.start) (s : LoopState) (hz : s.center.z = c.start.z)
    (hs : ¬ c.stops R s) :
    ∃ al be dx dy : ℝ, al = (c.finish.x - c.start.x) / ScanPath.distance c.finish c.start ∧
      be = (c.finish.y - c.start.y) / ScanPath.distance c.finish c.start ∧ |al| ≤ 1 ∧ |be| ≤ 1 ∧ al ^ 2 + be ^ 2 = 1 ∧
      |dx| ≤ 15 * R.u * (S + ScanPath.distance c.finish c.start) ∧ |dy| ≤ 15 * R.u * (S + ScanPath.distance c.finish c.start) ∧
      (c.next R s).center.x - c.start.x = (s.center.x - c.start.x) + al * c.inc R s + dx ∧
      (c.next R s).center.y - c.start.y = (s.center.y - c.start.y) + be * c.inc R s + dy ∧
      (s.center.x - c.start.x) * al + (s.center.y - c.start.y) * be ≤ c.dist R s + 5 * R.u * ScanPath.distance c.finish c.start ∧
      min c.length c.eps - 4 * R.u * ScanPath.distance c.finish c.start ≤ c.inc R s ∧
      c.dist R s + c.inc R s ≤ ScanPath.distance c.finish c.start + 8 * R.u * ScanPath.distance c.finish c.start := by
  have hu := h.precise
  have hu0 := u_nonneg R
  have hS : 0 ≤ S := le_trans (abs_nonneg _) h.x
  obtain ⟨hdl, hi0, hil, hilow, hsum⟩ := not_stopped h s hs
  obtain ⟨l1, l2⟩ := distR_lin hu c.finish c.start
  change _ ≤ c.len R at l1
  change c.len R ≤ _ at l2
  have hlsq := dist_flat c.finish c.start h.flat
  generalize ScanPath.distance c.finish c.start = l at *
  have hul : 0 ≤ R.u * l := mul_nonneg hu0 hl.le
  have hul' : R.u * l ≤ 1 / 64 * l := mul_le_mul_of_nonneg_right hu hl.le
  have hlen : 0 < c.len R := by linarith
  have hulen : R.u * c.len R ≤ 70 / 64 * (R.u * l) := by
    have := mul_le_mul_of_nonneg_left (show c.len R ≤ 70 / 64 * l by linarith) hu0
    linarith
  obtain ⟨d1, -⟩ := distR_lin hu s.center c.start
  change _ ≤ c.dist R s at d1
  have hD0 : 0 ≤ ScanPath.distance s.center c.start := Real.sqrt_nonneg _
  have hDsq := dist_flat s.center c.start hz
  generalize ScanPath.distance s.center c.start = D at *
  have huD : R.u * D ≤ 1 / 64 * D := mul_le_mul_of_nonneg_right hu hD0
  have hDl : D ≤ 7 / 6 * l := by linarith
  have huD' : R.u * D ≤ 7 / 6 * (R.u * l) := by
    have := mul_le_mul_of_nonneg_left hDl hu0
    linarith
  obtain ⟨ha, hb, hab⟩ := unit_parts hl hlsq
  obtain ⟨k1, hk1, hc1⟩ := dir_err (R := R) hu (a := c.finish.x - c.start.x) hl l1 l2
  obtain ⟨k2, hk2, hc2⟩ := dir_err (R := R) hu (a := c.finish.y - c.start.y) hl l1 l2
  have hcos : c.cos R = (c.finish.x - c.start.x) / l * (1 + k1) := by
    unfold TrackR.cos; rw [if_pos hlen.ne', hc1]
  have hsin : c.sin R = (c.finish.y - c.start.y) / l * (1 + k2) := by
    unfold TrackR.sin; rw [if_pos hlen.ne', hc2]
  obtain ⟨hPD, hX, hY⟩ := plane_le hab hD0 hDsq
  have hx : |s.center.x| ≤ S + D := by
    have : s.center.x = c.start.x + (s.center.x - c.start.x) := by ring
    rw [this]
    exact le_trans (abs_add_le _ _) (add_le_add h.x hX)
  have hy : |s.center.y| ≤ S + D := by
    have : s.center.y = c.start.y + (s.center.y - c.start.y) := by ring
    rw [this]
    exact le_trans (abs_add_le _ _) (add_le_add h.y hY)
  have ex := step_err hu ha hk1 hi0 hx
  have ey := step_err hu hb hk2 hi0 hy
  rw [← hcos] at ex
  rw [← hsin] at ey
  have hE : R.u * (S + D) + 12 * R.u * c.inc R s ≤ 15 * R.u * (S + l) := by
    have h1 := mul_le_mul_of_nonneg_left (show c.inc R s ≤ 70 / 64 * l by linarith) hu0
    have h2 := mul_nonneg hu0 hS
    linarith
  refine ⟨_, _, _, _, rfl, rfl, ha, hb, hab, le_trans ex hE, le_trans ey hE, ?_, ?_, ?_, ?_, ?_⟩
  · change R.rd _ - _ = _; ring
  · change R.rd _ - _ = _; ring
  · linarith
  · linarith
  · linarith

/-- What one pass does to the centre. -/
theorem one_step (h : Sane R c S) (hl : 0 < ScanPath.distance c.finish c.start) (s : LoopState) (hz : s.center.z = c.start.z)
    (hs : ¬ c.stops R s) :
    (c.next R s).center.z = c.start.z ∧
    along c s.center + min c.length c.eps / 2 ≤ along c (c.next R s).center ∧
    along c (c.next R s).center ≤ ScanPath.distance c.finish c.start + min c.length c.eps ∧
    beside c (c.next R s).center ≤ beside c s.center + 30 * R.u * (S + ScanPath.distance c.finish c.start) := by
  obtain ⟨al, be, dx, dy, hal, hbe, ha, hb, hab, hdx, hdy, hsx, hsy, hP, hlow, hsum⟩ := one_pass h hl s hz hs
  have hu0 := u_nonneg R
  have hS : 0 ≤ S := le_trans (abs_nonneg _) h.x
  have hm := h.notLost
  have halong : ∀ q : Pt3 ℝ, along c q = (q.x - c.start.x) * al + (q.y - c.start.y) * be := by
    intro q; rw [hal, hbe]; unfold along; ring
  have hbeside : ∀ q : Pt3 ℝ, beside c q = |(q.x - c.start.x) * be - (q.y - c.start.y) * al| := by
    intro q
    have : (q.x - c.start.x) * be - (q.y - c.start.y) * al = ((q.x - c.start.x) * (c.finish.y - c.start.y) -
        (q.y - c.start.y) * (c.finish.x - c.start.x)) / ScanPath.distance c.finish c.start := by
      rw [hal, hbe]; ring
    rw [this, abs_div, abs_of_pos hl]
    rfl
  generalize ScanPath.distance c.finish c.start = l at *
  have huS : 0 ≤ R.u * S := mul_nonneg hu0 hS
  have hul : 0 ≤ R.u * l := mul_nonneg hu0 hl.le
  obtain ⟨q1, q2, q3⟩ := plane_step (X := s.center.x - c.start.x) (Y := s.center.y - c.start.y) (inc := c.inc R s) ha hb hab hdx hdy
  rw [← hsx, ← hsy] at q1 q2 q3
  rw [halong, halong, hbeside, hbeside]
  refine ⟨hz, ?_, ?_, ?_⟩ <;> linarith

end

/-! ## Theorems -/

section
variable {R : Rounding ℝ} {c : TrackR} {S : ℝ}

theorem along_start : along c c.start = 0 := by simp [along]

theorem beside_start : beside c c.start = 0 := by simp [beside]

theorem track_states (h : Sane R c S) (hl : 0 < ScanPath.distance c.finish c.start) (n : ℕ)
    (hn : ∀ k < n, ¬ c.stops R (c.state R k)) :
    (c.state R n).center.z = c.start.z ∧ n * (min c.length c.eps / 2) ≤ along c (c.state R n).center ∧
    along c (c.state R n).center ≤ ScanPath.distance c.finish c.start + min c.length c.eps ∧
    beside c (c.state R n).center ≤ n * (30 * R.u * (S + ScanPath.distance c.finish c.start)) := by
  have hm : 0 < min c.length c.eps := lt_min h.length h.eps
  induction n with
  | zero =>
    refine ⟨rfl, ?_, ?_, ?_⟩
    · change _ ≤ along c c.start
      rw [along_start]; simp
    · change along c c.start ≤ _
      rw [along_start]; linarith
    · change beside c c.start ≤ _
      rw [beside_start]; simp
  | succ n ih =>
    obtain ⟨i1, i2, i3, i4⟩ := ih fun k hk => hn k (by omega)
    obtain ⟨s1, s2, s3, s4⟩ := one_step h hl (c.state R n) i1 (hn n (by omega))
    refine ⟨s1, ?_, s3, ?_⟩
    · change _ ≤ along c (c.next R (c.state R n)).center
      push_cast
      linarith
    · change beside c (c.next R (c.state R n)).center ≤ _
      push_cast
      linarith

/-- **C133**, termination: in floating-point arithmetic the loop over the boxes of a horizontal segment ends, after at most
`4 length / min(deposition length, eps) + 1` passes, unless the deposition length or `eps` is lost in the rounding of the coordinates. -/
theorem C133_terminates (h : Sane R c S) :
    ∃ n : ℕ, c.stops R (c.state R n) ∧ (∀ k < n, ¬ c.stops R (c.state R k)) ∧
      (n : ℝ) ≤ 4 * ScanPath.distance c.finish c.start / min c.length c.eps + 1 := by
  have hm : 0 < min c.length c.eps := lt_min h.length h.eps
  have hu := h.precise
  have hu0 := u_nonneg R
  by_cases hl : ScanPath.distance c.finish c.start = 0
  · refine ⟨0, ?_, by simp, by rw [hl]; simp⟩
    have h1 := distR_lin hu c.finish c.start
    rw [hl, mul_zero, mul_zero] at h1
    have hlen : c.len R = 0 := le_antisymm h1.2 h1.1
    unfold TrackR.stops
    rw [hlen]
    exact rd_gt0 R (add_pos_of_nonneg_of_pos (TrackR.dist_nonneg _) h.eps)
  · have hl' : 0 < ScanPath.distance c.finish c.start := lt_of_le_of_ne (Real.sqrt_nonneg _) (Ne.symm hl)
    have bound : ∀ n : ℕ, (∀ k ≤ n, ¬ c.stops R (c.state R k)) →
        (n : ℝ) ≤ 4 * ScanPath.distance c.finish c.start / min c.length c.eps := by
      intro n hn
      obtain ⟨i1, i2, -, -⟩ := track_states h hl' n fun k hk => hn k hk.le
      obtain ⟨al, be, dx, dy, hal, hbe, -, -, -, -, -, -, -, hP, -, -⟩ := one_pass h hl' (c.state R n) i1 (hn n le_rfl)
      have hd := (not_stopped h (c.state R n) (hn n le_rfl)).1
      have hlen := (distR_lin hu c.finish c.start).2
      change c.len R ≤ _ at hlen
      have hal' : along c (c.state R n).center = ((c.state R n).center.x - c.start.x) * al + ((c.state R n).center.y - c.start.y) * be := by
        rw [hal, hbe]; unfold along; ring
      rw [le_div_iff₀ hm]
      have := mul_le_mul_of_nonneg_right hu hl'.le
      linarith
    by_contra hcon
    push Not at hcon
    by_cases hall : ∀ n, ¬ c.stops R (c.state R n)
    · obtain ⟨N, hN⟩ := exists_nat_gt (4 * ScanPath.distance c.finish c.start / min c.length c.eps)
      exact absurd (bound N fun k _ => hall k) (not_le.2 hN)
    · push Not at hall
      classical
      have hs := Nat.find_spec hall
      have hmin : ∀ k < Nat.find hall, ¬ c.stops R (c.state R k) := fun k hk => Nat.find_min hall hk
      have := hcon _ hs hmin
      cases hN : Nat.find hall with
      | zero =>
        rw [hN] at this
        have : 0 ≤ 4 * ScanPath.distance c.finish c.start / min c.length c.eps := by positivity
        push_cast at *
        linarith
      | succ N =>
        rw [hN] at this
        have := bound N fun k hk => hmin k (by omega)
        push_cast at *
        linarith

/-- **C133**, the boxes follow the segment: as long as the loop runs, the centres keep the height of the segment exactly, each lies at
least half a `min(deposition length, eps)` further along the segment than the one before, none lies beyond the end by more than that
minimum (at most `eps`), and the `n`-th is at most `30 n` rounding errors beside the line. -/
theorem C133_track (h : Sane R c S) (hl : 0 < ScanPath.distance c.finish c.start) (n : ℕ) (hn : ∀ k < n, ¬ c.stops R (c.state R k)) :
    (c.state R n).center.z = c.start.z ∧
    (∀ k < n, along c (c.state R k).center + min c.length c.eps / 2 ≤ along c (c.state R n).center) ∧
    0 ≤ along c (c.state R n).center ∧ along c (c.state R n).center ≤ ScanPath.distance c.finish c.start + min c.length c.eps ∧
    beside c (c.state R n).center ≤ n * (30 * R.u * (S + ScanPath.distance c.finish c.start)) := by
  have hm : 0 < min c.length c.eps := lt_min h.length h.eps
  obtain ⟨i1, i2, i3, i4⟩ := track_states h hl n hn
  refine ⟨i1, ?_, le_trans (by positivity) i2, i3, i4⟩
  clear i1 i2 i3 i4
  induction n with
  | zero => intro k hk; omega
  | succ n ih =>
    intro k hk
    obtain ⟨i1, -⟩ := track_states h hl n fun k hk => hn k (by omega)
    obtain ⟨-, s2, -⟩ := one_step h hl (c.state R n) i1 (hn n (by omega))
    change _ ≤ along c (c.next R (c.state R n)).center
    rcases Nat.lt_or_ge k n with h1 | h1
    · have := ih (fun k hk => hn k (by omega)) k h1
      linarith
    · have : k = n := by omega
      rw [this]; exact s2

/-- **C133**, the end is reached: the last box is centred at most `2 eps` before the end of the segment. -/
theorem C133_reach (h : Sane R c S) (n : ℕ) (hn : c.stops R (c.state R n)) :
    ScanPath.distance c.finish c.start - 2 * c.eps ≤ ScanPath.distance (c.state R n).center c.start := by
  have hu := h.precise
  have hu0 := u_nonneg R
  have hS : 0 ≤ S := le_trans (abs_nonneg _) h.x
  obtain ⟨l1, -⟩ := distR_lin hu c.finish c.start
  obtain ⟨-, d2⟩ := distR_lin hu (c.state R n).center c.start
  change _ ≤ c.len R at l1
  change c.dist R (c.state R n) ≤ _ at d2
  have hs : c.len R < R.rd (c.dist R (c.state R n) + c.eps) := hn
  have hd0 := TrackR.dist_nonneg (R := R) (c := c) (c.state R n)
  have he := h.eps
  have hb := (rd_between R (show 0 ≤ c.dist R (c.state R n) + c.eps by linarith)).2
  have hm := le_trans h.notLost (min_le_right _ _)
  have hl0 : 0 ≤ ScanPath.distance c.finish c.start := Real.sqrt_nonneg _
  have hD0 : 0 ≤ ScanPath.distance (c.state R n).center c.start := Real.sqrt_nonneg _
  generalize ScanPath.distance c.finish c.start = l at *
  generalize ScanPath.distance (c.state R n).center c.start = D at *
  generalize c.dist R (c.state R n) = d at *
  by_contra hcon
  push Not at hcon
  have hD : D ≤ l := by linarith
  have huD := mul_le_mul_of_nonneg_left hD hu0
  have huS := mul_nonneg hu0 hS
  have hul := mul_nonneg hu0 hl0
  have hdl : d ≤ 2 * l := by
    have := mul_le_mul_of_nonneg_right hu hD0
    linarith
  have hud := mul_le_mul_of_nonneg_left hdl hu0
  have hue := mul_le_mul_of_nonneg_right hu he.le
  linarith

/-- **C133**, boxes: every box contains its centre, its top is at the height of the segment and its corners are in order. -/
theorem C133_boxes (h : Sane R c S) (hx : R.rd c.start.x = c.start.x) (hy : R.rd c.start.y = c.start.y) (hz : R.rd c.start.z = c.start.z)
    (hw : 0 ≤ c.width) (hh : 0 ≤ c.height) (n : ℕ) (hn : ∀ k < n, ¬ c.stops R (c.state R k)) :
    let b := c.box R (c.state R n)
    let m := (c.state R n).center
    b.lo 0 ≤ m.x ∧ m.x ≤ b.hi 0 ∧ b.lo 1 ≤ m.y ∧ m.y ≤ b.hi 1 ∧ b.lo 2 ≤ m.z ∧ b.hi 2 = c.start.z := by
  have inv : ∀ k ≤ n, 0 ≤ (c.state R k).nbl ∧ R.rd (c.state R k).center.x = (c.state R k).center.x ∧
      R.rd (c.state R k).center.y = (c.state R k).center.y ∧ (c.state R k).center.z = c.start.z := by
    intro k
    induction k with
    | zero => exact fun _ => ⟨h.length.le, hx, hy, rfl⟩
    | succ k ih =>
      intro hk
      obtain ⟨i1, -, -, i4⟩ := ih (by omega)
      have hd := (not_stopped h (c.state R k) (hn k (by omega))).1
      refine ⟨?_, R.idem _, R.idem _, i4⟩
      change 0 ≤ (c.next R (c.state R k)).nbl
      unfold TrackR.next
      simp only
      by_cases hc : R.rd (c.dist R (c.state R k) + c.length) > c.len R
      · rw [if_pos hc]; exact rd_ge0 R (by linarith)
      · rw [if_neg hc]; exact i1
  obtain ⟨i1, i2, i3, i4⟩ := inv n le_rfl
  intro b m
  have half : ∀ x : ℝ, 0 ≤ x → 0 ≤ R.rd (0.5 * x) := fun x hx => rd_ge0 R (by positivity)
  have hxl : 0 ≤ R.rd (R.rd (|c.cos R| * (c.state R n).nbl) + R.rd (|c.sin R| * c.width)) :=
    rd_ge0 R (add_nonneg (rd_ge0 R (mul_nonneg (abs_nonneg _) i1)) (rd_ge0 R (mul_nonneg (abs_nonneg _) hw)))
  have hyl : 0 ≤ R.rd (R.rd (|c.cos R| * c.width) + R.rd (|c.sin R| * (c.state R n).nbl)) :=
    rd_ge0 R (add_nonneg (rd_ge0 R (mul_nonneg (abs_nonneg _) hw)) (rd_ge0 R (mul_nonneg (abs_nonneg _) i1)))
  refine ⟨rd_le' R i2 (by linarith [half _ hxl]), le_rd' R i2 (by linarith [half _ hxl]), rd_le' R i3 (by linarith [half _ hyl]),
    le_rd' R i3 (by linarith [half _ hyl]), rd_le' R (by rw [i4]; exact hz) (by linarith), i4⟩

theorem half_err (hu : R.u ≤ 1 / 64) {al be k1 k2 p q x : ℝ} (ha : |al| ≤ 1) (hb : |be| ≤ 1) (h1 : |k1| ≤ 8 * R.u) (h2 : |k2| ≤ 8 * R.u)
    (hp : 0 ≤ p) (hq : 0 ≤ q) :
    let e := R.rd (0.5 * R.rd (R.rd (|al * (1 + k1)| * p) + R.rd (|be * (1 + k2)| * q)))
    |R.rd (x + e) - (x + (|al| * p + |be| * q) / 2)| ≤ R.u * |x| + 8 * R.u * (p + q) ∧
    |R.rd (x - e) - (x - (|al| * p + |be| * q) / 2)| ≤ R.u * |x| + 8 * R.u * (p + q) := by
  intro e
  have hee : e = R.rd (0.5 * R.rd (R.rd (|al * (1 + k1)| * p) + R.rd (|be * (1 + k2)| * q))) := rfl
  clear_value e
  have hu0 := u_nonneg R
  have term : ∀ {a k y : ℝ}, |a| ≤ 1 → |k| ≤ 8 * R.u → 0 ≤ y → |R.rd (|a * (1 + k)| * y) - |a| * y| ≤ 10 * R.u * y := by
    intro a k y h1 h2 hy
    obtain ⟨e, he, hr⟩ := rd_rel (R := R) (|a * (1 + k)| * y)
    obtain ⟨g1, g2⟩ := abs_le.1 h2
    have hN : |(1 + k) * (1 + e) - 1| ≤ 8 * R.u * (17 / 16) + R.u :=
      factor_step hu0 (by linarith) he (by rwa [add_sub_cancel_left])
    have : R.rd (|a * (1 + k)| * y) - |a| * y = |a| * y * ((1 + k) * (1 + e) - 1) := by
      rw [hr, abs_mul, abs_of_nonneg (show 0 ≤ 1 + k by linarith)]; ring
    rw [this, abs_mul, abs_mul, abs_abs, abs_of_nonneg hy]
    have h3 := mul_le_mul_of_nonneg_right h1 hy
    have h4 := mul_le_mul h3 hN (abs_nonneg _) (by linarith)
    have := mul_nonneg hu0 hy
    linarith
  have t1 := term ha h1 hp
  have t2 := term hb h2 hq
  have g0 : 0 ≤ |al| * p + |be| * q := by positivity
  have g1 : |al| * p + |be| * q ≤ p + q := by
    have := mul_le_mul_of_nonneg_right ha hp
    have := mul_le_mul_of_nonneg_right hb hq
    linarith
  generalize R.rd (|al * (1 + k1)| * p) = A at *
  generalize R.rd (|be * (1 + k2)| * q) = B at *
  generalize |al| * p = a at *
  generalize |be| * q = b at *
  have huP := mul_nonneg hu0 (add_nonneg hp hq)
  have huP' := mul_le_mul_of_nonneg_right hu (add_nonneg hp hq)
  generalize hP : p + q = P at *
  have hsum : |A + B - (a + b)| ≤ 10 * (R.u * P) := by
    have : A + B - (a + b) = (A - a) + (B - b) := by ring
    rw [this]
    refine le_trans (abs_add_le _ _) (le_trans (add_le_add t1 t2) ?_)
    rw [← hP]; linarith
  obtain ⟨s1, s2⟩ := abs_le.1 hsum
  have r1 := R.rel (A + B)
  have hAB : |A + B| ≤ 3 / 2 * P := by rw [abs_le]; constructor <;> linarith
  have r1' : |R.rd (A + B) - (A + B)| ≤ 3 / 2 * (R.u * P) := by
    have := mul_le_mul_of_nonneg_left hAB hu0
    linarith
  obtain ⟨q1, q2⟩ := abs_le.1 r1'
  have r2 := R.rel (0.5 * R.rd (A + B))
  have hH : |0.5 * R.rd (A + B)| ≤ P := by rw [abs_le]; constructor <;> linarith
  have r2' : |e - 0.5 * R.rd (A + B)| ≤ R.u * P := by
    rw [hee]
    exact le_trans r2 (mul_le_mul_of_nonneg_left hH hu0)
  obtain ⟨w1, w2⟩ := abs_le.1 r2'
  have he : |e - (a + b) / 2| ≤ 27 / 4 * (R.u * P) := by rw [abs_le]; constructor <;> linarith
  obtain ⟨v1, v2⟩ := abs_le.1 he
  have hE : |e| ≤ 5 / 4 * P := by rw [abs_le]; constructor <;> linarith
  have fin : ∀ y g : ℝ, |y| ≤ |x| + 5 / 4 * P → |y - g| ≤ 27 / 4 * (R.u * P) → |R.rd y - g| ≤ R.u * |x| + 8 * R.u * P := by
    intro y g hy hg
    have h3 := R.rel y
    have h4 := mul_le_mul_of_nonneg_left hy hu0
    have : R.rd y - g = (R.rd y - y) + (y - g) := by ring
    rw [this]
    refine le_trans (abs_add_le _ _) (le_trans (add_le_add h3 hg) ?_)
    linarith
  refine ⟨fin _ _ (le_trans (abs_add_le _ _) (add_le_add le_rfl hE)) ?_, fin _ _ (le_trans (abs_sub _ _) (add_le_add le_rfl hE)) ?_⟩
  · rwa [show x + e - (x + (a + b) / 2) = e - (a + b) / 2 by ring]
  · rwa [show x - e - (x - (a + b) / 2) = -(e - (a + b) / 2) by ring, abs_neg]

/-- **C133**, size of the boxes: a box extends from its centre by half of its length along the segment and half of the width across it, up
to 8 rounding errors of length and width and one of the coordinate, and by the height downwards. -/
theorem C133_box_size (h : Sane R c S) (hl : 0 < ScanPath.distance c.finish c.start) (hw : 0 ≤ c.width) (s : LoopState) (hs : 0 ≤ s.nbl) :
    let ax := |c.finish.x - c.start.x| / ScanPath.distance c.finish c.start
    let ay := |c.finish.y - c.start.y| / ScanPath.distance c.finish c.start
    let b := c.box R s
    |b.hi 0 - (s.center.x + (ax * s.nbl + ay * c.width) / 2)| ≤ R.u * |s.center.x| + 8 * R.u * (s.nbl + c.width) ∧
    |b.lo 0 - (s.center.x - (ax * s.nbl + ay * c.width) / 2)| ≤ R.u * |s.center.x| + 8 * R.u * (s.nbl + c.width) ∧
    |b.hi 1 - (s.center.y + (ax * c.width + ay * s.nbl) / 2)| ≤ R.u * |s.center.y| + 8 * R.u * (s.nbl + c.width) ∧
    |b.lo 1 - (s.center.y - (ax * c.width + ay * s.nbl) / 2)| ≤ R.u * |s.center.y| + 8 * R.u * (s.nbl + c.width) ∧
    b.hi 2 = s.center.z ∧ |b.lo 2 - (s.center.z - c.height)| ≤ R.u * |s.center.z - c.height| := by
  intro ax ay b
  have hu := h.precise
  have hu0 := u_nonneg R
  obtain ⟨l1, l2⟩ := distR_lin hu c.finish c.start
  change _ ≤ c.len R at l1
  change c.len R ≤ _ at l2
  have hlsq := dist_flat c.finish c.start h.flat
  obtain ⟨ha, hb, -⟩ := unit_parts hl hlsq
  have hlen : 0 < c.len R := by
    have := mul_le_mul_of_nonneg_right hu hl.le
    linarith
  obtain ⟨k1, hk1, hc1⟩ := dir_err (R := R) hu (a := c.finish.x - c.start.x) hl l1 l2
  obtain ⟨k2, hk2, hc2⟩ := dir_err (R := R) hu (a := c.finish.y - c.start.y) hl l1 l2
  have hcos : c.cos R = (c.finish.x - c.start.x) / ScanPath.distance c.finish c.start * (1 + k1) := by
    unfold TrackR.cos; rw [if_pos hlen.ne', hc1]
  have hsin : c.sin R = (c.finish.y - c.start.y) / ScanPath.distance c.finish c.start * (1 + k2) := by
    unfold TrackR.sin; rw [if_pos hlen.ne', hc2]
  have hax : ax = |(c.finish.x - c.start.x) / ScanPath.distance c.finish c.start| := by rw [abs_div, abs_of_pos hl]
  have hay : ay = |(c.finish.y - c.start.y) / ScanPath.distance c.finish c.start| := by rw [abs_div, abs_of_pos hl]
  have hx := half_err hu (x := s.center.x) ha hb hk1 hk2 hs hw
  have hy := half_err hu (x := s.center.y) ha hb hk1 hk2 hw hs
  rw [← hcos, ← hsin, ← hax, ← hay] at hx hy
  rw [add_comm c.width s.nbl] at hy
  exact ⟨hx.1, hx.2, hy.1, hy.2, rfl, R.rel _⟩

/-- **C133**, times: the time of a box does not decrease with the distance of its centre, and differs from that of exact arithmetic by at
most 14 rounding errors. -/
theorem C133_times (hu : R.u ≤ 1 / 64) (hl : 0 < c.len R) (ht : c.t0 < c.t1) (d : ℝ) (h0 : 0 ≤ d) (h2 : d ≤ 2 * c.len R) :
    (∀ d', d ≤ d' → c.time R d ≤ c.time R d') ∧
    |c.time R d - max (c.t0 + d / c.len R * (c.t1 - c.t0) - c.lead) c.eps| ≤ 14 * R.u * (|c.t0| + (c.t1 - c.t0) + |c.lead|) := by
  have hu0 := u_nonneg R
  have hw : 0 < c.t1 - c.t0 := by linarith
  have hv : 0 < R.rd (c.len R / R.rd (c.t1 - c.t0)) := rd_gt0 R (div_pos hl (rd_gt0 R hw))
  have htime : ∀ d, c.time R d = max (R.rd (R.rd (c.t0 + R.rd (d / R.rd (c.len R / R.rd (c.t1 - c.t0)))) - c.lead)) c.eps := by
    intro d
    unfold TrackR.time
    simp only [if_pos hv.ne']
  constructor
  · intro d' hd
    rw [htime, htime]
    exact max_le_max (R.mono (sub_le_sub_right (R.mono (add_le_add le_rfl (R.mono (div_le_div_of_nonneg_right hd hv.le)))) _)) le_rfl
  · rw [htime]
    obtain ⟨e1, b1, r1⟩ := rd_rel (R := R) (c.t1 - c.t0)
    obtain ⟨e2, b2, r2⟩ := rd_rel (R := R) (c.len R / R.rd (c.t1 - c.t0))
    obtain ⟨e3, b3, r3⟩ := rd_rel (R := R) (d / R.rd (c.len R / R.rd (c.t1 - c.t0)))
    set q := R.rd (d / R.rd (c.len R / R.rd (c.t1 - c.t0))) with hq
    set w := c.t1 - c.t0 with hwd
    set l := c.len R with hld
    obtain ⟨a2, a2'⟩ := abs_le.1 b2
    obtain ⟨a1, a1'⟩ := abs_le.1 b1
    have p2 : 0 < 1 + e2 := by linarith
    have p1 : 0 < 1 + e1 := by linarith
    have hqe : q = d / l * w * ((1 + e1) * (1 + e3) / (1 + e2)) := by
      rw [r3, r2, r1]
      field_simp
    have hN : |(1 + e1) * (1 + e3) - 1| ≤ R.u * (17 / 16) + R.u :=
      factor_step hu0 (by linarith) b3 (by rwa [add_sub_cancel_left])
    have hF : |(1 + e1) * (1 + e3) / (1 + e2) - 1| ≤ 4 * R.u := by
      have : (1 + e1) * (1 + e3) / (1 + e2) - 1 = ((1 + e1) * (1 + e3) - 1 - e2) / (1 + e2) := by field_simp; ring
      rw [this, abs_div, abs_of_pos p2, div_le_iff₀ p2]
      refine le_trans (abs_sub _ _) (le_trans (add_le_add hN b2) ?_)
      have := mul_le_mul_of_nonneg_left (show 15 / 16 ≤ 1 + e2 by linarith) (show 0 ≤ 4 * R.u by linarith)
      linarith
    have hf0 : 0 ≤ d / l := div_nonneg h0 hl.le
    have hf2 : d / l ≤ 2 := (div_le_iff₀ hl).2 h2
    have hx0 : 0 ≤ d / l * w := mul_nonneg hf0 hw.le
    have hx2 : d / l * w ≤ 2 * w := mul_le_mul_of_nonneg_right hf2 hw.le
    set x := d / l * w with hxd
    have h1 : |q - x| ≤ 8 * R.u * w := by
      have : q - x = x * ((1 + e1) * (1 + e3) / (1 + e2) - 1) := by rw [hqe]; ring
      rw [this, abs_mul, abs_of_nonneg hx0]
      have := mul_le_mul hx2 hF (abs_nonneg _) (by linarith)
      linarith
    have huw : R.u * w ≤ 1 / 64 * w := mul_le_mul_of_nonneg_right hu hw.le
    have huw0 : 0 ≤ R.u * w := mul_nonneg hu0 hw.le
    have hq3 : |q| ≤ 9 / 4 * w := by
      have : q = x + (q - x) := by ring
      rw [this]
      refine le_trans (abs_add_le _ _) ?_
      rw [abs_of_nonneg hx0]
      linarith
    have s1 := R.rel (c.t0 + q)
    have s1' : |c.t0 + q| ≤ |c.t0| + 9 / 4 * w := le_trans (abs_add_le _ _) (add_le_add le_rfl hq3)
    have ht0 : 0 ≤ R.u * |c.t0| := mul_nonneg hu0 (abs_nonneg _)
    have ht0' : R.u * |c.t0| ≤ 1 / 64 * |c.t0| := mul_le_mul_of_nonneg_right hu (abs_nonneg _)
    have hle : 0 ≤ R.u * |c.lead| := mul_nonneg hu0 (abs_nonneg _)
    have s2 : |R.rd (c.t0 + q) - (c.t0 + q)| ≤ R.u * |c.t0| + 9 / 4 * (R.u * w) := by
      have := mul_le_mul_of_nonneg_left s1' hu0
      linarith
    set y := R.rd (c.t0 + q) with hy
    have s3 : |y - c.lead| ≤ 65 / 64 * |c.t0| + 10 / 4 * w + |c.lead| := by
      have : y - c.lead = (y - (c.t0 + q)) + (c.t0 + q) - c.lead := by ring
      rw [this]
      refine le_trans (abs_sub _ _) (add_le_add (le_trans (abs_add_le _ _) ?_) le_rfl)
      linarith
    have s4 := R.rel (y - c.lead)
    have s5 : |R.rd (y - c.lead) - (y - c.lead)| ≤ 65 / 64 * (R.u * |c.t0|) + 10 / 4 * (R.u * w) + R.u * |c.lead| := by
      have := mul_le_mul_of_nonneg_left s3 hu0
      linarith
    refine le_trans (abs_max_sub_max_le_abs _ _ _) ?_
    have : R.rd (y - c.lead) - (c.t0 + x - c.lead) = (R.rd (y - c.lead) - (y - c.lead)) + (y - (c.t0 + q)) + (q - x) := by ring
    rw [this]
    refine le_trans (abs_add_le _ _) (le_trans (add_le_add (abs_add_le _ _) le_rfl) ?_)
    linarith

end

/-! ## Examples and refutation -/

/-- `double` on the real numbers. -/
noncomputable def doubleReal : Rounding ℝ := binary 53 (by norm_num)

/-- A bead of 20 cm with boxes of 1 mm meets the hypotheses. -/
noncomputable def bead : TrackR := ⟨⟨1, 1, 1⟩, ⟨1.2, 1, 1⟩, 0, 1, 1 / 1024, 1 / 1000, 1 / 1000, 0, 1e-10⟩

example : Sane doubleReal bead 1 := by
  have hd : ScanPath.distance bead.finish bead.start = 0.2 := by
    unfold ScanPath.distance bead
    rw [show ((1.2 - 1 : ℝ) ^ 2 + (1 - 1) ^ 2 + (1 - 1) ^ 2) = 0.2 ^ 2 by norm_num, Real.sqrt_sq (by norm_num)]
  refine ⟨rfl, by norm_num [bead], by norm_num [bead], by norm_num [bead], ?_, by norm_num [bead], by norm_num [doubleReal, binary], ?_⟩
  · exact round_fixed 53 (by norm_num) (1 / 1024 : ℝ) ⟨1, -10, by norm_num, by norm_num⟩
  · rw [hd]
    norm_num [bead, doubleReal, binary]

/-- A deposition length that is lost in the rounding of the coordinates. -/
noncomputable def lost : TrackR := ⟨⟨1, 0, 0⟩, ⟨2, 0, 0⟩, 0, 1, 1 / 2 ^ 54, 1, 1, 0, 1e-10⟩

/-- **C133** needs that the deposition length is not lost: in double arithmetic a segment from 1 m to 2 m with a deposition length of
`2^-54` m is never left; the loop adds the same box for ever. -/
theorem C133_lost_refuted (n : ℕ) : ¬ lost.stops doubleReal (lost.state doubleReal n) ∧ (lost.state doubleReal n).center = ⟨1, 0, 0⟩ := by
  have r1 : doubleReal.rd 1 = 1 := round_fixed 53 (by norm_num) (1 : ℝ) ⟨1, 0, by norm_num, by norm_num⟩
  have rL : doubleReal.rd (1 / 2 ^ 54) = 1 / 2 ^ 54 := round_fixed 53 (by norm_num) (1 / 2 ^ 54 : ℝ) ⟨1, -54, by norm_num, by norm_num⟩
  have rs : doubleReal.rd (1 + 1 / 2 ^ 54) = 1 := by
    change round 53 _ = _
    rw [round_eval 53 _ 0 (2 ^ 52) (by norm_num) (by norm_num) ?_]
    · norm_num
    · have hf : ⌊((1 : ℝ) + 1 / 2 ^ 54) / 2 ^ ((0 : ℤ) - (53 : ℕ) + 1)⌋ = 2 ^ 52 := by
        rw [Int.floor_eq_iff]
        norm_num
      unfold nearestEven
      rw [hf]
      norm_num
  have hself : ∀ p : Pt3 ℝ, distR doubleReal p p = 0 := by
    intro p
    unfold distR
    simp only [sub_self, rd0 doubleReal, mul_zero, add_zero, Real.sqrt_zero]
  have hlen : lost.len doubleReal = 1 := by
    unfold TrackR.len distR lost
    simp only [sub_self, rd0 doubleReal, mul_zero, add_zero]
    rw [show (2 : ℝ) - 1 = 1 by norm_num, r1, mul_one, r1, r1, r1, Real.sqrt_one, r1]
  have hc : (lost.state doubleReal n).center = ⟨1, 0, 0⟩ := by
    induction n with
    | zero => rfl
    | succ n ih =>
      have hd : lost.dist doubleReal (lost.state doubleReal n) = 0 := by
        unfold TrackR.dist; rw [ih]; exact hself _
      have hinc : lost.inc doubleReal (lost.state doubleReal n) = 1 / 2 ^ 54 := by
        unfold TrackR.inc
        rw [hd, hlen, if_neg]
        · rfl
        · rw [zero_add]
          change ¬ doubleReal.rd (1 / 2 ^ 54) > 1
          rw [rL]; norm_num
      have hcos : lost.cos doubleReal = 1 := by
        unfold TrackR.cos
        rw [hlen, if_pos one_ne_zero, div_one, doubleReal.idem]
        change doubleReal.rd (2 - 1) = 1
        rw [show (2 : ℝ) - 1 = 1 by norm_num, r1]
      have hsin : lost.sin doubleReal = 0 := by
        unfold TrackR.sin
        rw [hlen, if_pos one_ne_zero, div_one, doubleReal.idem]
        change doubleReal.rd (0 - 0) = 0
        rw [sub_self, rd0]
      change (lost.next doubleReal (lost.state doubleReal n)).center = _
      unfold TrackR.next
      simp only [ih, hinc, hcos, hsin, one_mul, zero_mul, rL, rs, rd0, add_zero]
  refine ⟨?_, hc⟩
  unfold TrackR.stops
  have hd : lost.dist doubleReal (lost.state doubleReal n) = 0 := by
    unfold TrackR.dist; rw [hc]; exact hself _
  rw [hd, hlen, zero_add, not_lt]
  exact rd_le' doubleReal r1 (by norm_num [lost])

end Verif.Float
