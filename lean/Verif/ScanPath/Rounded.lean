import Verif.ScanPath.QueryProps

/-!
# C134: orientations written with finitely many digits

The quaternions of a scan path file have finitely many digits, so their norm is only nearly one (the test data has
`0.70710678118, 0.0, 0.70710678118, 0.0`); the constructor checks the norm up to `1e-10`, and only in a debug build
(`source/Quaternion.cc:40`).  Nothing is normalised afterwards (`:137-167` builds the rotation matrices for a unit quaternion).
-/

namespace Verif.ScanPath

open Verif.Quat

/-! ## Specification -/

/-- The length of a vector. -/
noncomputable def length3 (p : Pt3 ℝ) : ℝ := Real.sqrt (p.x ^ 2 + p.y ^ 2 + p.z ^ 2)

/-- The distance of two points. -/
noncomputable def distance3 (a b : Pt3 ℝ) : ℝ := Real.sqrt ((a.x - b.x) ^ 2 + (a.y - b.y) ^ 2 + (a.z - b.z) ^ 2)

/-- `q` is the unit quaternion `u` up to a positive factor whose square is within `δ` of one. -/
structure Writes (δ : ℝ) (q u : Q ℝ) : Prop where
  unit : u.r ^ 2 + u.i ^ 2 + u.j ^ 2 + u.k ^ 2 = 1
  factor : ∃ c : ℝ, 0 < c ∧ q = ⟨c * u.r, c * u.i, c * u.j, c * u.k⟩
  near : |q.r ^ 2 + q.i ^ 2 + q.j ^ 2 + q.k ^ 2 - 1| ≤ δ

/-- The segment `s` of the file is the segment `e` up to the digits of the rotation. -/
structure WritesSegment (δ : ℝ) (s e : Segment) : Prop where
  time : s.endTime = e.endTime
  power : s.power = e.power
  point : s.endPoint = e.endPoint
  rotation : ∃ q u, s.endRotation = some q ∧ e.endRotation = some u ∧ Writes δ q u

/-- Two consecutive rotations are either equal or not multiples of one another. -/
def Distinct (segs : List Segment) : Prop :=
  ∀ (i : ℕ) (a b : Segment) (q q' : Q ℝ), segs[i]? = some a → segs[i + 1]? = some b → a.endRotation = some q →
    b.endRotation = some q' → q = q' ∨ ∀ c : ℝ, q' ≠ ⟨c * q.r, c * q.i, c * q.j, c * q.k⟩

/-! ## Rotations by a quaternion whose norm is nearly one -/

/-- `a + s b` for vectors. -/
def comb (s : ℝ) (a : Pt3 ℝ) (t : ℝ) (b : Pt3 ℝ) : Pt3 ℝ := ⟨s * a.x + t * b.x, s * a.y + t * b.y, s * a.z + t * b.z⟩

theorem length3_eq (p : Pt3 ℝ) : length3 p = Real.sqrt (inner3 p p) := by
  rw [length3, inner3]; congr 1; ring

theorem distance_comb (a b c : Pt3 ℝ) (s : ℝ) (h : ∀ v : Pt3 ℝ, v = ⟨a.x - b.x, a.y - b.y, a.z - b.z⟩ →
    v = ⟨s * c.x, s * c.y, s * c.z⟩) : distance3 a b = |s| * length3 c := by
  have h' := h _ rfl
  injection h' with hx hy hz
  rw [distance3, hx, hy, hz, length3]
  rw [show (s * c.x) ^ 2 + (s * c.y) ^ 2 + (s * c.z) ^ 2 = s ^ 2 * (c.x ^ 2 + c.y ^ 2 + c.z ^ 2) by ring,
    Real.sqrt_mul (sq_nonneg s), Real.sqrt_sq_eq_abs]

/-- Twice the length bounds the difference of two vectors of the same length. -/
theorem length_sub_le (a b : Pt3 ℝ) (h : inner3 b b = inner3 a a) :
    length3 ⟨a.x - b.x, a.y - b.y, a.z - b.z⟩ ≤ 2 * length3 a := by
  rw [length3_eq a, show (2 : ℝ) * Real.sqrt (inner3 a a) = Real.sqrt (4 * inner3 a a) by
    rw [Real.sqrt_mul (by norm_num), show (4 : ℝ) = 2 ^ 2 by norm_num, Real.sqrt_sq (by norm_num)], length3]
  apply Real.sqrt_le_sqrt
  simp only [inner3] at *
  nlinarith [sq_nonneg (a.x + b.x), sq_nonneg (a.y + b.y), sq_nonneg (a.z + b.z)]

theorem rotate_scaled (c : ℝ) (u : Q ℝ) (p : Pt3 ℝ) :
    (⟨c * u.r, c * u.i, c * u.j, c * u.k⟩ : Q ℝ).rotate p = comb (1 - c ^ 2) p (c ^ 2) (u.rotate p) := by
  simp only [Q.rotate, Q.rotationMatrix, Mat3.apply, comb]
  ext <;> simp only <;> ring

theorem invRotate_eq (q : Q ℝ) (p : Pt3 ℝ) : q.invRotate p = (⟨q.r, -q.i, -q.j, -q.k⟩ : Q ℝ).rotate p := by
  simp only [Q.rotate, Q.invRotate, Q.rotationMatrix, Q.invRotationMatrix, Mat3.apply]
  ext <;> simp only <;> ring

theorem Writes.sq {δ : ℝ} {q u : Q ℝ} (h : Writes δ q u) :
    ∃ c : ℝ, 0 < c ∧ q = ⟨c * u.r, c * u.i, c * u.j, c * u.k⟩ ∧ |1 - c ^ 2| ≤ δ ∧ u.IsUnit := by
  obtain ⟨c, hc, rfl⟩ := h.factor
  refine ⟨c, hc, rfl, ?_, ?_⟩
  · have := h.near
    have e : (c * u.r) ^ 2 + (c * u.i) ^ 2 + (c * u.j) ^ 2 + (c * u.k) ^ 2 - 1 = -(1 - c ^ 2) := by
      linear_combination c ^ 2 * h.unit
    simp only [e, abs_neg] at this
    exact this
  · have := h.unit
    simp only [Q.IsUnit]
    linarith

theorem Writes.conj {δ : ℝ} {q u : Q ℝ} (h : Writes δ q u) :
    Writes δ ⟨q.r, -q.i, -q.j, -q.k⟩ ⟨u.r, -u.i, -u.j, -u.k⟩ := by
  obtain ⟨c, hc, e⟩ := h.factor
  refine ⟨by have := h.unit; simp only [neg_sq]; exact this, ⟨c, hc, ?_⟩, by have := h.near; simp only [neg_sq]; exact this⟩
  rw [e]
  ext <;> simp

theorem rotate_near {δ : ℝ} {q u : Q ℝ} (h : Writes δ q u) (p : Pt3 ℝ) :
    distance3 (q.rotate p) (u.rotate p) ≤ 2 * δ * length3 p := by
  obtain ⟨c, -, rfl, hn, hu⟩ := h.sq
  have hi := C01_rotate_preserves_inner u hu p p
  rw [rotate_scaled c u, distance_comb _ _ ⟨p.x - (u.rotate p).x, p.y - (u.rotate p).y, p.z - (u.rotate p).z⟩ (1 - c ^ 2)]
  · have h1 := length_sub_le p (u.rotate p) hi
    have h0 : 0 ≤ length3 p := Real.sqrt_nonneg _
    calc |1 - c ^ 2| * _ ≤ |1 - c ^ 2| * (2 * length3 p) := mul_le_mul_of_nonneg_left h1 (abs_nonneg _)
      _ ≤ δ * (2 * length3 p) := mul_le_mul_of_nonneg_right hn (by positivity)
      _ = 2 * δ * length3 p := by ring
  · intro v hv
    rw [hv]
    simp only [comb]
    ext <;> simp only <;> ring

/-- **C134**: rotating a point with a quaternion of the file instead of the exact one misses by at most `2 δ` times the distance of the
point from the origin, in both directions. -/
theorem C134_rotate {δ : ℝ} {q u : Q ℝ} (h : Writes δ q u) (p : Pt3 ℝ) :
    distance3 (q.rotate p) (u.rotate p) ≤ 2 * δ * length3 p ∧
      distance3 (q.invRotate p) (u.invRotate p) ≤ 2 * δ * length3 p := by
  refine ⟨rotate_near h p, ?_⟩
  rw [invRotate_eq, invRotate_eq]
  exact rotate_near h.conj p

theorem length_four {a b c : Pt3 ℝ} (hb : inner3 b b = inner3 a a) (hc : inner3 c c = inner3 a a) :
    length3 ⟨b.x + c.x - 2 * a.x, b.y + c.y - 2 * a.y, b.z + c.z - 2 * a.z⟩ ≤ 4 * length3 a := by
  rw [length3_eq a, show (4 : ℝ) * Real.sqrt (inner3 a a) = Real.sqrt (16 * inner3 a a) by
    rw [Real.sqrt_mul (by norm_num), show (16 : ℝ) = 4 ^ 2 by norm_num, Real.sqrt_sq (by norm_num)], length3]
  apply Real.sqrt_le_sqrt
  simp only [inner3] at *
  nlinarith [sq_nonneg (a.x + b.x), sq_nonneg (a.y + b.y), sq_nonneg (a.z + b.z), sq_nonneg (a.x + c.x),
    sq_nonneg (a.y + c.y), sq_nonneg (a.z + c.z), sq_nonneg (b.x - c.x), sq_nonneg (b.y - c.y), sq_nonneg (b.z - c.z)]

/-- **C134**: turning a point there and back again brings it back to within `4 δ (1 + δ)` times its distance from the origin. -/
theorem C134_round_trip {δ : ℝ} {q u : Q ℝ} (h : Writes δ q u) (p : Pt3 ℝ) :
    distance3 (q.invRotate (q.rotate p)) p ≤ 4 * δ * (1 + δ) * length3 p := by
  obtain ⟨c, -, rfl, hn, hu⟩ := h.sq
  have hu' : (⟨u.r, -u.i, -u.j, -u.k⟩ : Q ℝ).IsUnit := by
    simp only [Q.IsUnit] at *
    linarith
  have hi := C01_rotate_preserves_inner u hu p p
  have hj := C01_rotate_preserves_inner _ hu' p p
  have hb : (⟨u.r, -u.i, -u.j, -u.k⟩ : Q ℝ).rotate (u.rotate p) = p := by
    rw [← invRotate_eq]; exact C01_inv_rotate_rotate u hu p
  have hlin : ∀ a b : Pt3 ℝ, ∀ s t : ℝ, (⟨u.r, -u.i, -u.j, -u.k⟩ : Q ℝ).rotate (comb s a t b) =
      comb s ((⟨u.r, -u.i, -u.j, -u.k⟩ : Q ℝ).rotate a) t ((⟨u.r, -u.i, -u.j, -u.k⟩ : Q ℝ).rotate b) := by
    intro a b s t
    simp only [Q.rotate, Q.rotationMatrix, Mat3.apply, comb]
    ext <;> simp only <;> ring
  have e : (⟨c * u.r, -(c * u.i), -(c * u.j), -(c * u.k)⟩ : Q ℝ) = ⟨c * u.r, c * -u.i, c * -u.j, c * -u.k⟩ := by
    ext <;> simp
  rw [invRotate_eq]
  simp only [e]
  rw [rotate_scaled c ⟨u.r, -u.i, -u.j, -u.k⟩, rotate_scaled c u, hlin, hb]
  generalize (⟨u.r, -u.i, -u.j, -u.k⟩ : Q ℝ).rotate p = b at *
  generalize u.rotate p = a at *
  rw [distance_comb _ _ ⟨a.x + b.x - 2 * p.x, a.y + b.y - 2 * p.y, a.z + b.z - 2 * p.z⟩ (c ^ 2 * (1 - c ^ 2))]
  · have h1 := length_four hi hj
    have h0 : 0 ≤ length3 p := Real.sqrt_nonneg _
    have hd : 0 ≤ δ := (abs_nonneg _).trans hn
    have hc2 : |c ^ 2| ≤ 1 + δ := by
      rw [abs_of_nonneg (sq_nonneg c)]
      have := (abs_le.1 hn).1
      linarith
    rw [abs_mul]
    calc |c ^ 2| * |1 - c ^ 2| * _ ≤ |c ^ 2| * |1 - c ^ 2| * (4 * length3 p) := mul_le_mul_of_nonneg_left h1 (by positivity)
      _ ≤ ((1 + δ) * δ) * (4 * length3 p) :=
        mul_le_mul_of_nonneg_right (mul_le_mul hc2 hn (abs_nonneg _) (by linarith)) (by positivity)
      _ = 4 * δ * (1 + δ) * length3 p := by ring
  · intro v hv
    rw [hv]
    simp only [comb]
    ext <;> simp only <;> ring

/-! ## Interpolation -/

theorem partialNorm_scaled {c : ℝ} (hc : 0 < c) (u : Q ℝ) :
    partialNorm ⟨c * u.r, c * u.i, c * u.j, c * u.k⟩ = c * partialNorm u := by
  simp only [partialNorm]
  rw [show c * u.i * (c * u.i) + c * u.j * (c * u.j) + c * u.k * (c * u.k) = c ^ 2 * (u.i * u.i + u.j * u.j + u.k * u.k) by ring,
    Real.sqrt_mul (sq_nonneg c), Real.sqrt_sq hc.le]

/-- A power does not see a positive factor. -/
theorem pow_scaled {c : ℝ} (hc : 0 < c) (u : Q ℝ) (e : ℝ) :
    powAssign ⟨c * u.r, c * u.i, c * u.j, c * u.k⟩ e = powAssign u e := by
  unfold powAssign
  rw [partialNorm_scaled hc]
  by_cases h : partialNorm u = 0
  · rw [if_pos (by rw [h, mul_zero]), if_pos h]
  · rw [if_neg (mul_ne_zero hc.ne' h), if_neg h]
    have ha : atan2 (c * partialNorm u) (c * u.r) = atan2 (partialNorm u) u.r := by
      unfold atan2
      have : (⟨c * u.r, c * partialNorm u⟩ : ℂ) = (c : ℂ) * ⟨u.r, partialNorm u⟩ := by
        apply Complex.ext <;> simp
      rw [this, Complex.arg_real_mul _ hc]
    simp only [ha]
    congr 1
    ext <;> simp only [mul_div_mul_left _ _ hc.ne']

/-- The interpolation of two quaternions of the file is the one of the exact quaternions times the factor of the first. -/
theorem slerp_scaled {c d : ℝ} (hc : 0 < c) (hd : 0 < d) (a b : Q ℝ) (hab : a ≠ b)
    (hne : (⟨c * a.r, c * a.i, c * a.j, c * a.k⟩ : Q ℝ) ≠ ⟨d * b.r, d * b.i, d * b.j, d * b.k⟩) (t0 t1 t : ℝ)
    (hd' : ¬ t1 - t0 < 1e-12) :
    slerp ⟨c * a.r, c * a.i, c * a.j, c * a.k⟩ ⟨d * b.r, d * b.i, d * b.j, d * b.k⟩ t0 t1 t =
      (slerp a b t0 t1 t).map fun q => ⟨c * q.r, c * q.i, c * q.j, c * q.k⟩ := by
  rw [slerp_eq hne hd', slerp_eq hab hd']
  have hs : (shortEnd (⟨c * a.r, c * a.i, c * a.j, c * a.k⟩ : Q ℝ) ⟨d * b.r, d * b.i, d * b.j, d * b.k⟩).divAssign
      ⟨c * a.r, c * a.i, c * a.j, c * a.k⟩ =
        ⟨(c * d) * ((shortEnd a b).divAssign a).r, (c * d) * ((shortEnd a b).divAssign a).i,
          (c * d) * ((shortEnd a b).divAssign a).j, (c * d) * ((shortEnd a b).divAssign a).k⟩ := by
    have hdot : (⟨c * a.r, c * a.i, c * a.j, c * a.k⟩ : Q ℝ).dot ⟨d * b.r, d * b.i, d * b.j, d * b.k⟩ = (c * d) * a.dot b := by
      simp only [Q.dot]; ring
    unfold shortEnd
    rw [hdot]
    by_cases h : a.dot b < 0
    · rw [if_pos h, if_pos (mul_neg_of_pos_of_neg (mul_pos hc hd) h)]
      simp only [Q.divAssign, Q.mulAssign, Q.scaleAssign]
      ext <;> simp only <;> ring
    · rw [if_neg h, if_neg (not_lt.2 (mul_nonneg (mul_pos hc hd).le (not_lt.1 h)))]
      simp only [Q.divAssign, Q.mulAssign]
      ext <;> simp only <;> ring
  rw [hs, pow_scaled (mul_pos hc hd), Option.map_map]
  congr 1
  funext p
  simp only [Function.comp, Q.mulAssign]
  ext <;> simp only <;> ring

/-- **C134** (exactly when the orientation is undefined): between two recorded rotations the interpolated orientation is NaN if and
only if the second one is a multiple of the first one without being equal to it. -/
theorem C134_undefined_iff (a b : Q ℝ) (ha : a.r ^ 2 + a.i ^ 2 + a.j ^ 2 + a.k ^ 2 ≠ 0) (t0 t1 t : ℝ) (hd : t0 + 1e-12 ≤ t1) :
    slerp a b t0 t1 t = none ↔ a ≠ b ∧ ∃ c : ℝ, b = ⟨c * a.r, c * a.i, c * a.j, c * a.k⟩ := by
  have hd' : ¬ t1 - t0 < 1e-12 := by linarith
  by_cases hab : a = b
  · simp [slerp, hab]
  rw [slerp_eq hab hd', Option.map_eq_none_iff, C03_pow_nan_iff]
  have key : ∀ e : Q ℝ, NoAxis (e.divAssign a) ↔ ∃ c : ℝ, e = ⟨c * a.r, c * a.i, c * a.j, c * a.k⟩ := by
    intro e
    constructor
    · rintro ⟨h1, h2, h3⟩
      refine ⟨(e.divAssign a).r / (a.r ^ 2 + a.i ^ 2 + a.j ^ 2 + a.k ^ 2), ?_⟩
      simp only [Q.divAssign, Q.mulAssign] at h1 h2 h3 ⊢
      ext <;> simp only <;> rw [div_mul_eq_mul_div, eq_div_iff ha]
      · linear_combination (-a.i) * h1 - a.j * h2 - a.k * h3
      · linear_combination a.r * h1 + a.k * h2 - a.j * h3
      · linear_combination (-a.k) * h1 + a.r * h2 + a.i * h3
      · linear_combination a.j * h1 - a.i * h2 + a.r * h3
    · rintro ⟨c, rfl⟩
      refine ⟨?_, ?_, ?_⟩ <;> simp only [Q.divAssign, Q.mulAssign] <;> ring
  rw [key]
  constructor
  · rintro ⟨c, hc⟩
    refine ⟨hab, ?_⟩
    unfold shortEnd at hc
    by_cases h : a.dot b < 0
    · rw [if_pos h] at hc
      refine ⟨-c, ?_⟩
      simp only [Q.scaleAssign, Q.mk.injEq] at hc
      obtain ⟨h1, h2, h3, h4⟩ := hc
      ext <;> simp only <;> linarith
    · rw [if_neg h] at hc
      exact ⟨c, hc⟩
  · rintro ⟨-, c, hc⟩
    unfold shortEnd
    by_cases h : a.dot b < 0
    · refine ⟨-c, ?_⟩
      rw [if_pos h, hc]
      simp only [Q.scaleAssign]
      ext <;> simp only <;> ring
    · exact ⟨c, by rw [if_neg h, hc]⟩

theorem slerp_near {δ : ℝ} {a b ua ub : Q ℝ} (ha : Writes δ a ua) (hb : Writes δ b ub)
    (h : a = b ∨ ∀ c : ℝ, b ≠ ⟨c * a.r, c * a.i, c * a.j, c * a.k⟩) (t0 t1 t : ℝ) :
    ∃ q u, slerp a b t0 t1 t = some q ∧ slerp ua ub t0 t1 t = some u ∧ Writes δ q u := by
  obtain ⟨c, hc, ea, hca, hua⟩ := ha.sq
  obtain ⟨d, hd, eb, hdb, hub⟩ := hb.sq
  have hiff : a = b ↔ ua = ub := by
    constructor
    · intro hab
      have hcd : c = d := by
        have h1 := congrArg (fun q : Q ℝ => q.dot q) (ea.symm.trans (hab.trans eb))
        simp only [Q.dot, Q.IsUnit] at *
        have h2 : c ^ 2 = d ^ 2 := by linear_combination h1 - c ^ 2 * hua + d ^ 2 * hub
        exact (pow_left_inj₀ hc.le hd.le (by norm_num)).1 h2
      have h1 := ea.symm.trans (hab.trans eb)
      rw [hcd] at h1
      simp only [Q.mk.injEq, mul_right_inj' hd.ne'] at h1
      obtain ⟨e1, e2, e3, e4⟩ := h1
      ext <;> assumption
    · intro hu
      rcases h with h | h
      · exact h
      · exfalso
        refine h (d / c) ?_
        rw [ea, eb, ← hu]
        ext <;> simp only <;> field_simp
  by_cases hab : a = b
  · refine ⟨a, ua, by simp [slerp, hab], ?_, ha⟩
    simp [slerp, ← hiff.1 hab]
  have huab : ua ≠ ub := fun h' => hab (hiff.2 h')
  by_cases hd' : t1 - t0 < 1e-12
  · exact ⟨b, ub, by simp only [slerp, if_neg hab, if_pos hd'], by simp only [slerp, if_neg huab, if_pos hd'], hb⟩
  have hflip : ub ≠ neg ua := by
    intro e
    rcases h with h | h
    · exact hab h
    · refine h (-(d / c)) ?_
      rw [ea, eb, e]
      ext <;> simp only [neg] <;> field_simp
  obtain ⟨u, hu1, hu2⟩ := C09_slerp_unit_partial ua ub hua hub hflip t0 t1 t
  refine ⟨⟨c * u.r, c * u.i, c * u.j, c * u.k⟩, u, ?_, hu1, ?_⟩
  · rw [ea, eb, slerp_scaled hc hd ua ub huab (by rw [← ea, ← eb]; exact hab) t0 t1 t hd', hu1]
    rfl
  · simp only [Q.IsUnit] at hu2
    refine ⟨by linarith, ⟨c, hc, rfl⟩, ?_⟩
    rw [show (c * u.r) ^ 2 + (c * u.i) ^ 2 + (c * u.j) ^ 2 + (c * u.k) ^ 2 - 1 = -(1 - c ^ 2) by
      linear_combination c ^ 2 * hu2, abs_neg]
    exact hca

theorem search_congr {δ : ℝ} {segs exact : List Segment} (h : List.Forall₂ (WritesSegment δ) segs exact) (t : ℝ) (i : ℕ) :
    search segs t i = search exact t i := by
  have hl := h.length_eq
  induction hk : segs.length - i generalizing i with
  | zero =>
    have h1 : ¬ i < segs.length := by omega
    have h2 : ¬ i < exact.length := by omega
    unfold search
    rw [dif_neg h1, dif_neg h2]
  | succ k ih =>
    have hi : i < segs.length := by omega
    have ht := (h.get hi (by omega)).time
    simp only [List.get_eq_getElem] at ht
    have hi2 : i < exact.length := by omega
    have hr := ih (i + 1) (by omega)
    unfold search
    rw [dif_pos hi, dif_pos hi2, ht, hr]

/-- **C134** (partial: two consecutive recorded rotations are equal or not multiples of one another): on the whole path, at every time,
the orientation computed from the rotations of the file turns every point to within `2 δ` times its distance from the origin of where
the exact rotations turn it, in both directions. -/
theorem C134_orientation_partial {δ : ℝ} {segs exact : List Segment} (h : List.Forall₂ (WritesSegment δ) segs exact)
    (hne : segs ≠ []) (hd : Distinct segs) (t : ℝ) :
    ∃ q u, quaternion (fresh segs true) t = .value q ∧ quaternion (fresh exact true) t = .value u ∧
      ∀ p : Pt3 ℝ, distance3 (q.rotate p) (u.rotate p) ≤ 2 * δ * length3 p ∧
        distance3 (q.invRotate p) (u.invRotate p) ≤ 2 * δ * length3 p := by
  have hl := h.length_eq
  have hpos := List.length_pos_iff.mpr hne
  have hget : ∀ i (hi : i < segs.length) (hi' : i < exact.length), WritesSegment δ segs[i] exact[i] := by
    intro i hi hi'
    have := h.get hi hi'
    simpa only [List.get_eq_getElem] using this
  suffices hw : ∃ q u, quaternion (fresh segs true) t = .value q ∧ quaternion (fresh exact true) t = .value u ∧ Writes δ q u by
    obtain ⟨q, u, h1, h2, h3⟩ := hw
    exact ⟨q, u, h1, h2, fun p => C134_rotate h3 p⟩
  have hs1 : (fresh segs true).segs.getLast? = some (segs[segs.length - 1]'(by omega)) := by
    simp only [fresh]
    rw [List.getLast?_eq_getElem?, List.getElem?_eq_getElem (by omega)]
  have hs2 : (fresh exact true).segs.getLast? = some (exact[segs.length - 1]'(by omega)) := by
    simp only [fresh]
    rw [List.getLast?_eq_getElem?, show exact.length - 1 = segs.length - 1 by omega, List.getElem?_eq_getElem (by omega)]
  have hlast := hget (segs.length - 1) (by omega) (by omega)
  unfold quaternion
  rw [hs1, hs2, if_neg (by simp [fresh]), if_neg (by simp [fresh])]
  by_cases ht : t > (segs[segs.length - 1]'(by omega)).endTime
  · obtain ⟨q, u, h1, h2, h3⟩ := hlast.rotation
    have ht' : t > (exact[segs.length - 1]'(by omega)).endTime := hlast.time ▸ ht
    exact ⟨q, u, by simp only [if_pos ht, h1], by simp only [if_pos ht', h2], h3⟩
  · have ht' : ¬ t > (exact[segs.length - 1]'(by omega)).endTime := hlast.time ▸ ht
    obtain ⟨i, s, hc⟩ := current_isSome (P := fresh segs true) (fun _ => hpos) hs1 (not_lt.mp ht)
    have hgi := (current_some hc).2
    obtain ⟨hi, hsi⟩ := List.getElem?_eq_some_iff.mp hgi
    have hi1 : i < segs.length := hi
    have hi2 : i < exact.length := by omega
    have hsi' : segs[i] = s := hsi
    have hc2 : current (fresh exact true) t = some (i, exact[i]) := by
      unfold current at hc ⊢
      simp only [fresh] at hc ⊢
      rw [← search_congr h]
      cases hf : search segs t 0 with
      | none => simp [hf] at hc
      | some k =>
        simp only [hf, Option.map_eq_some_iff, Prod.mk.injEq] at hc
        obtain ⟨_, _, rfl, _⟩ := hc
        simp [List.getElem?_eq_getElem hi2]
    have hw := hget i hi1 hi2
    rw [hsi'] at hw
    obtain ⟨b, ub, hb1, hb2, hb3⟩ := hw.rotation
    simp only [if_neg ht, if_neg ht', hc, hc2]
    cases i with
    | zero =>
      simp only [segStart, hb1, hb2]
      exact ⟨b, ub, by simp [slerp], by simp [slerp], hb3⟩
    | succ j =>
      have hj : j < segs.length := by omega
      have hj2 : j < exact.length := by omega
      obtain ⟨a, ua, ha1, ha2, ha3⟩ := (hget j hj hj2).rotation
      have hdj := hd j segs[j] s a b (List.getElem?_eq_getElem hj) hgi ha1 hb1
      have htj := (hget j hj hj2).time
      have e1 : (fresh segs true).segs[j]? = some segs[j] := List.getElem?_eq_getElem hj
      have e2 : (fresh exact true).segs[j]? = some exact[j] := List.getElem?_eq_getElem hj2
      obtain ⟨q, u, h1, h2, h3⟩ := slerp_near ha3 hb3 hdj segs[j].endTime s.endTime t
      simp only [segStart, e1, e2, ha1, ha2, hb1, hb2, ← htj, ← hw.time, h1, h2]
      exact ⟨q, u, rfl, rfl, h3⟩

/-- **C134** refuted without that restriction: however precisely the same rotation is written in two consecutive records, if the two
texts have different norms the orientation is NaN between them (the exact rotations give the rotation itself). -/
theorem C134_same_rotation_refuted (u : Q ℝ) (hu : u.r ^ 2 + u.i ^ 2 + u.j ^ 2 + u.k ^ 2 = 1) (δ : ℝ) (hδ : 0 < δ) (p0 p1 : Pt3 ℝ) :
    ∃ segs exact : List Segment, List.Forall₂ (WritesSegment δ) segs exact ∧
      exact = [⟨1, 1, p0, some u⟩, ⟨2, 1, p1, some u⟩] ∧
      ∀ t : ℝ, 1 < t → t ≤ 2 → quaternion (fresh segs true) t = .nan ∧ quaternion (fresh exact true) t = .value u := by
  obtain ⟨c, hc0, hc⟩ : ∃ c : ℝ, 0 < c ∧ c ^ 2 = 1 + δ := ⟨Real.sqrt (1 + δ), Real.sqrt_pos.2 (by linarith), Real.sq_sqrt (by linarith)⟩
  refine ⟨[⟨1, 1, p0, some u⟩, ⟨2, 1, p1, some ⟨c * u.r, c * u.i, c * u.j, c * u.k⟩⟩],
    [⟨1, 1, p0, some u⟩, ⟨2, 1, p1, some u⟩], ?_, rfl, ?_⟩
  · refine .cons ⟨rfl, rfl, rfl, u, u, rfl, rfl, hu, ⟨1, one_pos, by ext <;> simp⟩, ?_⟩
      (.cons ⟨rfl, rfl, rfl, _, u, rfl, rfl, hu, ⟨c, hc0, rfl⟩, ?_⟩ .nil)
    · rw [hu, sub_self, abs_zero]; exact hδ.le
    · rw [show (c * u.r) ^ 2 + (c * u.i) ^ 2 + (c * u.j) ^ 2 + (c * u.k) ^ 2 - 1 = δ by linear_combination c ^ 2 * hu + hc,
        abs_of_pos hδ]
  · intro t h1 h2
    have hne : u ≠ ⟨c * u.r, c * u.i, c * u.j, c * u.k⟩ := by
      intro e
      have h3 := congrArg (fun q : Q ℝ => q.r ^ 2 + q.i ^ 2 + q.j ^ 2 + q.k ^ 2) e
      simp only at h3
      rw [hu, show (c * u.r) ^ 2 + (c * u.i) ^ 2 + (c * u.j) ^ 2 + (c * u.k) ^ 2 = 1 + δ by linear_combination c ^ 2 * hu + hc] at h3
      linarith
    have hn := (C134_undefined_iff u ⟨c * u.r, c * u.i, c * u.j, c * u.k⟩ (by rw [hu]; exact one_ne_zero) 1 2 t (by norm_num)).2
      ⟨hne, c, rfl⟩
    have hsearch : ∀ q : Q ℝ, search [⟨1, 1, p0, some u⟩, ⟨2, 1, p1, some q⟩] t 0 = some 1 := by
      intro q
      unfold search
      rw [dif_pos (by simp)]
      simp only [List.getElem_cons_zero]
      rw [if_pos h1]
      unfold search
      rw [dif_pos (by simp)]
      simp only [List.getElem_cons_succ, List.getElem_cons_zero]
      rw [if_neg (not_lt.2 h2)]
    have hq : ∀ q : Q ℝ, quaternion (fresh [⟨1, 1, p0, some u⟩, ⟨2, 1, p1, some q⟩] true) t =
        match slerp u q 1 2 t with
        | some x => .value x
        | none => .nan := by
      intro q
      unfold quaternion
      rw [if_neg (by simp [fresh])]
      simp only [fresh, List.getLast?_cons_cons, List.getLast?_singleton]
      rw [if_neg (not_lt.2 h2)]
      simp only [current, hsearch, List.getElem?_cons_succ, List.getElem?_cons_zero, Option.map_some, segStart]
      cases slerp u q 1 2 t <;> rfl
    have hself : slerp u u 1 2 t = some u := by simp [slerp]
    exact ⟨by rw [hq, hn], by rw [hq, hself]⟩

/-- The second rotation of `/repo/tests/data/scan_path_5_axis.txt` writes the quarter turn about the second axis to within `1e-10`,
and it is no multiple of the first one. -/
example : Writes 1e-10 ⟨0.70710678118, 0, 0.70710678118, 0⟩ ⟨Real.sqrt (1 / 2), 0, Real.sqrt (1 / 2), 0⟩ ∧
    ∀ c : ℝ, (⟨0.70710678118, 0, 0.70710678118, 0⟩ : Q ℝ) ≠ ⟨c * 1, c * 0, c * 0, c * 0⟩ := by
  have hs : Real.sqrt (1 / 2) ^ 2 = 1 / 2 := Real.sq_sqrt (by norm_num)
  have hp : 0 < Real.sqrt (1 / 2) := Real.sqrt_pos.2 (by norm_num)
  refine ⟨⟨?_, ⟨0.70710678118 / Real.sqrt (1 / 2), by positivity, ?_⟩, ?_⟩, ?_⟩
  · simp only [hs]; norm_num
  · ext <;> simp only [mul_zero] <;> field_simp
  · rw [abs_le]
    constructor <;> norm_num
  · intro c h
    have := congrArg Q.j h
    norm_num at this

end Verif.ScanPath
