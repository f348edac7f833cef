import Verif.Quaternion.Spec
import Mathlib.Tactic.LinearCombination
import Mathlib.Tactic.Ring
import Mathlib.Tactic.NormNum
import Mathlib.Tactic.FieldSimp

/-!
# Properties C01, C02, C03 of quaternions
-/

namespace Verif.Quat

variable {K : Type*} [Field K]

/-- C01: rotation preserves scalar products (hence lengths and angles). -/
theorem C01_rotate_preserves_inner (q : Q K) (hq : q.IsUnit) (a b : Pt3 K) :
    inner3 (q.rotate a) (q.rotate b) = inner3 a b := by
  obtain ⟨r, i, j, k⟩ := q
  obtain ⟨ax, ay, az⟩ := a
  obtain ⟨bx, by', bz⟩ := b
  simp only [Q.IsUnit, inner3, Q.rotate, Q.rotationMatrix, Mat3.apply] at *
  have hr : r * r = 1 - i * i - j * j - k * k := by linear_combination hq
  linear_combination (exp := 1) (0 : K) * hq +
    ((4 * (i*i*ay*by' + i*i*az*bz + j*j*ax*bx + j*j*az*bz + k*k*ax*bx + k*k*ay*by')
      - 4 * (i*j*ax*by' + i*j*ay*bx + i*k*ax*bz + i*k*az*bx + j*k*ay*bz + j*k*az*by'))) * hr

/-- C01: rotation preserves the distance between any two points. -/
theorem C01_rotate_isometry (q : Q K) (hq : q.IsUnit) (a b : Pt3 K) :
    distSq (q.rotate a) (q.rotate b) = distSq a b := by
  have h1 := C01_rotate_preserves_inner q hq a a
  have h2 := C01_rotate_preserves_inner q hq a b
  have h3 := C01_rotate_preserves_inner q hq b b
  simp only [inner3, distSq] at *
  linear_combination h1 - 2 * h2 + h3

/-- C01: `inv_rotate` undoes `rotate`. -/
theorem C01_inv_rotate_rotate (q : Q K) (hq : q.IsUnit) (p : Pt3 K) :
    q.invRotate (q.rotate p) = p := by
  obtain ⟨r, i, j, k⟩ := q
  obtain ⟨x, y, z⟩ := p
  simp only [Q.IsUnit, Q.rotate, Q.invRotate, Q.rotationMatrix, Q.invRotationMatrix, Mat3.apply] at *
  have hr : r * r = 1 - i * i - j * j - k * k := by linear_combination hq
  ext
  · simp only
    linear_combination (4 * (j*j*x + k*k*x - i*j*y - i*k*z)) * hr
  · simp only
    linear_combination (4 * (i*i*y + k*k*y - i*j*x - j*k*z)) * hr
  · simp only
    linear_combination (4 * (i*i*z + j*j*z - i*k*x - j*k*y)) * hr

/-- C01: `rotate` undoes `inv_rotate`. -/
theorem C01_rotate_inv_rotate (q : Q K) (hq : q.IsUnit) (p : Pt3 K) :
    q.rotate (q.invRotate p) = p := by
  have h := C01_inv_rotate_rotate (⟨q.r, -q.i, -q.j, -q.k⟩ : Q K) (by
    simp only [Q.IsUnit] at *; linear_combination hq) p
  simpa [Q.rotate, Q.invRotate, Q.rotationMatrix, Q.invRotationMatrix, sub_eq_add_neg] using h

/-- C01 (what rotation means): `rotate` is the textbook rotation `v ↦ q v q*` of Mathlib's quaternions. -/
theorem C01_rotate_is_conjugation (q : Q ℝ) (hq : q.IsUnit) (p : Pt3 ℝ) :
    pure (q.rotate p) = toMathlib q * pure p * star (toMathlib q) := by
  obtain ⟨r, i, j, k⟩ := q
  obtain ⟨x, y, z⟩ := p
  simp only [Q.IsUnit] at hq
  ext
  all_goals
    simp only [Quaternion.re_mul, Quaternion.imI_mul, Quaternion.imJ_mul, Quaternion.imK_mul,
      Quaternion.re_star, Quaternion.imI_star, Quaternion.imJ_star, Quaternion.imK_star]
    simp only [pure, toMathlib, Q.rotate, Q.rotationMatrix, Mat3.apply]
  · ring
  · linear_combination -x * hq
  · linear_combination -y * hq
  · linear_combination -z * hq

/-- The hypotheses of C01 are met by a rotation about a tilted axis. -/
example : (⟨1/2, 1/2, -1/2, 1/2⟩ : Q ℚ).IsUnit ∧
    (⟨1/2, 1/2, -1/2, 1/2⟩ : Q ℚ).rotate ⟨1, 2, 3⟩ = ⟨-2, -3, 1⟩ := by
  constructor
  · norm_num [Q.IsUnit]
  · norm_num [Q.rotate, Q.rotationMatrix, Mat3.apply]

/-- C02: the product is the Hamilton product. -/
theorem C02_mul_is_hamilton (p q : Q ℝ) :
    toMathlib (p.mulAssign q) = toMathlib p * toMathlib q := by
  ext
  all_goals
    simp only [Quaternion.re_mul, Quaternion.imI_mul, Quaternion.imJ_mul, Quaternion.imK_mul]
    simp only [toMathlib, Q.mulAssign]

/-- C02: the squared norm of a product is the product of the squared norms. -/
theorem C02_norm_mul (p q : Q K) :
    (p.mulAssign q).dot (p.mulAssign q) = p.dot p * q.dot q := by
  simp only [Q.dot, Q.mulAssign]; ring

/-- C02: unit quaternions are closed under multiplication. -/
theorem C02_unit_mul (p q : Q K) (hp : p.IsUnit) (hq : q.IsUnit) : (p.mulAssign q).IsUnit := by
  have h := C02_norm_mul p q
  simp only [Q.IsUnit, Q.dot] at *
  rw [h, hp, hq, one_mul]

/-- C02: after `p *= q`, rotating means rotating by `q` first and then by `p`. -/
theorem C02_mul_composes (p q : Q K) (hp : p.IsUnit) (hq : q.IsUnit) (v : Pt3 K) :
    (p.mulAssign q).rotate v = p.rotate (q.rotate v) := by
  obtain ⟨r, i, j, k⟩ := p
  obtain ⟨s, a, b, c⟩ := q
  obtain ⟨x, y, z⟩ := v
  simp only [Q.IsUnit, Q.mulAssign, Q.rotate, Q.rotationMatrix, Mat3.apply] at *
  have hr : r * r = 1 - i * i - j * j - k * k := by linear_combination hp
  have hs : s * s = 1 - a * a - b * b - c * c := by linear_combination hq
  have hr2 : r ^ 2 = 1 - i ^ 2 - j ^ 2 - k ^ 2 := by linear_combination hp
  have hs2 : s ^ 2 = 1 - a ^ 2 - b ^ 2 - c ^ 2 := by linear_combination hq
  ext
  all_goals simp only
  all_goals ring_nf
  all_goals simp only [hr2, hs2]
  all_goals ring

/-- C02: `q` and `-q` describe the same rotation. -/
theorem C02_neg_same_rotation (q : Q K) : SameRotation q (q.scaleAssign (-1)) := by
  intro v
  obtain ⟨r, i, j, k⟩ := q
  simp only [Q.scaleAssign, Q.rotate, Q.rotationMatrix, Mat3.apply]
  ext <;> simp only <;> ring

/-- C02: dividing by a unit quaternion and multiplying back gives the original. -/
theorem C02_div_mul_cancel (p q : Q K) (hq : q.IsUnit) : (p.divAssign q).mulAssign q = p := by
  obtain ⟨r, i, j, k⟩ := p
  obtain ⟨s, a, b, c⟩ := q
  simp only [Q.IsUnit, Q.divAssign, Q.mulAssign] at *
  ext <;> simp only
  · linear_combination r * hq
  · linear_combination i * hq
  · linear_combination j * hq
  · linear_combination k * hq

/-- C02: rotating by `p /= q` undoes `q` and then applies `p`. -/
theorem C02_div_rotate (p q : Q K) (hp : p.IsUnit) (hq : q.IsUnit) (v : Pt3 K) :
    (p.divAssign q).rotate (q.rotate v) = p.rotate v := by
  have hd : (p.divAssign q).IsUnit := by
    unfold Q.divAssign
    refine C02_unit_mul p _ hp ?_
    simp only [Q.IsUnit] at *; linear_combination hq
  rw [← C02_mul_composes _ _ hd hq, C02_div_mul_cancel p q hq]

/-- Two non-commuting unit quaternions meeting the hypotheses of C02. -/
example : (⟨1/2, 1/2, 1/2, 1/2⟩ : Q ℚ).IsUnit ∧ (⟨3/5, 4/5, 0, 0⟩ : Q ℚ).IsUnit ∧
    (⟨1/2, 1/2, 1/2, 1/2⟩ : Q ℚ).mulAssign ⟨3/5, 4/5, 0, 0⟩ ≠
      (⟨3/5, 4/5, 0, 0⟩ : Q ℚ).mulAssign ⟨1/2, 1/2, 1/2, 1/2⟩ := by
  refine ⟨by norm_num [Q.IsUnit], by norm_num [Q.IsUnit], ?_⟩
  intro h
  have := congrArg Q.j h
  norm_num [Q.mulAssign] at this

/-! ### C03: powers -/

/-- The quaternion is plus or minus the identity, i.e. has no rotation axis. -/
def NoAxis (q : Q ℝ) : Prop := q.i = 0 ∧ q.j = 0 ∧ q.k = 0

theorem partialNorm_eq_zero_iff (q : Q ℝ) : partialNorm q = 0 ↔ NoAxis q := by
  unfold partialNorm NoAxis
  have h0 : 0 ≤ q.i * q.i + q.j * q.j + q.k * q.k :=
    add_nonneg (add_nonneg (mul_self_nonneg _) (mul_self_nonneg _)) (mul_self_nonneg _)
  rw [Real.sqrt_eq_zero h0]
  constructor
  · intro h
    have h1 := mul_self_nonneg q.i
    have h2 := mul_self_nonneg q.j
    have h3 := mul_self_nonneg q.k
    refine ⟨mul_self_eq_zero.mp (by linarith), mul_self_eq_zero.mp (by linarith),
      mul_self_eq_zero.mp (by linarith)⟩
  · rintro ⟨h1, h2, h3⟩; simp [h1, h2, h3]

theorem partialNorm_sq (q : Q ℝ) :
    partialNorm q * partialNorm q = q.i * q.i + q.j * q.j + q.k * q.k :=
  Real.mul_self_sqrt
    (add_nonneg (add_nonneg (mul_self_nonneg _) (mul_self_nonneg _)) (mul_self_nonneg _))

theorem norm_mk_one {q : Q ℝ} (hq : q.IsUnit) : ‖(⟨q.r, partialNorm q⟩ : ℂ)‖ = 1 := by
  rw [Complex.norm_def, Complex.normSq_mk, partialNorm_sq, Real.sqrt_eq_one]
  unfold Q.IsUnit at hq; linarith

theorem cos_theta {q : Q ℝ} (hq : q.IsUnit) : Real.cos (atan2 (partialNorm q) q.r) = q.r := by
  have h1 := norm_mk_one hq
  have hne : (⟨q.r, partialNorm q⟩ : ℂ) ≠ 0 := by
    intro h; rw [h, norm_zero] at h1; exact zero_ne_one h1
  rw [atan2, Complex.cos_arg hne, h1, div_one]

theorem sin_theta {q : Q ℝ} (hq : q.IsUnit) :
    Real.sin (atan2 (partialNorm q) q.r) = partialNorm q := by
  rw [atan2, Complex.sin_arg, norm_mk_one hq, div_one]

/-- The unit vector of `pow` has norm one. -/
theorem unit_vector_norm {q : Q ℝ} (h : partialNorm q ≠ 0) :
    (q.i / partialNorm q) ^ 2 + (q.j / partialNorm q) ^ 2 + (q.k / partialNorm q) ^ 2 = 1 := by
  have := partialNorm_sq q
  field_simp
  linarith [this, sq (partialNorm q)]

/-- C03 (partial: away from plus or minus the identity): every power of a unit quaternion is a unit quaternion. -/
theorem C03_pow_unit_partial (q : Q ℝ) (h : ¬ NoAxis q) (s : ℝ) :
    ∃ p, powAssign q s = some p ∧ p.IsUnit := by
  have hn : partialNorm q ≠ 0 := fun h' => h ((partialNorm_eq_zero_iff q).mp h')
  refine ⟨_, by simp only [powAssign, if_neg hn]; rfl, ?_⟩
  have hu := unit_vector_norm hn
  have hcs := Real.cos_sq_add_sin_sq (s * atan2 (partialNorm q) q.r)
  simp only [Q.IsUnit]
  linear_combination (Real.sin (s * atan2 (partialNorm q) q.r)) ^ 2 * hu + hcs

/-- C03 (partial): the zeroth power is the identity. -/
theorem C03_pow_zero_partial (q : Q ℝ) (h : ¬ NoAxis q) : powAssign q 0 = some one := by
  have hn : partialNorm q ≠ 0 := fun h' => h ((partialNorm_eq_zero_iff q).mp h')
  simp [powAssign, if_neg hn, one]

/-- C03 (partial): the first power is the quaternion itself. -/
theorem C03_pow_one_partial (q : Q ℝ) (hq : q.IsUnit) (h : ¬ NoAxis q) : powAssign q 1 = some q := by
  have hn : partialNorm q ≠ 0 := fun h' => h ((partialNorm_eq_zero_iff q).mp h')
  simp only [powAssign, if_neg hn, one_mul, cos_theta hq, sin_theta hq]
  congr 1
  ext <;> simp only <;> field_simp

/-- C03 (partial): powers add up, i.e. `pow` runs through the rotations about the fixed axis at constant speed. -/
theorem C03_pow_add_partial (q : Q ℝ) (h : ¬ NoAxis q) (s t : ℝ) :
    ∃ a b c, powAssign q s = some a ∧ powAssign q t = some b ∧ powAssign q (s + t) = some c ∧
      a.mulAssign b = c := by
  have hn : partialNorm q ≠ 0 := fun h' => h ((partialNorm_eq_zero_iff q).mp h')
  refine ⟨_, _, _, by simp only [powAssign, if_neg hn]; rfl, by simp only [powAssign, if_neg hn]; rfl,
    by simp only [powAssign, if_neg hn]; rfl, ?_⟩
  have hu := unit_vector_norm hn
  generalize atan2 (partialNorm q) q.r = th
  generalize q.i / partialNorm q = u at *
  generalize q.j / partialNorm q = v at *
  generalize q.k / partialNorm q = w at *
  have e1 : (s + t) * th = s * th + t * th := by ring
  rw [e1, Real.cos_add, Real.sin_add]
  simp only [Q.mulAssign]
  ext <;> simp only
  · linear_combination (-(Real.sin (s * th) * Real.sin (t * th))) * hu
  all_goals ring

example : (⟨3/5, 0, 4/5, 0⟩ : Q ℝ).IsUnit ∧ ¬ NoAxis (⟨3/5, 0, 4/5, 0⟩ : Q ℝ) := by
  constructor
  · norm_num [Q.IsUnit]
  · norm_num [NoAxis]

/-- C03 is false at the identity: `pow` of the unit quaternion `(1,0,0,0)` (and of `(-1,0,0,0)`) is NaN for
every exponent, because the axis is computed as `0/0` (`Quaternion.cc:116-118`). -/
theorem C03_pow_identity_refuted :
    ¬ ∀ (q : Q ℝ), q.IsUnit → ∀ s, ∃ p, powAssign q s = some p ∧ p.IsUnit := by
  intro h
  obtain ⟨p, hp, -⟩ := h one (by simp [Q.IsUnit, one]) (1/2)
  have : partialNorm one = 0 := by simp [partialNorm, one]
  simp [powAssign, this] at hp

/-- Exactly which inputs of `pow` give NaN. -/
theorem C03_pow_nan_iff (q : Q ℝ) (s : ℝ) : powAssign q s = none ↔ NoAxis q := by
  rw [← partialNorm_eq_zero_iff]
  unfold powAssign
  split <;> simp_all

end Verif.Quat
