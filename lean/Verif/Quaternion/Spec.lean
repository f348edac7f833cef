import Verif.Quaternion.Model
import Mathlib.Algebra.Quaternion

/-!
# Specification vocabulary for rotations (independent of the model's formulas)

Scalar product and distance of points, and the textbook description of the rotation of a vector by a unit
quaternion `v ↦ q v q*`, expressed with Mathlib's own `Quaternion ℝ`.
-/

namespace Verif.Quat

/-- Scalar product of two points seen as vectors. -/
def inner3 {K : Type*} [Field K] (a b : Pt3 K) : K := a.x * b.x + a.y * b.y + a.z * b.z

/-- Squared distance of two points. -/
def distSq {K : Type*} [Field K] (a b : Pt3 K) : K :=
  (a.x - b.x) ^ 2 + (a.y - b.y) ^ 2 + (a.z - b.z) ^ 2

/-- The quaternion of Mathlib with the same components. -/
def toMathlib (q : Q ℝ) : Quaternion ℝ := ⟨q.r, q.i, q.j, q.k⟩

/-- The purely imaginary quaternion of a point. -/
def pure (p : Pt3 ℝ) : Quaternion ℝ := ⟨0, p.x, p.y, p.z⟩

/-- The identity quaternion. -/
def one : Q ℝ := ⟨1, 0, 0, 0⟩

/-- Two quaternions describe the same rotation. -/
def SameRotation {K : Type*} [Field K] (p q : Q K) : Prop := ∀ v, p.rotate v = q.rotate v

end Verif.Quat
