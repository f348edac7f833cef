import Mathlib.Algebra.Field.Basic
import Mathlib.Algebra.Order.Field.Basic
import Mathlib.Analysis.SpecialFunctions.Complex.Arg
import Mathlib.Analysis.SpecialFunctions.Trigonometric.Basic

/-!
# Model of `source/Quaternion.{hh,cc}`

`double` is an arbitrary field `K` for the algebraic operations and `ℝ` for `pow`.
The cached rotation matrices (`_rotation_matrix`, `_inv_rotation_matrix` and the vectorised copies,
`Quaternion.cc:129-177`) are pure functions of the four components and every mutating operation rebuilds them,
so the model computes them on demand.  The debug-only `ASSERT`s are not modelled; validity
(`_is_valid`) is modelled in the scan-path model by `Option`.
-/

namespace Verif

/-- `dealii::Point<3>`. -/
@[ext] structure Pt3 (K : Type*) where
  x : K
  y : K
  z : K

namespace Quat

/-- `Quaternion::_quaternion = {r, i, j, k}` (`Quaternion.hh`, `Quaternion.cc:37-49`). -/
@[ext] structure Q (K : Type*) where
  r : K
  i : K
  j : K
  k : K

variable {K : Type*} [Field K]

/-- The four numbers passed to the constructor have unit norm (the `ASSERT` of `Quaternion.cc:40`,
with tolerance zero). -/
def Q.IsUnit (q : Q K) : Prop := q.r * q.r + q.i * q.i + q.j * q.j + q.k * q.k = 1

/-- A 3×3 matrix (`dealii::Tensor<2,3>`). -/
structure Mat3 (K : Type*) where
  a00 : K
  a01 : K
  a02 : K
  a10 : K
  a11 : K
  a12 : K
  a20 : K
  a21 : K
  a22 : K

/-- `tensor * point` of deal.II. -/
def Mat3.apply (m : Mat3 K) (p : Pt3 K) : Pt3 K where
  x := m.a00 * p.x + m.a01 * p.y + m.a02 * p.z
  y := m.a10 * p.x + m.a11 * p.y + m.a12 * p.z
  z := m.a20 * p.x + m.a21 * p.y + m.a22 * p.z

/-- `_rotation_matrix`, `Quaternion.cc:137-145`. -/
def Q.rotationMatrix (q : Q K) : Mat3 K where
  a00 := 1 - 2 * (q.j * q.j + q.k * q.k)
  a01 := 2 * (q.i * q.j - q.k * q.r)
  a02 := 2 * (q.i * q.k + q.j * q.r)
  a10 := 2 * (q.i * q.j + q.k * q.r)
  a11 := 1 - 2 * (q.i * q.i + q.k * q.k)
  a12 := 2 * (q.j * q.k - q.i * q.r)
  a20 := 2 * (q.i * q.k - q.j * q.r)
  a21 := 2 * (q.j * q.k + q.i * q.r)
  a22 := 1 - 2 * (q.i * q.i + q.j * q.j)

/-- `_inv_rotation_matrix`, `Quaternion.cc:159-167`. -/
def Q.invRotationMatrix (q : Q K) : Mat3 K where
  a00 := 1 - 2 * (q.j * q.j + q.k * q.k)
  a01 := 2 * (q.i * q.j + q.k * q.r)
  a02 := 2 * (q.i * q.k - q.j * q.r)
  a10 := 2 * (q.i * q.j - q.k * q.r)
  a11 := 1 - 2 * (q.i * q.i + q.k * q.k)
  a12 := 2 * (q.j * q.k + q.i * q.r)
  a20 := 2 * (q.i * q.k + q.j * q.r)
  a21 := 2 * (q.j * q.k - q.i * q.r)
  a22 := 1 - 2 * (q.i * q.i + q.j * q.j)

/-- `Quaternion::rotate` (`Quaternion.hh`, inline definitions at the end): `_rotation_matrix * point`. -/
def Q.rotate (q : Q K) (p : Pt3 K) : Pt3 K := q.rotationMatrix.apply p

/-- `Quaternion::inv_rotate` (`Quaternion.hh`): `_inv_rotation_matrix * point`. -/
def Q.invRotate (q : Q K) (p : Pt3 K) : Pt3 K := q.invRotationMatrix.apply p

/-- `Quaternion::operator*=(Quaternion const &)`, `Quaternion.cc:61-83`.  All eight components are read before
any is written, so aliasing (`q *= q`) is covered. -/
def Q.mulAssign (p q : Q K) : Q K where
  r := p.r * q.r - p.i * q.i - p.j * q.j - p.k * q.k
  i := p.r * q.i + p.i * q.r + p.j * q.k - p.k * q.j
  j := p.r * q.j - p.i * q.k + p.j * q.r + p.k * q.i
  k := p.r * q.k + p.i * q.j - p.j * q.i + p.k * q.r

/-- `Quaternion::operator*=(double const &)`, `Quaternion.cc:85-95`. -/
def Q.scaleAssign (p : Q K) (s : K) : Q K := ⟨p.r * s, p.i * s, p.j * s, p.k * s⟩

/-- `Quaternion::operator/=`, `Quaternion.cc:97-107`: multiplication by the conjugate. -/
def Q.divAssign (p q : Q K) : Q K := p.mulAssign ⟨q.r, -q.i, -q.j, -q.k⟩

/-- `dot_product`, `Quaternion.cc:179-183`. -/
def Q.dot (p q : Q K) : K := p.r * q.r + p.i * q.i + p.j * q.j + p.k * q.k

/-- `partial_norm`, `Quaternion.cc:113-115`. -/
noncomputable def partialNorm (q : Q ℝ) : ℝ := Real.sqrt (q.i * q.i + q.j * q.j + q.k * q.k)

/-- `std::atan2(y, x)`; the mathematical function is the argument of `x + i y`. -/
noncomputable def atan2 (y x : ℝ) : ℝ := Complex.arg ⟨x, y⟩

open Classical in
/-- `Quaternion::pow`, `Quaternion.cc:109-127`.  `none` stands for a quaternion with NaN components: when
`partial_norm` is zero the unit vector is `0/0` in every component and so are the three imaginary components
and the rotation matrix. -/
noncomputable def powAssign (q : Q ℝ) (e : ℝ) : Option (Q ℝ) :=
  if partialNorm q = 0 then none
  else
    let ux := q.i / partialNorm q
    let uy := q.j / partialNorm q
    let uz := q.k / partialNorm q
    let theta := atan2 (partialNorm q) q.r
    some ⟨Real.cos (e * theta), ux * Real.sin (e * theta), uy * Real.sin (e * theta),
      uz * Real.sin (e * theta)⟩

end Quat
end Verif
