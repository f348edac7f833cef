import Verif.Quaternion.Props

/-!
# The quaternion test of the project, on the model

`/repo/tests/test_quaternion.cc`, `rotation`.  Tests of the model, not proofs of properties.
-/

namespace Verif.Conformance

open Verif.Quat

/-- The quaternion of the test: a rotation of `2π/3` around the diagonal. -/
noncomputable def third : Q ℝ := ⟨1 / 2, 1 / 2, 1 / 2, 1 / 2⟩

theorem test_rotation : third.rotate ⟨1, 0, 0⟩ = ⟨0, 1, 0⟩ ∧ third.rotate ⟨0, 1, 0⟩ = ⟨0, 0, 1⟩ ∧
    third.rotate ⟨0, 0, 1⟩ = ⟨1, 0, 0⟩ ∧ third.invRotate (third.rotate ⟨1, 0, 0⟩) = ⟨1, 0, 0⟩ := by
  refine ⟨?_, ?_, ?_, ?_⟩ <;>
    ext <;> norm_num [third, Q.rotate, Q.invRotate, Q.rotationMatrix, Q.invRotationMatrix, Mat3.apply]

/-- `quaternion.pow(0.5); quaternion *= quaternion;` is the quaternion again and `quaternion /= quaternion` is the identity. -/
theorem test_power : ∃ h : Q ℝ, powAssign third (1 / 2) = some h ∧ h.mulAssign h = third ∧
    (h.mulAssign h).divAssign (h.mulAssign h) = ⟨1, 0, 0, 0⟩ := by
  have hu : third.IsUnit := by norm_num [third, Q.IsUnit]
  have ha : ¬ NoAxis third := by
    intro h
    have := h.1
    norm_num [third] at this
  have h1 := C03_pow_one_partial third hu ha
  obtain ⟨x, y, z, hx, hy, hz, hm⟩ := C03_pow_add_partial third ha (1 / 2) (1 / 2)
  rw [show (1 / 2 : ℝ) + 1 / 2 = 1 by norm_num, h1] at hz
  rw [hx] at hy
  cases hy
  cases hz
  refine ⟨x, hx, hm, ?_⟩
  rw [hm]
  ext <;> norm_num [third, Q.divAssign, Q.mulAssign]

end Verif.Conformance
