import Verif.HeatSource.Update
import Mathlib.Algebra.Order.BigOperators.Group.Finset
import Mathlib.Tactic.NormNum
import Mathlib.Tactic.Linarith
import Mathlib.Tactic.Positivity
import Mathlib.Tactic.FieldSimp
import Mathlib.Tactic.Ring

/-!
# C65: values of the beam heat sources; C87: scalar and vectorised values
-/

namespace Verif.HeatSource

open Verif.Quat Verif.ScanPath

/-! ## Specification -/

/-- Goldak's double ellipsoid with equal axes: `eta * power` absorbed, radius `r`, depth `d`; `rho2` is the squared
horizontal distance and `z` the height relative to the beam. -/
noncomputable def goldakFormula (etaP r d rho2 z : ℝ) : ℝ :=
  2 * etaP / (r ^ 2 * d * (Real.pi / 3) ^ (3 / 2 : ℝ)) * Real.exp (-(3 * rho2 / r ^ 2) - 3 * z ^ 2 / d ^ 2)

/-- The electron beam: a Gaussian that has dropped to 10% at the radius, times a parabola that is `1` at the surface and
`0` at the depth. -/
noncomputable def electronBeamFormula (etaP r d rho2 z : ℝ) : ℝ :=
  etaP * Real.log 10 / (Real.pi * r ^ 2 * d) * Real.exp (-(Real.log 10 * (rho2 / r ^ 2))) *
    (1 - 2 * (z / d) - 3 * (z / d) ^ 2)

/-- The formula of a beam class. -/
noncomputable def formula : Kind → ℝ → ℝ → ℝ → ℝ → ℝ → ℝ
  | .goldak => goldakFormula
  | .electronBeam => electronBeamFormula

/-- Meaningful beam parameters: what `BeamHeatSourceProperties` documents, without the zero radius and depth. -/
structure BeamProps.Valid (b : BeamProps) : Prop where
  radius : 0 < b.radius
  radiusSq : b.radiusSq = b.radius ^ 2
  depth : 0 < b.depth
  absorption : 0 ≤ b.absorption
  power : 0 ≤ b.maxPower

/-- `p` in the frame of the path at time `t` is `r`: rotated by the path's orientation iff the source is five-axis. -/
def InFrame (s : Source) (t : ℝ) (p r : Pt3 ℝ) : Prop :=
  (s.fiveAxis = false ∧ r = p) ∨ (s.fiveAxis = true ∧ ∃ q, quaternion s.path t = .value q ∧ r = q.rotate p)

/-- Position of the beam at time `t`. -/
def BeamAt (s : Source) (t : ℝ) (c : Pt3 ℝ) : Prop := (ScanPath.value s.path t false).1 = .value c

theorem inFrame_iff {s s' : Source} {t : ℝ} (h : s.updateTime t = some s') (p r : Pt3 ℝ) :
    s'.inFrame p = some r ↔ InFrame s t p r := by
  obtain ⟨m, -, -, -, hf, -, -, hq, -⟩ := updateTime_spec h
  unfold Source.inFrame InFrame
  rw [hf, hq]
  cases s.fiveAxis with
  | false => simp [eq_comm]
  | true =>
    cases quaternion s.path t <;> simp [eq_comm]

theorem ofDatabase_valid {dimS powS depth absorption diameter maxPower : ℝ} (h1 : 0 < dimS) (h2 : 0 ≤ powS)
    (h3 : 0 < depth) (h4 : 0 ≤ absorption) (h5 : 0 < diameter) (h6 : 0 ≤ maxPower) :
    (BeamProps.ofDatabase dimS powS depth absorption diameter maxPower).Valid :=
  ⟨by unfold BeamProps.ofDatabase; positivity, rfl, by unfold BeamProps.ofDatabase; positivity, h4,
    by unfold BeamProps.ofDatabase; positivity⟩

/-! ## The code's expression is the formula -/

theorem log_tenth : Real.log (1 / 10) = -Real.log 10 := by
  rw [one_div, Real.log_inv]

theorem coefficient_profile {b : BeamProps} (hb : b.Valid) (k : Kind) (m rho2 z : ℝ) :
    coefficient k b m * profile k b.radiusSq b.depth rho2 z =
      formula k (b.absorption * b.maxPower * m) b.radius b.depth rho2 z := by
  have hr := hb.radius.ne'
  have hd := hb.depth.ne'
  cases k with
  | goldak =>
    simp only [coefficient, profile, formula, goldakFormula, hb.radiusSq]
    congr 1
    · ring
    · congr 1
      field_simp
      ring
  | electronBeam =>
    simp only [coefficient, profile, formula, electronBeamFormula, hb.radiusSq, log_tenth]
    rw [← mul_assoc]
    congr 1
    · congr 1
      · ring
      · congr 1
        field_simp
    · field_simp
      ring

theorem formula_nonneg (k : Kind) {etaP r d rho2 z : ℝ} (he : 0 ≤ etaP) (hd : 0 < d) (h1 : -d ≤ z)
    (h2 : z ≤ 0) : 0 ≤ formula k etaP r d rho2 z := by
  cases k with
  | goldak =>
    simp only [formula, goldakFormula]
    have := Real.pi_pos
    positivity
  | electronBeam =>
    simp only [formula, electronBeamFormula]
    have h0 := Real.pi_pos
    have h3 : 0 ≤ Real.log 10 := Real.log_nonneg (by norm_num)
    have h4 : -1 ≤ z / d := by rw [le_div_iff₀ hd]; linarith
    have h5 : z / d ≤ 0 := div_nonpos_of_nonpos_of_nonneg h2 hd.le
    have h6 : 0 ≤ 1 - 2 * (z / d) - 3 * (z / d) ^ 2 := by nlinarith
    exact mul_nonneg (by positivity) h6

theorem formula_zero (k : Kind) (r d rho2 z : ℝ) : formula k 0 r d rho2 z = 0 := by
  cases k <;> simp [formula, goldakFormula, electronBeamFormula]

theorem formula_mul (k : Kind) (a e r d rho2 z : ℝ) : formula k (a * e) r d rho2 z = a * formula k e r d rho2 z := by
  cases k <;> simp only [formula, goldakFormula, electronBeamFormula] <;> ring

/-! ## Scalar and lane values -/

theorem cutoff_eq {s s' : Source} {t : ℝ} (h : s.updateTime t = some s') : s'.cutoffRadiusSq = s.props.radiusSq := by
  obtain ⟨m, -, hk, hp, -, -, -, -, -, -, hr, -⟩ := updateTime_spec h
  unfold Source.cutoffRadiusSq
  cases s'.kind <;> simp [hp, hr]

open Classical in
/-- The scalar value after `update_time`, in closed form. -/
theorem scalarAt_eq {s s' : Source} {t m : ℝ} (h : s.updateTime t = some s') (hb : s.props.Valid)
    (hm : (powerModifier s.path t).1 = .value m) (rho2 z : ℝ) :
    s'.scalarAt rho2 z = if z < -s.props.depth ∨ 5 * s.props.radius ^ 2 < rho2 then 0
      else formula s.kind (s.props.absorption * s.props.maxPower * m) s.props.radius s.props.depth rho2 z := by
  obtain ⟨m', hm', hk, hp, hf, hon, hc, hq, ha, hd, hr, -⟩ := updateTime_spec h
  rw [hm] at hm'
  injection hm' with hm'
  subst hm'
  unfold Source.scalarAt
  rw [cutoff_eq h, hd, ha, hr, hk, hb.radiusSq, ← hb.radiusSq, coefficient_profile hb]
  by_cases h1 : z + s.props.depth < 0
  · rw [if_pos h1, if_pos (Or.inl (by linarith))]
  · rw [if_neg h1]
    by_cases h2 : rho2 > 5 * s.props.radiusSq
    · rw [if_pos h2, if_pos (Or.inr h2)]
    · rw [if_neg h2, if_neg (by rintro (h3 | h3); · apply h1; linarith
                                · exact h2 h3)]

theorem mask_nonneg (x : ℝ) : 0 ≤ mask x := by unfold mask; split <;> norm_num

theorem mask_eq_zero (x : ℝ) : mask x = 0 ↔ x < 0 := by unfold mask; split <;> simp_all

theorem sum_mask_zero {n : ℕ} (f : Fin n → ℝ) : ∑ i, mask (f i) = 0 ↔ ∀ i, f i < 0 := by
  rw [Finset.sum_eq_zero_iff_of_nonneg (fun i _ => mask_nonneg _)]
  simp [mask_eq_zero]

open Classical in
/-- The value of a lane after `update_time`, in closed form: the cut-off acts on all lanes together. -/
theorem lanesAt_eq {s s' : Source} {t m : ℝ} (h : s.updateTime t = some s') (hb : s.props.Valid)
    (hm : (powerModifier s.path t).1 = .value m) {n : ℕ} (rho2 z : Fin n → ℝ) (i : Fin n) :
    s'.lanesAt rho2 z i = if z i < -s.props.depth ∨ ∀ j, 5 * s.props.radius ^ 2 < rho2 j then 0
      else formula s.kind (s.props.absorption * s.props.maxPower * m) s.props.radius s.props.depth (rho2 i)
        (z i) := by
  obtain ⟨m', hm', hk, hp, hf, hon, hc, hq, ha, hd, hr, -⟩ := updateTime_spec h
  rw [hm] at hm'
  injection hm' with hm'
  subst hm'
  unfold Source.lanesAt
  simp only [sum_mask_zero]
  rw [hd, ha, hr, hk]
  by_cases h1 : ∀ i, z i + s.props.depth < 0
  · rw [if_pos h1, if_pos (Or.inl (by linarith [h1 i]))]
    exact (mask_eq_zero _).2 (h1 i)
  · rw [if_neg h1]
    by_cases h2 : ∀ i, 5 * s.props.radiusSq - rho2 i < 0
    · rw [if_pos h2, if_pos (Or.inr fun j => by rw [← hb.radiusSq]; linarith [h2 j])]
      exact (mask_eq_zero _).2 (h2 i)
    · rw [if_neg h2, coefficient_profile hb]
      have h2' : ¬ ∀ j, 5 * s.props.radius ^ 2 < rho2 j := by
        intro h3
        apply h2
        intro j
        have := h3 j
        rw [← hb.radiusSq] at this
        linarith
      by_cases h3 : z i < -s.props.depth
      · rw [if_pos (Or.inl h3), (mask_eq_zero _).2 (by linarith), zero_mul]
      · rw [if_neg (by rintro (h4 | h4); exacts [h3 h4, h2' h4])]
        unfold mask
        rw [if_neg (by linarith), one_mul]

end Verif.HeatSource
