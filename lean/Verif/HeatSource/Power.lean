import Verif.HeatSource.ValueProps
import Mathlib.Analysis.SpecialFunctions.Gaussian.GaussianIntegral
import Mathlib.MeasureTheory.Integral.IntervalIntegral.FundThmCalculus
import Mathlib.Analysis.SpecialFunctions.Integrals.Basic
import Mathlib.MeasureTheory.Measure.Haar.OfBasis
import Mathlib.MeasureTheory.Group.LIntegral

/-!
# C65: the total heat is the absorbed power
-/

namespace Verif.HeatSource

open Verif.Quat Verif.ScanPath MeasureTheory Set

/-- Triple integral of something below a product. -/
theorem triple_le (v : ℝ → ℝ → ℝ → ℝ) (E Z : ℝ → ℝ) (C : ℝ) (S : Set ℝ) (hS : MeasurableSet S)
    (hE : Integrable E) (hE0 : ∀ x, 0 ≤ E x) (hZ : IntegrableOn Z S) (hZ0 : ∀ z ∈ S, 0 ≤ Z z) (hC : 0 ≤ C)
    (hv : ∀ x y, ∀ z ∈ S, v x y z ≤ C * E x * E y * Z z) :
    ∫⁻ x, ∫⁻ y, ∫⁻ z in S, ENNReal.ofReal (v x y z) ≤
      ENNReal.ofReal (C * (∫ x, E x) * (∫ y, E y) * ∫ z in S, Z z) := by
  have eE : ∫⁻ x, ENNReal.ofReal (E x) = ENNReal.ofReal (∫ x, E x) :=
    (ofReal_integral_eq_lintegral_ofReal hE (Filter.Eventually.of_forall hE0)).symm
  have eZ : ∫⁻ z in S, ENNReal.ofReal (Z z) = ENNReal.ofReal (∫ z in S, Z z) :=
    (ofReal_integral_eq_lintegral_ofReal hZ ((ae_restrict_iff' hS).2 (Filter.Eventually.of_forall hZ0))).symm
  have iE : 0 ≤ ∫ x, E x := integral_nonneg hE0
  have iZ : 0 ≤ ∫ z in S, Z z := setIntegral_nonneg hS hZ0
  have h1 : ∀ x y, ∫⁻ z in S, ENNReal.ofReal (v x y z) ≤ ENNReal.ofReal ((C * E x * ∫ z in S, Z z) * E y) := by
    intro x y
    calc ∫⁻ z in S, ENNReal.ofReal (v x y z) ≤ ∫⁻ z in S, ENNReal.ofReal (C * E x * E y) * ENNReal.ofReal (Z z) := by
          refine setLIntegral_mono' hS fun z hz => ?_
          rw [← ENNReal.ofReal_mul (mul_nonneg (mul_nonneg hC (hE0 x)) (hE0 y))]
          exact ENNReal.ofReal_le_ofReal (hv x y z hz)
      _ = ENNReal.ofReal (C * E x * E y) * ENNReal.ofReal (∫ z in S, Z z) := by
          rw [lintegral_const_mul' _ _ ENNReal.ofReal_ne_top, eZ]
      _ = _ := by
          rw [← ENNReal.ofReal_mul (mul_nonneg (mul_nonneg hC (hE0 x)) (hE0 y))]
          congr 1
          ring
  have h2 : ∀ x, ∫⁻ y, ∫⁻ z in S, ENNReal.ofReal (v x y z) ≤
      ENNReal.ofReal ((C * (∫ y, E y) * ∫ z in S, Z z) * E x) := by
    intro x
    have hx : 0 ≤ C * E x * ∫ z in S, Z z := mul_nonneg (mul_nonneg hC (hE0 x)) iZ
    calc _ ≤ ∫⁻ y, ENNReal.ofReal ((C * E x * ∫ z in S, Z z) * E y) := lintegral_mono (h1 x)
      _ = ∫⁻ y, ENNReal.ofReal (C * E x * ∫ z in S, Z z) * ENNReal.ofReal (E y) := by
          congr 1; funext y; rw [ENNReal.ofReal_mul hx]
      _ = _ := by
          rw [lintegral_const_mul' _ _ ENNReal.ofReal_ne_top, eE, ← ENNReal.ofReal_mul hx]
          congr 1
          ring
  have hx : 0 ≤ C * (∫ y, E y) * ∫ z in S, Z z := mul_nonneg (mul_nonneg hC iE) iZ
  calc _ ≤ ∫⁻ x, ENNReal.ofReal ((C * (∫ y, E y) * ∫ z in S, Z z) * E x) := lintegral_mono h2
    _ = ∫⁻ x, ENNReal.ofReal (C * (∫ y, E y) * ∫ z in S, Z z) * ENNReal.ofReal (E x) := by
        congr 1; funext x; rw [ENNReal.ofReal_mul hx]
    _ = _ := by
        rw [lintegral_const_mul' _ _ ENNReal.ofReal_ne_top, eE, ← ENNReal.ofReal_mul hx]
        congr 1
        ring

/-! ## The factors -/

/-- Horizontal factor of the formula. -/
noncomputable def horizontal (k : Kind) (r x : ℝ) : ℝ :=
  match k with
  | .goldak => Real.exp (-(3 / r ^ 2) * x ^ 2)
  | .electronBeam => Real.exp (-(Real.log 10 / r ^ 2) * x ^ 2)

/-- Vertical factor of the formula. -/
noncomputable def vertical (k : Kind) (d z : ℝ) : ℝ :=
  match k with
  | .goldak => Real.exp (-(3 / d ^ 2) * z ^ 2)
  | .electronBeam => 1 - 2 * (z / d) - 3 * (z / d) ^ 2

/-- Constant factor of the formula. -/
noncomputable def constant (k : Kind) (etaP r d : ℝ) : ℝ :=
  match k with
  | .goldak => 2 * etaP / (r ^ 2 * d * (Real.pi / 3) ^ (3 / 2 : ℝ))
  | .electronBeam => etaP * Real.log 10 / (Real.pi * r ^ 2 * d)

theorem formula_factors (k : Kind) (etaP r d x y z : ℝ) :
    formula k etaP r d (x ^ 2 + y ^ 2) z =
      constant k etaP r d * horizontal k r x * horizontal k r y * vertical k d z := by
  cases k with
  | goldak =>
    simp only [formula, goldakFormula, constant, horizontal, vertical]
    rw [mul_assoc (_ / _), ← Real.exp_add, mul_assoc (_ / _), ← Real.exp_add]
    congr 2
    ring
  | electronBeam =>
    simp only [formula, electronBeamFormula, constant, horizontal, vertical]
    rw [mul_assoc (_ / _) (Real.exp _) (Real.exp _), ← Real.exp_add]
    congr 3
    ring

/-- The vertical extent of the formula below the beam: everything for Goldak, one depth for the electron beam. -/
def below (k : Kind) (d : ℝ) : Set ℝ :=
  match k with
  | .goldak => Iic 0
  | .electronBeam => Ioc (-d) 0

theorem horizontal_integrable (k : Kind) {r : ℝ} (hr : 0 < r) : Integrable (horizontal k r) := by
  cases k with
  | goldak => exact integrable_exp_neg_mul_sq (by positivity)
  | electronBeam =>
    have : 0 < Real.log 10 := Real.log_pos (by norm_num)
    exact integrable_exp_neg_mul_sq (by positivity)

theorem vertical_integrable (k : Kind) {d : ℝ} (hd : 0 < d) : IntegrableOn (vertical k d) (below k d) := by
  cases k with
  | goldak => exact (integrable_exp_neg_mul_sq (by positivity)).integrableOn
  | electronBeam =>
    have : Continuous (vertical .electronBeam d) := by
      show Continuous fun z => 1 - 2 * (z / d) - 3 * (z / d) ^ 2
      fun_prop
    exact (this.integrableOn_Icc (a := -d) (b := 0)).mono_set Ioc_subset_Icc_self

theorem vertical_nonneg (k : Kind) {d : ℝ} (hd : 0 < d) : ∀ z ∈ below k d, 0 ≤ vertical k d z := by
  intro z hz
  cases k with
  | goldak => exact (Real.exp_pos _).le
  | electronBeam =>
    obtain ⟨h1, h2⟩ := hz
    have h4 : -1 ≤ z / d := by rw [le_div_iff₀ hd]; linarith
    have h5 : z / d ≤ 0 := div_nonpos_of_nonpos_of_nonneg h2 hd.le
    show 0 ≤ 1 - 2 * (z / d) - 3 * (z / d) ^ 2
    nlinarith

theorem vertical_total_goldak {d : ℝ} (hd : 0 < d) :
    ∫ z in below .goldak d, vertical .goldak d z = Real.sqrt (Real.pi / (3 / d ^ 2)) / 2 := by
  show ∫ z in Iic 0, Real.exp (-(3 / d ^ 2) * z ^ 2) = _
  rw [← integral_gaussian_Ioi]
  have := integral_comp_neg_Iic 0 fun z => Real.exp (-(3 / d ^ 2) * z ^ 2)
  simp only [neg_sq, neg_zero] at this
  exact this

theorem vertical_total_electronBeam {d : ℝ} (hd : 0 < d) :
    ∫ z in below .electronBeam d, vertical .electronBeam d z = d := by
  show ∫ z in Ioc (-d) 0, (1 - 2 * (z / d) - 3 * (z / d) ^ 2) = _
  rw [← intervalIntegral.integral_of_le (by linarith)]
  have : ∀ z ∈ uIcc (-d) 0, HasDerivAt (fun z => z - z ^ 2 / d - z ^ 3 / d ^ 2)
      (1 - 2 * (z / d) - 3 * (z / d) ^ 2) z := by
    intro z _
    have h := (((hasDerivAt_id z).sub (((hasDerivAt_id z).pow 2).div_const d)).sub
      (((hasDerivAt_id z).pow 3).div_const (d ^ 2)))
    have e : (1 - 2 * (z / d) - 3 * (z / d) ^ 2) =
        1 - (2 : ℕ) * id z ^ (2 - 1) * 1 / d - (3 : ℕ) * id z ^ (3 - 1) * 1 / d ^ 2 := by
      simp only [id]
      push_cast
      field_simp
    rw [e]
    exact h
  rw [intervalIntegral.integral_eq_sub_of_hasDerivAt this]
  · field_simp
    ring
  · apply Continuous.intervalIntegrable
    fun_prop

theorem three_halves {x : ℝ} (hx : 0 ≤ x) : x ^ (3 / 2 : ℝ) = x * Real.sqrt x := by
  rw [Real.sqrt_eq_rpow, show (3 / 2 : ℝ) = 1 + 1 / 2 by norm_num]
  rcases hx.eq_or_lt with rfl | h
  · simp; norm_num
  · rw [Real.rpow_add h, Real.rpow_one]

/-- **C65**. The heat source formula integrates, over the half space below the beam, to the absorbed power
`absorption * max_power * power of the record`. -/
theorem C65_formula_total_power (k : Kind) (etaP r d : ℝ) (hr : 0 < r) (hd : 0 < d) :
    ∫ x, ∫ y, ∫ z in below k d, formula k etaP r d (x ^ 2 + y ^ 2) z = etaP := by
  have h : ∀ x y, ∫ z in below k d, formula k etaP r d (x ^ 2 + y ^ 2) z =
      constant k etaP r d * horizontal k r x * horizontal k r y * ∫ z in below k d, vertical k d z := by
    intro x y
    rw [← integral_const_mul]
    simp only [formula_factors]
  simp only [h]
  have h2 : ∀ x, ∫ y, constant k etaP r d * horizontal k r x * horizontal k r y * ∫ z in below k d, vertical k d z =
      constant k etaP r d * horizontal k r x * (∫ y, horizontal k r y) * ∫ z in below k d, vertical k d z := by
    intro x
    rw [integral_mul_const, integral_const_mul]
  simp only [h2]
  rw [integral_mul_const, integral_mul_const, integral_const_mul]
  have hpi := Real.pi_pos
  cases k with
  | goldak =>
    have e1 : ∫ x, horizontal .goldak r x = Real.sqrt (Real.pi / (3 / r ^ 2)) := integral_gaussian _
    rw [e1, vertical_total_goldak hd]
    have e2 : ∀ a : ℝ, 0 < a → Real.sqrt (Real.pi / (3 / a ^ 2)) = a * Real.sqrt (Real.pi / 3) := by
      intro a ha
      rw [show Real.pi / (3 / a ^ 2) = a ^ 2 * (Real.pi / 3) by field_simp, Real.sqrt_mul (by positivity),
        Real.sqrt_sq ha.le]
    rw [e2 r hr, e2 d hd]
    simp only [constant]
    rw [three_halves (by positivity)]
    have e3 : Real.sqrt (Real.pi / 3) ^ 2 = Real.pi / 3 := Real.sq_sqrt (by positivity)
    have e4 : Real.sqrt (Real.pi / 3) ≠ 0 := (Real.sqrt_pos.2 (by positivity)).ne'
    generalize hs : Real.sqrt (Real.pi / 3) = w at *
    rw [show Real.pi / 3 = w ^ 2 from e3.symm]
    field_simp
  | electronBeam =>
    have hl : 0 < Real.log 10 := Real.log_pos (by norm_num)
    have e1 : ∫ x, horizontal .electronBeam r x = Real.sqrt (Real.pi / (Real.log 10 / r ^ 2)) := integral_gaussian _
    rw [e1, vertical_total_electronBeam hd]
    have e3 : Real.sqrt (Real.pi / (Real.log 10 / r ^ 2)) ^ 2 = Real.pi / (Real.log 10 / r ^ 2) :=
      Real.sq_sqrt (by positivity)
    simp only [constant]
    rw [mul_assoc (_ / _) (Real.sqrt _) (Real.sqrt _), ← sq, e3]
    field_simp

/-- **C65**. The heat the source puts below the beam never exceeds the absorbed power (the code cuts the formula off at
`√5` radii and at one depth), for any position of the beam; scalar code, three-axis source.  The integral is the
Lebesgue integral of a non-negative function, so the statement does not depend on integrability. -/
theorem C65_total_power_at_most (s s' : Source) (t m : ℝ) (h : s.updateTime t = some s') (hb : s.props.Valid)
    (hm : (powerModifier s.path t).1 = .value m) (hm0 : 0 ≤ m) (c : Pt3 ℝ) (hc : BeamAt s t c)
    (h5 : s.fiveAxis = false) :
    ∫⁻ x, ∫⁻ y, ∫⁻ z in Iic c.z, ENNReal.ofReal ((s'.value3 ⟨x, y, z⟩).getD 0) ≤
      ENNReal.ofReal (s.props.absorption * s.props.maxPower * m) := by
  have h0 := mul_nonneg (mul_nonneg hb.absorption hb.power) hm0
  set e := s.props.absorption * s.props.maxPower * m with he
  have hpi := Real.pi_pos
  have hl : 0 < Real.log 10 := Real.log_pos (by norm_num)
  have hr := hb.radius
  have hd := hb.depth
  -- the value in coordinates relative to the beam
  have hval : ∀ x y z, (s'.value3 ⟨x, y, z⟩).getD 0 =
      s'.scalarAt ((x - c.x) ^ 2 + (y - c.y) ^ 2) (z - c.z) := by
    intro x y z
    rw [value3_eq h (r := ⟨x, y, z⟩) (Or.inl ⟨h5, rfl⟩) hc]
    rfl
  simp only [hval]
  -- translate
  have ez : ∀ x y : ℝ, ∫⁻ z in Iic c.z, ENNReal.ofReal (s'.scalarAt ((x - c.x) ^ 2 + (y - c.y) ^ 2) (z - c.z)) =
      ∫⁻ z in Iic 0, ENNReal.ofReal (s'.scalarAt ((x - c.x) ^ 2 + (y - c.y) ^ 2) z) := by
    intro x y
    rw [← lintegral_indicator measurableSet_Iic, ← lintegral_indicator measurableSet_Iic]
    have := lintegral_sub_right_eq_self (μ := volume)
      (fun z : ℝ => (Iic (0 : ℝ)).indicator
        (fun z => ENNReal.ofReal (s'.scalarAt ((x - c.x) ^ 2 + (y - c.y) ^ 2) z)) z) c.z
    rw [← this]
    congr 1
    funext z
    by_cases hz : z ≤ c.z
    · rw [indicator_of_mem (show z ∈ Iic c.z from hz),
        indicator_of_mem (show z - c.z ∈ Iic (0 : ℝ) from by simp only [mem_Iic]; linarith)]
    · rw [indicator_of_notMem (show z ∉ Iic c.z from hz),
        indicator_of_notMem (show z - c.z ∉ Iic (0 : ℝ) from by simp only [mem_Iic]; intro h; apply hz; linarith)]
  simp only [ez]
  have ey : ∀ x : ℝ, ∫⁻ y, ∫⁻ z in Iic 0, ENNReal.ofReal (s'.scalarAt ((x - c.x) ^ 2 + (y - c.y) ^ 2) z) =
      ∫⁻ y, ∫⁻ z in Iic 0, ENNReal.ofReal (s'.scalarAt ((x - c.x) ^ 2 + y ^ 2) z) := fun x =>
    lintegral_sub_right_eq_self (μ := volume)
      (fun y : ℝ => ∫⁻ z in Iic 0, ENNReal.ofReal (s'.scalarAt ((x - c.x) ^ 2 + y ^ 2) z)) c.y
  simp only [ey]
  rw [lintegral_sub_right_eq_self (μ := volume)
    (fun x : ℝ => ∫⁻ y, ∫⁻ z in Iic 0, ENNReal.ofReal (s'.scalarAt (x ^ 2 + y ^ 2) z)) c.x]
  -- bound by the product
  have key : ∫⁻ x, ∫⁻ y, ∫⁻ z in Iic 0, ENNReal.ofReal (s'.scalarAt (x ^ 2 + y ^ 2) z) ≤
      ENNReal.ofReal (constant s.kind e s.props.radius s.props.depth * (∫ x, horizontal s.kind s.props.radius x) *
        (∫ y, horizontal s.kind s.props.radius y) *
        ∫ z in Iic 0, (below s.kind s.props.depth).indicator (vertical s.kind s.props.depth) z) := by
    have hmeas : MeasurableSet (below s.kind s.props.depth) := by
      cases s.kind
      · exact measurableSet_Iic
      · exact measurableSet_Ioc
    refine triple_le _ _ _ _ _ measurableSet_Iic (horizontal_integrable _ hr) (fun x => ?_) ?_ ?_ ?_ ?_
    · cases s.kind <;> exact (Real.exp_pos _).le
    · exact ((integrable_indicator_iff hmeas).2 (vertical_integrable _ hd)).integrableOn
    · intro z _
      exact indicator_nonneg (vertical_nonneg _ hd) z
    · cases s.kind <;> simp only [constant] <;> positivity
    · intro x y z hz
      rw [scalarAt_eq h hb hm]
      have hH : ∀ a, 0 ≤ horizontal s.kind s.props.radius a := by
        intro a; cases s.kind <;> exact (Real.exp_pos _).le
      have hC : 0 ≤ constant s.kind e s.props.radius s.props.depth := by
        cases s.kind <;> simp only [constant] <;> positivity
      have hV : 0 ≤ (below s.kind s.props.depth).indicator (vertical s.kind s.props.depth) z :=
        indicator_nonneg (vertical_nonneg _ hd) z
      split
      · exact mul_nonneg (mul_nonneg (mul_nonneg hC (hH x)) (hH y)) hV
      · rename_i hn
        rw [not_or, not_lt] at hn
        rw [formula_factors]
        refine mul_le_mul_of_nonneg_left ?_ (mul_nonneg (mul_nonneg hC (hH x)) (hH y))
        by_cases hzb : z ∈ below s.kind s.props.depth
        · rw [indicator_of_mem hzb]
        · rw [indicator_of_notMem hzb]
          -- only the electron beam at exactly one depth, where the parabola vanishes
          cases hk : s.kind with
          | goldak => rw [hk] at hzb; exact absurd hz hzb
          | electronBeam =>
            rw [hk] at hzb
            have hz0 : z ≤ 0 := hz
            have hz1 : z = -s.props.depth := by
              by_contra hne
              exact hzb ⟨lt_of_le_of_ne hn.1 (Ne.symm hne), hz0⟩
            show 1 - 2 * (z / s.props.depth) - 3 * (z / s.props.depth) ^ 2 ≤ 0
            rw [hz1, neg_div, div_self hd.ne']
            norm_num
  refine key.trans (le_of_eq ?_)
  congr 1
  have := C65_formula_total_power s.kind e s.props.radius s.props.depth hr hd
  refine Eq.trans ?_ this
  have hsub : Iic 0 ∩ below s.kind s.props.depth = below s.kind s.props.depth := by
    cases s.kind
    · exact inter_self _
    · exact inter_eq_right.2 fun z hz => hz.2
  have hmeas : MeasurableSet (below s.kind s.props.depth) := by
    cases s.kind
    · exact measurableSet_Iic
    · exact measurableSet_Ioc
  rw [setIntegral_indicator hmeas, hsub]
  simp only [formula_factors]
  have h3 : ∀ x y : ℝ, ∫ z in below s.kind s.props.depth, constant s.kind e s.props.radius s.props.depth *
      horizontal s.kind s.props.radius x * horizontal s.kind s.props.radius y * vertical s.kind s.props.depth z =
      constant s.kind e s.props.radius s.props.depth * horizontal s.kind s.props.radius x *
        horizontal s.kind s.props.radius y * ∫ z in below s.kind s.props.depth, vertical s.kind s.props.depth z :=
    fun x y => integral_const_mul _ _
  simp only [h3]
  simp only [integral_mul_const, integral_const_mul]

end Verif.HeatSource
