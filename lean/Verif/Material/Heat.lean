import Verif.Material.Phase
import Mathlib.MeasureTheory.Integral.IntervalIntegral.Basic
import Mathlib.MeasureTheory.Measure.Lebesgue.Basic
import Mathlib.Data.Matrix.Mul
import Mathlib.LinearAlgebra.Matrix.Notation
import Mathlib.LinearAlgebra.Matrix.Trace
import Mathlib.Tactic.FinCases
import Mathlib.Tactic.Positivity

/-!
# C35, C36, C37, C39: latent heat, radiation, cell average and conductivity
-/

namespace Verif.Material

open MeasureTheory

/-! ## C35: latent heat -/

/-- The latent-heat part of the specific heat on the device, `source/ThermalOperatorDevice.templates.hh:266-273`. -/
noncomputable def deviceExtra (m : Melt) (latent : ℝ) (r : Ratios) : ℝ :=
  if 0 < r.liquid ∧ r.liquid < 1 then latent / (m.liquidus - m.solidus) else 0

/-- The latent-heat part of the specific heat in `MaterialProperty::update`,
`source/MaterialProperty.templates.hh:396-411`: a sum over the states. -/
noncomputable def updateExtra (m : Melt) (latent : ℝ) (r : Ratios) : ℝ :=
  if 0 < r.liquid ∧ r.liquid < 1 then
    0 + r.solid * latent / (m.liquidus - m.solidus) + r.liquid * latent / (m.liquidus - m.solidus) +
      r.powder * latent / (m.liquidus - m.solidus)
  else 0

/-- The latent-heat part of the specific heat on the host, `source/ThermalOperator.templates.hh:462-473` (`is_mushy`). -/
noncomputable def hostExtra (m : Melt) (latent : ℝ) (r : Ratios) : ℝ :=
  if 0 < r.liquid * r.solid then latent / (m.liquidus - m.solidus) else 0

/-- The ratios of a point at temperature `T` when it is heated monotonically and its powder ratio was `p` before:
one update with the liquid ratio at `T` (see `heating` for the history). -/
noncomputable def atTemperature (k : Kind) (m : Melt) (p T : ℝ) : Ratios := phase k p ((liquidRatio m T).getD 0)

/-- Along any heating history the powder ratio at the current temperature is that of a single update from the start: the
integrands below do not depend on the intermediate steps. -/
theorem heating (k : Kind) (m : Melt) (h : m.solidus < m.liquidus) (p T T' : ℝ) (hp : 0 ≤ p) (hT : T ≤ T') :
    phase k (atTemperature k m p T).powder ((liquidRatio m T').getD 0) = atTemperature k m p T' := by
  obtain ⟨f, hf, law⟩ := C32_mushy_law_partial m h
  unfold atTemperature
  rw [hf, hf]
  simp only [Option.getD_some]
  have hmono := law.monotone T T' hT
  cases k with
  | solid => rfl
  | solidLiquid => rfl
  | solidLiquidPowder =>
    have : min (1 - f T') (min (1 - f T) p) = min (1 - f T') p := by
      rw [← min_assoc, min_eq_left (by linarith : 1 - f T' ≤ 1 - f T)]
    simp only [phase, this]

theorem integral_bump (a b s e c : ℝ) (h1 : a ≤ s) (h2 : s ≤ e) (h3 : e ≤ b) (f : ℝ → ℝ)
    (hf : ∀ T, f T = if s < T ∧ T < e then c else 0) : ∫ T in a..b, f T = c * (e - s) := by
  have hfe : f = Set.indicator (Set.Ioo s e) fun _ => c := by
    funext T
    rw [hf]
    by_cases h : T ∈ Set.Ioo s e
    · rw [Set.indicator_of_mem h, if_pos (show s < T ∧ T < e from h)]
    · rw [Set.indicator_of_notMem h, if_neg (show ¬ (s < T ∧ T < e) from h)]
  rw [hfe, intervalIntegral.integral_of_le (by linarith), setIntegral_indicator measurableSet_Ioo]
  have : Set.Ioc a b ∩ Set.Ioo s e = Set.Ioo s e := by
    apply Set.inter_eq_right.2
    intro T hT
    exact ⟨lt_of_le_of_lt h1 hT.1, (hT.2.trans_le h3).le⟩
  rw [this, setIntegral_const]
  simp only [Measure.real, Real.volume_Ioo, smul_eq_mul]
  rw [ENNReal.toReal_ofReal (by linarith)]
  ring

theorem liquid_inside (m : Melt) (h : m.solidus < m.liquidus) (T x : ℝ) (hx1 : x ≤ 1) :
    (0 < (liquidRatio m T).getD 0 ∧ (liquidRatio m T).getD 0 < x) ↔
      m.solidus < T ∧ T < m.solidus + x * (m.liquidus - m.solidus) := by
  have hd : 0 < m.liquidus - m.solidus := by linarith
  unfold liquidRatio
  split_ifs with h1 h2 h3
  · simp; intro h; linarith
  · have := mul_le_mul_of_nonneg_right hx1 hd.le
    simp only [Option.getD_some]
    constructor
    · intro h; linarith [h.2]
    · intro h; linarith [h.2]
  · exact absurd h3 hd.ne'
  · simp only [Option.getD_some]
    constructor
    · rintro ⟨g1, g2⟩
      rw [div_lt_iff₀ hd] at g2
      have := (div_pos_iff_of_pos_right hd).1 g1
      constructor <;> linarith
    · rintro ⟨g1, g2⟩
      exact ⟨div_pos (by linarith) hd, by rw [div_lt_iff₀ hd]; linarith⟩

/-- **C35** for the device code: heating a point of any material that can melt, with any initial powder ratio, from below the
solidus to above the liquidus absorbs exactly the latent heat. -/
theorem C35_device (k : Kind) (hk : k ≠ .solid) (m : Melt) (h : m.solidus < m.liquidus) (latent p a b : ℝ)
    (ha : a ≤ m.solidus) (hb : m.liquidus ≤ b) :
    ∫ T in a..b, deviceExtra m latent (atTemperature k m p T) = latent := by
  have hd : 0 < m.liquidus - m.solidus := by linarith
  have hliq : ∀ T, (atTemperature k m p T).liquid = (liquidRatio m T).getD 0 := by
    intro T
    cases k with
    | solid => exact absurd rfl hk
    | solidLiquid => rfl
    | solidLiquidPowder => rfl
  rw [integral_bump a b m.solidus m.liquidus (latent / (m.liquidus - m.solidus)) ha h.le hb]
  · field_simp
  · intro T
    unfold deviceExtra
    rw [hliq]
    have := liquid_inside m h T 1 le_rfl
    rw [one_mul, add_sub_cancel] at this
    simp only [this]

/-- **C35** for `MaterialProperty::update`. -/
theorem C35_update (k : Kind) (hk : k ≠ .solid) (m : Melt) (h : m.solidus < m.liquidus) (latent p a b : ℝ) (hp : 0 ≤ p)
    (ha : a ≤ m.solidus) (hb : m.liquidus ≤ b) :
    ∫ T in a..b, updateExtra m latent (atTemperature k m p T) = latent := by
  refine Eq.trans ?_ (C35_device k hk m h latent p a b ha hb)
  congr 1
  funext T
  unfold updateExtra deviceExtra
  split_ifs with hm
  · have hs : (atTemperature k m p T).solid + (atTemperature k m p T).liquid + (atTemperature k m p T).powder = 1 := by
      obtain ⟨f, hf, law⟩ := C32_mushy_law_partial m h
      refine (phase_partition k p _ hp ?_).sum
      have := liquidRatio_mem m T (f T) (hf T)
      rw [hf]; exact this
    have : 0 + (atTemperature k m p T).solid * latent / (m.liquidus - m.solidus) +
        (atTemperature k m p T).liquid * latent / (m.liquidus - m.solidus) +
        (atTemperature k m p T).powder * latent / (m.liquidus - m.solidus) =
        ((atTemperature k m p T).solid + (atTemperature k m p T).liquid + (atTemperature k m p T).powder) *
          (latent / (m.liquidus - m.solidus)) := by ring
    rw [this, hs, one_mul]
  · rfl

theorem host_integral (m : Melt) (h : m.solidus < m.liquidus) (latent p a b : ℝ) (hp : 0 ≤ p ∧ p ≤ 1)
    (ha : a ≤ m.solidus) (hb : m.liquidus ≤ b) :
    ∫ T in a..b, hostExtra m latent (atTemperature .solidLiquidPowder m p T) = latent * (1 - p) := by
  have hd : 0 < m.liquidus - m.solidus := by linarith
  rw [integral_bump a b m.solidus (m.solidus + (1 - p) * (m.liquidus - m.solidus))
    (latent / (m.liquidus - m.solidus)) ha]
  · field_simp
    ring
  · have := mul_nonneg (by linarith : (0 : ℝ) ≤ 1 - p) hd.le
    linarith
  · have := mul_le_mul_of_nonneg_right (by linarith : 1 - p ≤ 1) hd.le
    linarith
  · intro T
    unfold hostExtra atTemperature
    rw [show ((phase .solidLiquidPowder p ((liquidRatio m T).getD 0)).liquid) = (liquidRatio m T).getD 0 from rfl]
    have key : 0 < (liquidRatio m T).getD 0 * (phase .solidLiquidPowder p ((liquidRatio m T).getD 0)).solid ↔
        m.solidus < T ∧ T < m.solidus + (1 - p) * (m.liquidus - m.solidus) := by
      rw [← liquid_inside m h T (1 - p) (by linarith)]
      have hl0 : 0 ≤ (liquidRatio m T).getD 0 := by
        obtain ⟨f, hf, _⟩ := C32_mushy_law_partial m h
        rw [hf]; exact (liquidRatio_mem m T (f T) (hf T)).1
      set l := (liquidRatio m T).getD 0
      have hsol : (phase .solidLiquidPowder p l).solid = 1 - l - min (1 - l) p := rfl
      rw [hsol]
      have hs0 : 0 ≤ 1 - l - min (1 - l) p := by have := min_le_left (1 - l) p; linarith
      constructor
      · intro hpos
        have hl : 0 < l := lt_of_le_of_ne hl0 (fun e => by rw [← e, zero_mul] at hpos; exact lt_irrefl _ hpos)
        refine ⟨hl, ?_⟩
        by_contra hle
        have : min (1 - l) p = 1 - l := min_eq_left (by linarith)
        rw [this, sub_self, mul_zero] at hpos
        exact lt_irrefl _ hpos
      · rintro ⟨g1, g2⟩
        have : min (1 - l) p = p := min_eq_right (by linarith)
        rw [this]
        exact mul_pos g1 (by linarith)
    simp only [key]

/-- **C35** for the host code, for material without powder: exactly the latent heat is absorbed. -/
theorem C35_host_partial (m : Melt) (h : m.solidus < m.liquidus) (latent a b : ℝ)
    (ha : a ≤ m.solidus) (hb : m.liquidus ≤ b) :
    ∫ T in a..b, hostExtra m latent (atTemperature .solidLiquidPowder m 0 T) = latent ∧
    ∫ T in a..b, hostExtra m latent (atTemperature .solidLiquid m 0 T) = latent := by
  have h0 := host_integral m h latent 0 a b ⟨le_refl _, zero_le_one⟩ ha hb
  rw [sub_zero, mul_one] at h0
  refine ⟨h0, ?_⟩
  refine Eq.trans ?_ h0
  congr 1
  funext T
  have : atTemperature .solidLiquid m 0 T = atTemperature .solidLiquidPowder m 0 T := by
    obtain ⟨f, hf, _⟩ := C32_mushy_law_partial m h
    have := liquidRatio_mem m T (f T) (hf T)
    simp only [atTemperature, hf, Option.getD_some, phase]
    rw [min_eq_right (by linarith [this.2])]
    simp
  rw [this]

/-- **C35 fails on the host for powder.**  Melting a point with powder ratio `p` absorbs only `(1 - p)` of the latent heat
(nothing for fresh powder), while the same point releases all of it when it solidifies: a melt-solidify cycle creates energy. -/
theorem C35_host_powder_refuted (m : Melt) (h : m.solidus < m.liquidus) (latent p a b : ℝ) (hL : 0 < latent)
    (hp : 0 < p ∧ p ≤ 1) (ha : a ≤ m.solidus) (hb : m.liquidus ≤ b) :
    (∫ T in a..b, hostExtra m latent (atTemperature .solidLiquidPowder m p T)) = latent * (1 - p) ∧
    (∫ T in a..b, hostExtra m latent (atTemperature .solidLiquidPowder m p T)) < latent ∧
    (∫ T in a..b, hostExtra m latent (atTemperature .solidLiquidPowder m 0 T)) = latent := by
  have h1 := host_integral m h latent p a b ⟨hp.1.le, hp.2⟩ ha hb
  refine ⟨h1, ?_, (C35_host_partial m h latent a b ha hb).1⟩
  rw [h1]
  have := mul_pos hL hp.1
  linarith

example : (⟨1600, 1700⟩ : Melt).solidus < (⟨1600, 1700⟩ : Melt).liquidus ∧ (300 : ℝ) ≤ (⟨1600, 1700⟩ : Melt).solidus ∧
    (⟨1600, 1700⟩ : Melt).liquidus ≤ 2000 := by norm_num

/-! ## C36: radiation and convection -/

/-- `Constant::stefan_boltzmann`, `source/types.hh:158`. -/
noncomputable def stefanBoltzmann : ℝ := 5.670374419e-8

/-- The radiative coefficient, `source/MaterialProperty.templates.hh:432-434`, `:530-532`,
`source/ThermalOperator.templates.hh:731-738`. -/
noncomputable def radiativeCoef (emissivity T Tinf : ℝ) : ℝ :=
  emissivity * stefanBoltzmann * (T + Tinf) * (T * T + Tinf * Tinf)

/-- The value submitted on a face, `source/ThermalOperator.templates.hh:676-744`, for one lane; `conv`, `rad` are the two bits
of the boundary type. -/
noncomputable def boundaryValue (conv rad : Bool) (invRhoCp convCoef convTinf emissivity radTinf T : ℝ) : ℝ :=
  let hc := if conv then convCoef else 0
  let tc := if conv then convTinf else 0
  let hr := if rad then radiativeCoef emissivity T radTinf else 0
  let tr := if rad then radTinf else 0;
  -invRhoCp * (hc * (T - tc) + hr * (T - tr))

/-- **C36.**  The radiative coefficient times the temperature difference is the Stefan-Boltzmann law; the flux vanishes at the
ambient temperature, and for positive emissivity and ambient temperature a hotter surface loses heat and a colder one (of
non-negative temperature) gains heat. -/
theorem C36_stefan_boltzmann (emissivity T Tinf : ℝ) :
    radiativeCoef emissivity T Tinf * (T - Tinf) = emissivity * 5.670374419e-8 * (T ^ 4 - Tinf ^ 4) ∧
    radiativeCoef emissivity Tinf Tinf * (Tinf - Tinf) = 0 ∧
    (0 < emissivity → 0 < Tinf → 0 ≤ T →
      (Tinf < T → 0 < radiativeCoef emissivity T Tinf * (T - Tinf)) ∧
      (T < Tinf → radiativeCoef emissivity T Tinf * (T - Tinf) < 0)) := by
  refine ⟨by unfold radiativeCoef stefanBoltzmann; ring, by simp, fun he hi hT => ?_⟩
  have hc : 0 < radiativeCoef emissivity T Tinf := by
    unfold radiativeCoef stefanBoltzmann
    have h1 : 0 < T + Tinf := by linarith
    have h2 : 0 < T * T + Tinf * Tinf := by have := mul_pos hi hi; have := mul_self_nonneg T; linarith
    have h3 : (0 : ℝ) < 5.670374419e-8 := by norm_num
    exact mul_pos (mul_pos (mul_pos he h3) h1) h2
  exact ⟨fun h => mul_pos hc (by linarith), fun h => mul_neg_of_pos_of_neg hc (by linarith)⟩

/-- **C36**, the value applied on a face: it is minus `1/(ρ c_p)` times the sum of Newton's law on convective boundaries and the
Stefan-Boltzmann law on radiative ones, each only where requested; on an adiabatic boundary nothing is exchanged, and in
equilibrium with the surroundings nothing is exchanged. -/
theorem C36_boundary_value (conv rad : Bool) (invRhoCp convCoef convTinf emissivity radTinf T : ℝ) :
    boundaryValue conv rad invRhoCp convCoef convTinf emissivity radTinf T =
      -invRhoCp * ((if conv then convCoef * (T - convTinf) else 0) +
        (if rad then emissivity * 5.670374419e-8 * (T ^ 4 - radTinf ^ 4) else 0)) ∧
    boundaryValue conv rad invRhoCp convCoef T emissivity T T = 0 := by
  cases conv <;> cases rad <;> simp [boundaryValue, (C36_stefan_boltzmann emissivity T radTinf).1]

/-! ## C37: the cell average of the temperature -/

/-- `internal::compute_average` for a cell with material, `source/MaterialProperty.templates.hh:61-71`: the double loop over
quadrature points and degrees of freedom. -/
noncomputable def computeAverage {nq nd : ℕ} (shape : Fin nd → Fin nq → ℝ) (jxw : Fin nq → ℝ) (T : Fin nd → ℝ) : ℝ :=
  (∑ q, ∑ i, shape i q * T i * jxw q) / (∑ q, ∑ i, shape i q * jxw q)

/-- **C37.**  The average is a weighted mean of the nodal temperatures (weights summing to one), so it preserves constants;
when shape functions and quadrature weights are non-negative it lies between any bounds of the nodal temperatures. -/
theorem C37_weighted_mean {nq nd : ℕ} (shape : Fin nd → Fin nq → ℝ) (jxw : Fin nq → ℝ)
    (hvol : (∑ q, ∑ i, shape i q * jxw q) ≠ 0) :
    (∃ w : Fin nd → ℝ, ∑ i, w i = 1 ∧ ∀ T, computeAverage shape jxw T = ∑ i, w i * T i) ∧
    (∀ c : ℝ, computeAverage shape jxw (fun _ => c) = c) ∧
    ((∀ i q, 0 ≤ shape i q) → (∀ q, 0 ≤ jxw q) → ∀ (T : Fin nd → ℝ) (lo hi : ℝ),
      (∀ i, lo ≤ T i ∧ T i ≤ hi) → lo ≤ computeAverage shape jxw T ∧ computeAverage shape jxw T ≤ hi) := by
  have hconst : ∀ c : ℝ, (∑ q, ∑ i, shape i q * c * jxw q) = c * ∑ q, ∑ i, shape i q * jxw q := by
    intro c
    rw [Finset.mul_sum]
    refine Finset.sum_congr rfl fun q _ => ?_
    rw [Finset.mul_sum]
    exact Finset.sum_congr rfl fun i _ => by ring
  refine ⟨⟨fun i => (∑ q, shape i q * jxw q) / ∑ q, ∑ i, shape i q * jxw q, ?_, fun T => ?_⟩, fun c => ?_, ?_⟩
  · rw [← Finset.sum_div, Finset.sum_comm, div_self hvol]
  · unfold computeAverage
    rw [Finset.sum_comm, Finset.sum_div]
    refine Finset.sum_congr rfl fun i _ => ?_
    rw [div_mul_eq_mul_div, Finset.sum_mul]
    congr 1
    exact Finset.sum_congr rfl fun q _ => by ring
  · unfold computeAverage
    rw [hconst, mul_div_assoc, div_self hvol, mul_one]
  · intro hs hj T lo hi hT
    have hpos : 0 < ∑ q, ∑ i, shape i q * jxw q :=
      lt_of_le_of_ne (Finset.sum_nonneg fun q _ => Finset.sum_nonneg fun i _ => mul_nonneg (hs i q) (hj q)) hvol.symm
    unfold computeAverage
    rw [le_div_iff₀ hpos, div_le_iff₀ hpos, ← hconst, ← hconst]
    constructor
    · refine Finset.sum_le_sum fun q _ => Finset.sum_le_sum fun i _ => ?_
      exact mul_le_mul_of_nonneg_right (mul_le_mul_of_nonneg_left (hT i).1 (hs i q)) (hj q)
    · refine Finset.sum_le_sum fun q _ => Finset.sum_le_sum fun i _ => ?_
      exact mul_le_mul_of_nonneg_right (mul_le_mul_of_nonneg_left (hT i).2 (hs i q)) (hj q)

/-- A linear element with two nodes and the midpoint rule: the average is the mean of the nodal temperatures. -/
example : computeAverage (nq := 1) (nd := 2) (fun _ _ => 1 / 2) (fun _ => 3) ![300, 500] = 400 := by
  norm_num [computeAverage, Fin.sum_univ_two]

/-! ## C39: conductivity -/

/-- The three-dimensional conductivity applied to the temperature gradient `g`,
`source/ThermalOperator.templates.hh:554-593`, `source/ThermalOperatorDevice.templates.hh:365-393`. -/
noncomputable def conductivityGrad (kx ky kz cos sin : ℝ) (g : Fin 3 → ℝ) : Fin 3 → ℝ :=
  ![(kx * cos * cos + ky * sin * sin) * g 0 + ((kx - ky) * sin * cos) * g 1,
    ((kx - ky) * sin * cos) * g 0 + (kx * sin * sin + ky * cos * cos) * g 1,
    g 2 * kz]

/-- The rotation by the deposition angle about the vertical axis. -/
noncomputable def rotZ (cos sin : ℝ) : Matrix (Fin 3) (Fin 3) ℝ :=
  !![cos, -sin, 0; sin, cos, 0; 0, 0, 1]

/-- The tensor of the property. -/
noncomputable def conductivityTensor (kx ky kz cos sin : ℝ) : Matrix (Fin 3) (Fin 3) ℝ :=
  rotZ cos sin * Matrix.diagonal ![kx, ky, kz] * (rotZ cos sin).transpose

theorem conductivityTensor_eq (kx ky kz cos sin : ℝ) :
    conductivityTensor kx ky kz cos sin =
      !![kx * cos * cos + ky * sin * sin, (kx - ky) * sin * cos, 0;
         (kx - ky) * sin * cos, kx * sin * sin + ky * cos * cos, 0; 0, 0, kz] := by
  ext i j
  fin_cases i <;> fin_cases j <;>
    simp [conductivityTensor, rotZ, Matrix.mul_apply, Matrix.mul_diagonal, Matrix.vecMul_diagonal, Fin.sum_univ_three] <;> ring

/-- **C39.**  For every deposition orientation the code applies `R diag(k) Rᵀ` to the gradient. The tensor is symmetric, for
non-negative conductivities the heat flux never points up the gradient (`g · K g ≥ 0`, and `≥ k_min |g|²`), its trace is
`kx + ky + kz`, and it does not depend on the orientation when `kx = ky`. -/
theorem C39_conductivity (kx ky kz cos sin : ℝ) (hcs : cos ^ 2 + sin ^ 2 = 1) :
    (∀ g, conductivityGrad kx ky kz cos sin g = (conductivityTensor kx ky kz cos sin).mulVec g) ∧
    (conductivityTensor kx ky kz cos sin).IsSymm ∧
    (∀ (kmin : ℝ), kmin ≤ kx → kmin ≤ ky → kmin ≤ kz → ∀ g : Fin 3 → ℝ,
      kmin * (g 0 ^ 2 + g 1 ^ 2 + g 2 ^ 2) ≤ ∑ i, g i * conductivityGrad kx ky kz cos sin g i) ∧
    (conductivityTensor kx ky kz cos sin).trace = kx + ky + kz ∧
    (kx = ky → conductivityTensor kx ky kz cos sin = Matrix.diagonal ![kx, kx, kz]) := by
  refine ⟨fun g => ?_, ?_, fun kmin h1 h2 h3 g => ?_, ?_, ?_⟩
  · rw [conductivityTensor_eq]
    funext i
    fin_cases i <;> simp [conductivityGrad, Matrix.mulVec, dotProduct, Fin.sum_univ_three]
    ring
  · rw [conductivityTensor_eq]
    ext i j
    fin_cases i <;> fin_cases j <;> simp [Matrix.transpose]
  · simp only [Fin.sum_univ_three, conductivityGrad]
    simp only [Matrix.cons_val_zero, Matrix.cons_val_one, Matrix.cons_val]
    have e : g 0 * ((kx * cos * cos + ky * sin * sin) * g 0 + (kx - ky) * sin * cos * g 1) +
        g 1 * ((kx - ky) * sin * cos * g 0 + (kx * sin * sin + ky * cos * cos) * g 1) + g 2 * (g 2 * kz) =
        kx * (cos * g 0 + sin * g 1) ^ 2 + ky * (-sin * g 0 + cos * g 1) ^ 2 + kz * g 2 ^ 2 := by ring
    have e2 : g 0 ^ 2 + g 1 ^ 2 + g 2 ^ 2 =
        (cos * g 0 + sin * g 1) ^ 2 + (-sin * g 0 + cos * g 1) ^ 2 + g 2 ^ 2 := by
      have : (cos * g 0 + sin * g 1) ^ 2 + (-sin * g 0 + cos * g 1) ^ 2 + g 2 ^ 2 =
        (cos ^ 2 + sin ^ 2) * (g 0 ^ 2 + g 1 ^ 2) + g 2 ^ 2 := by ring
      rw [this, hcs]; ring
    rw [e, e2]
    nlinarith [mul_nonneg (sub_nonneg.2 h1) (sq_nonneg (cos * g 0 + sin * g 1)),
      mul_nonneg (sub_nonneg.2 h2) (sq_nonneg (-sin * g 0 + cos * g 1)), mul_nonneg (sub_nonneg.2 h3) (sq_nonneg (g 2))]
  · rw [conductivityTensor_eq]
    simp only [Matrix.trace, Matrix.diag, Fin.sum_univ_three]
    simp
    linear_combination (kx + ky) * hcs
  · rintro rfl
    rw [conductivityTensor_eq]
    have h1 : kx * cos * cos + kx * sin * sin = kx := by linear_combination kx * hcs
    have h2 : kx * sin * sin + kx * cos * cos = kx := by linear_combination kx * hcs
    ext i j
    fin_cases i <;> fin_cases j <;> simp [h1, h2, Matrix.diagonal]

example : (3 / 5 : ℝ) ^ 2 + (4 / 5) ^ 2 = 1 := by norm_num

end Verif.Material
