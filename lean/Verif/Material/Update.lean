import Verif.Material.FillAccept
import Verif.Material.Heat

/-!
# C104: the property values of a cell

Model of `MaterialProperty::update` and `MaterialProperty::update_boundary_material_properties`,
`source/MaterialProperty.templates.hh:247-545`, for one cell of material `m` with average temperature `T`, on top of the views
filled by `fill_properties`.
-/

namespace Verif.Material.Fill

open Verif.Input

/-- `_state(material_state, dof)`. -/
def ratioOf (r : Ratios) : ℕ → ℝ
  | 0 => r.solid
  | 1 => r.liquid
  | 2 => r.powder
  | _ => 0

/-- The loop over the states (and coefficients) for one property, `source/MaterialProperty.templates.hh:357-397`, `:467-508`. -/
noncomputable def mixture (c : Config) (r : Filled) (m : ℕ) (x : Ratios) (T : ℝ) (p : ℕ) : ℝ :=
  if r.useTable then
    (List.range c.nStates).foldl (fun v st => v + ratioOf x st * lookup c.tableSize (r.store.table m p st) T) 0
  else looped c.pOrder c.nStates (fun st i => r.store.poly m p st i) (ratioOf x) fun i => T ^ i

/-- `_property_values(·, dof)` after the loop `for (property = first; property < g_n_thermal_state_properties; ++property)` on a
zero view. -/
noncomputable def valuesFrom (first : ℕ) (c : Config) (r : Filled) (m : ℕ) (x : Ratios) (T : ℝ) : ℕ → ℝ := fun p =>
  if first ≤ p ∧ p < nThermal then mixture c r m x T p else 0

open Classical in
/-- The latent heat in the mushy zone, `source/MaterialProperty.templates.hh:399-420`; property 1 is the specific heat, constants
0, 1 and 2 are liquidus, solidus and latent heat. -/
noncomputable def addLatent (c : Config) (k : Kind) (r : Filled) (m : ℕ) (x : Ratios) (v : ℕ → ℝ) : ℕ → ℝ :=
  if k ≠ .solid ∧ 0 < x.liquid ∧ x.liquid < 1 then
    Function.update v 1 ((List.range c.nStates).foldl
      (fun w st => w + ratioOf x st * r.constant m 2 / (r.constant m 0 - r.constant m 1)) (v 1))
  else v

open Classical in
/-- The radiative coefficient, `source/MaterialProperty.templates.hh:422-443`, `:510-532`; property 6, from the emissivity
(property 5) and the constant 3, unless the ambient temperature is missing. -/
noncomputable def addRadiation (c : Config) (r : Filled) (m : ℕ) (T : ℝ) (v : ℕ → ℝ) : ℕ → ℝ :=
  if r.constant m 3 ≠ c.maxDouble then Function.update v 6 (radiativeCoef (v 5) T (r.constant m 3)) else v

/-- `update` for one cell with the old ratios `s`: the new ratios and the property values; `none` is the NaN of C32. -/
noncomputable def update (c : Config) (k : Kind) (r : Filled) (m : ℕ) (s : Ratios) (T : ℝ) : Option (Ratios × (ℕ → ℝ)) :=
  (updateCell k ⟨r.constant m 1, r.constant m 0⟩ s T).map fun x =>
    (x, addRadiation c r m T (addLatent c k r m x (valuesFrom 0 c r m x T)))

/-- `update_boundary_material_properties` for one cell: the ratios stay, the values start at property 3. -/
noncomputable def updateBoundary (c : Config) (r : Filled) (m : ℕ) (s : Ratios) (T : ℝ) : ℕ → ℝ :=
  addRadiation c r m T (valuesFrom 3 c r m s T)

/-! ## Specification -/

/-- `n_material_states`, `source/MaterialStates.hh`. -/
def statesOf : Kind → ℕ
  | .solid => 1
  | .solidLiquid => 2
  | .solidLiquidPowder => 3

/-- The mean of the values of the states, weighted with the fractions of the cell. -/
noncomputable def mean (k : Kind) (x : Ratios) (value : ℕ → ℝ) : ℝ :=
  match k with
  | .solid => x.solid * value 0
  | .solidLiquid => x.solid * value 0 + x.liquid * value 1
  | .solidLiquidPowder => x.solid * value 0 + x.liquid * value 1 + x.powder * value 2

theorem mixture_eq (c : Config) (k : Kind) (hk : c.nStates = statesOf k) (r : Filled) (m : ℕ) (x : Ratios) (T : ℝ) (p : ℕ) :
    mixture c r m x T p = mean k x fun st => r.thermal c m p st T := by
  unfold mixture
  cases hu : r.useTable with
  | true =>
    simp only [if_true]
    rw [foldl_add, zero_add, hk]
    cases k <;> simp [statesOf, Finset.sum_range_succ, mean, ratioOf, Filled.thermal, hu]
  | false =>
    simp only [Bool.false_eq_true, if_false]
    rw [looped_eq, hk]
    cases k <;> simp [statesOf, Finset.sum_range_succ (n := 2), Finset.sum_range_succ (n := 1), Finset.sum_range_succ (n := 0),
      mean, ratioOf, Filled.thermal, hu]

theorem updateCell_shape (k : Kind) (melt : Melt) (s x : Ratios) (T : ℝ) (h : updateCell k melt s T = some x) :
    (k = .solid → x.solid = 1 ∧ x.liquid = 0 ∧ x.powder = 0) ∧ (k ≠ .solidLiquidPowder → x.powder = 0) ∧
      x.solid + x.liquid + x.powder = 1 := by
  unfold updateCell at h
  split_ifs at h with hk
  · cases h
    subst hk
    simp [phase]
  · rw [Option.map_eq_some_iff] at h
    obtain ⟨l, -, rfl⟩ := h
    cases k with
    | solid => exact absurd rfl hk
    | solidLiquid => simp [phase]
    | solidLiquidPowder => refine ⟨by simp, by simp, ?_⟩; simp only [phase]; ring

/-- **C104.**  After `update`, density, conductivities, emissivity and convective coefficient of a cell are the means of the
values of the states at the cell's temperature, weighted with the new fractions; the specific heat is that mean plus
latent heat / (liquidus - solidus) exactly if the cell is partly liquid; the radiative coefficient is that of the
Stefan-Boltzmann law (C36) with the mean emissivity if the material has an ambient temperature, otherwise the mean of the given
coefficients. -/
theorem C104_update (c : Config) (k : Kind) (hk : c.nStates = statesOf k) (r : Filled) (m : ℕ) (s x : Ratios) (T : ℝ)
    (v : ℕ → ℝ) (h : update c k r m s T = some (x, v)) :
    updateCell k ⟨r.constant m 1, r.constant m 0⟩ s T = some x ∧
    (∀ p ∈ [0, 2, 3, 4, 5, 7], v p = mean k x fun st => r.thermal c m p st T) ∧
    (v 1 = (mean k x fun st => r.thermal c m 1 st T) +
      if 0 < x.liquid ∧ x.liquid < 1 then r.constant m 2 / (r.constant m 0 - r.constant m 1) else 0) ∧
    (r.constant m 3 ≠ c.maxDouble → v 6 = radiativeCoef (mean k x fun st => r.thermal c m 5 st T) T (r.constant m 3)) ∧
    (r.constant m 3 = c.maxDouble → v 6 = mean k x fun st => r.thermal c m 6 st T) := by
  unfold update at h
  rw [Option.map_eq_some_iff] at h
  obtain ⟨x', hx, h⟩ := h
  cases h
  have hv : ∀ p < 8, valuesFrom 0 c r m x T p = mean k x fun st => r.thermal c m p st T := by
    intro p hp
    unfold valuesFrom
    rw [if_pos ⟨Nat.zero_le _, hp⟩, mixture_eq c k hk]
  obtain ⟨hsolid, hpow, hsum⟩ := updateCell_shape _ _ _ _ _ hx
  have hlat : ∀ p ≠ 1, addLatent c k r m x (valuesFrom 0 c r m x T) p = valuesFrom 0 c r m x T p := by
    intro p hp
    unfold addLatent
    split_ifs
    · exact Function.update_of_ne hp _ _
    · rfl
  have hrad : ∀ (w : ℕ → ℝ) (p : ℕ), p ≠ 6 → addRadiation c r m T w p = w p := by
    intro w p hp
    unfold addRadiation
    split_ifs
    · exact Function.update_of_ne hp _ _
    · rfl
  have hratio : ∑ st ∈ Finset.range c.nStates, ratioOf x st = 1 := by
    rw [hk]
    cases k with
    | solid => simp [statesOf, ratioOf, (hsolid rfl).1]
    | solidLiquid =>
      simp only [statesOf, Finset.sum_range_succ, Finset.sum_range_zero, ratioOf]
      have := hpow (by decide)
      linarith
    | solidLiquidPowder =>
      simp only [statesOf, Finset.sum_range_succ, Finset.sum_range_zero, ratioOf]
      linarith
  refine ⟨hx, ?_, ?_, ?_, ?_⟩
  · intro p hp
    simp only [List.mem_cons, List.not_mem_nil, or_false] at hp
    rw [hrad _ p (by omega), hlat p (by omega), hv p (by omega)]
  · rw [hrad _ 1 (by norm_num)]
    by_cases hl : 0 < x.liquid ∧ x.liquid < 1
    · have hks : k ≠ .solid := fun e => by have := (hsolid e).2.1; linarith [hl.1]
      rw [if_pos hl]
      unfold addLatent
      rw [if_pos ⟨hks, hl⟩, Function.update_self, foldl_add, hv 1 (by norm_num)]
      congr 1
      rw [← Finset.sum_div, ← Finset.sum_mul, hratio, one_mul]
    · rw [if_neg hl, add_zero]
      unfold addLatent
      rw [if_neg fun e => hl e.2, hv 1 (by norm_num)]
  · intro hT
    unfold addRadiation
    rw [if_pos hT, Function.update_self, hlat 5 (by norm_num), hv 5 (by norm_num)]
  · intro hT
    unfold addRadiation
    rw [if_neg (by simpa using hT), hlat 6 (by norm_num), hv 6 (by norm_num)]

/-- **C104, bounds.**  A mean over fractions that are a partition of unity lies between the values of the states. -/
theorem C104_between (k : Kind) (x : Ratios) (hx : Partition x) (hk : (k ≠ .solidLiquidPowder → x.powder = 0))
    (hk' : k = .solid → x.liquid = 0) (value : ℕ → ℝ) (lo hi : ℝ) (h : ∀ st < statesOf k, lo ≤ value st ∧ value st ≤ hi) :
    lo ≤ mean k x value ∧ mean k x value ≤ hi := by
  have hs := hx.sum
  have h1 := hx.solid.1
  have h2 := hx.liquid.1
  have h3 := hx.powder.1
  cases k with
  | solid =>
    have e1 : x.solid = 1 := by have := hk (by decide); have := hk' rfl; linarith
    have := h 0 (by decide)
    simp only [mean, e1, one_mul]
    exact this
  | solidLiquid =>
    have e1 := hk (by decide)
    obtain ⟨a0, b0⟩ := h 0 (by decide)
    obtain ⟨a1, b1⟩ := h 1 (by decide)
    simp only [mean]
    constructor
    · have := mul_nonneg h1 (sub_nonneg.2 a0)
      have := mul_nonneg h2 (sub_nonneg.2 a1)
      have e : lo = x.solid * lo + x.liquid * lo := by rw [← add_mul, show x.solid + x.liquid = 1 by linarith, one_mul]
      rw [e]; linarith
    · have := mul_nonneg h1 (sub_nonneg.2 b0)
      have := mul_nonneg h2 (sub_nonneg.2 b1)
      have e : hi = x.solid * hi + x.liquid * hi := by rw [← add_mul, show x.solid + x.liquid = 1 by linarith, one_mul]
      rw [e]; linarith
  | solidLiquidPowder =>
    obtain ⟨a0, b0⟩ := h 0 (by decide)
    obtain ⟨a1, b1⟩ := h 1 (by decide)
    obtain ⟨a2, b2⟩ := h 2 (by decide)
    simp only [mean]
    constructor
    · have := mul_nonneg h1 (sub_nonneg.2 a0)
      have := mul_nonneg h2 (sub_nonneg.2 a1)
      have := mul_nonneg h3 (sub_nonneg.2 a2)
      have e : lo = x.solid * lo + x.liquid * lo + x.powder * lo := by rw [← add_mul, ← add_mul, hs, one_mul]
      rw [e]; linarith
    · have := mul_nonneg h1 (sub_nonneg.2 b0)
      have := mul_nonneg h2 (sub_nonneg.2 b1)
      have := mul_nonneg h3 (sub_nonneg.2 b2)
      have e : hi = x.solid * hi + x.liquid * hi + x.powder * hi := by rw [← add_mul, ← add_mul, hs, one_mul]
      rw [e]; linarith

/-- **C104, boundary update.**  The values used by the boundary conditions (conductivities in y and z, emissivity, radiative and
convective coefficient) are the same after `update_boundary_material_properties` as after `update` at the same temperature, when
the fractions are those `update` left behind. -/
theorem C104_boundary (c : Config) (k : Kind) (r : Filled) (m : ℕ) (s x : Ratios) (T : ℝ)
    (v : ℕ → ℝ) (h : update c k r m s T = some (x, v)) (p : ℕ) (hp : 3 ≤ p) : updateBoundary c r m x T p = v p := by
  unfold update at h
  rw [Option.map_eq_some_iff] at h
  obtain ⟨x', hx, h⟩ := h
  cases h
  have hlat : ∀ q ≠ 1, addLatent c k r m x (valuesFrom 0 c r m x T) q = valuesFrom 0 c r m x T q := by
    intro q hq
    unfold addLatent
    split_ifs
    · exact Function.update_of_ne hq _ _
    · rfl
  have hval : ∀ q, 3 ≤ q → valuesFrom 3 c r m x T q = valuesFrom 0 c r m x T q := by
    intro q hq
    unfold valuesFrom
    simp [hq]
  unfold updateBoundary addRadiation
  by_cases hT : r.constant m 3 ≠ c.maxDouble
  · rw [if_pos hT, if_pos hT, hlat 5 (by norm_num), hval 5 (by norm_num)]
    by_cases h6 : p = 6
    · rw [h6, Function.update_self, Function.update_self]
    · rw [Function.update_of_ne h6, Function.update_of_ne h6, hlat p (by omega), hval p hp]
  · rw [if_neg hT, if_neg hT, hlat p (by omega), hval p hp]

/-- **C104 fails after a boundary update.**  Density, specific heat and conductivity in x, read through `get_cell_value`, are
zero after `update_boundary_material_properties`, whatever the material. -/
theorem C104_boundary_refuted (c : Config) (r : Filled) (m : ℕ) (s : Ratios) (T : ℝ) (p : ℕ) (hp : p < 3) :
    updateBoundary c r m s T p = 0 := by
  unfold updateBoundary addRadiation
  have h0 : valuesFrom 3 c r m s T p = 0 := by
    unfold valuesFrom
    rw [if_neg (by omega)]
  split_ifs
  · rw [Function.update_of_ne (by omega), h0]
  · exact h0

/-- A cell at 650 K of the material of `FillAccept`: the update is defined, the density is 17. -/
example : ∃ r x v, fill exConfig (oneDensity "table" "300, 10 | 1000, 24") = .ok r ∧
    update exConfig .solidLiquidPowder r 0 ⟨0, 0, 1⟩ 650 = some (x, v) ∧ x.powder = 1 := by
  obtain ⟨hparse, hlen⟩ := isTable_entries (c := exConfig) exTable
  obtain ⟨r, hr, hn, hu⟩ := oneDensity_accepts exConfig (by simp [exConfig]) (by simp [exConfig]) "table" "300, 10 | 1000, 24"
    (fun p => by
      unfold Readable
      rw [if_pos (by decide), hlen]
      exact ⟨by simp [exConfig], fun _ e he => parseEntry_runs.1 (collect_runs.1 ⟨_, hparse⟩ e he)⟩)
  have hmelt := (C103_missing exConfig _ r hr 0 (by omega)).2 (by
    unfold Tree.str?
    simp only [Tree.get?]
    rw [oneDensity_child]
    rfl) 650 (show (650 : ℝ) < 10 ^ 308 from lt_of_lt_of_le (by norm_num : (650 : ℝ) < 10 ^ 3)
      (pow_le_pow_right₀ (by norm_num) (by norm_num)))
  have hx : updateCell .solidLiquidPowder ⟨r.constant 0 1, r.constant 0 0⟩ ⟨0, 0, 1⟩ 650 =
      some (phase .solidLiquidPowder 1 0) := by
    unfold updateCell
    rw [if_neg (by decide), hmelt]
    rfl
  refine ⟨r, phase .solidLiquidPowder 1 0, addRadiation exConfig r 0 650 (addLatent exConfig .solidLiquidPowder r 0
    (phase .solidLiquidPowder 1 0) (valuesFrom 0 exConfig r 0 (phase .solidLiquidPowder 1 0) 650)), hr, ?_, ?_⟩
  · unfold update
    rw [hx]
    rfl
  · simp [phase]

end Verif.Material.Fill
