import Verif.HeatSource.Values
import Verif.ScanPath.QueryProps

/-!
# C65: heat sources are non-negative and proportional to the absorbed power; C87: scalar and vectorised values
-/

namespace Verif.HeatSource

open Verif.Quat Verif.ScanPath

theorem value3_cases {s s' : Source} {t : ℝ} (h : s.updateTime t = some s') {p : Pt3 ℝ} {v : ℝ}
    (hv : s'.value3 p = some v) :
    ∃ r, InFrame s t p r ∧ ((∃ c, BeamAt s t c ∧ v = s'.scalarAt (rho2In3D c r) (r.z - c.z)) ∨
      ((ScanPath.value s.path t false).1 = .outOfDomain ∧ v = 0)) := by
  obtain ⟨m, -, -, -, -, -, hc, -⟩ := updateTime_spec h
  unfold Source.value3 at hv
  cases hr : s'.inFrame p with
  | none => rw [hr] at hv; exact absurd hv (by simp)
  | some r =>
    refine ⟨r, (inFrame_iff h p r).1 hr, ?_⟩
    rw [hr] at hv
    simp only at hv
    rw [hc] at hv
    cases hx : (ScanPath.value s.path t false).1 with
    | value c => rw [hx] at hv; simp only [Option.some.injEq] at hv; exact Or.inl ⟨c, hx, hv.symm⟩
    | outOfDomain => rw [hx] at hv; simp only [Option.some.injEq] at hv; exact Or.inr ⟨rfl, hv.symm⟩
    | nan => rw [hx] at hv; exact absurd hv (by simp)
    | ub => rw [hx] at hv; exact absurd hv (by simp)

theorem value3_eq {s s' : Source} {t : ℝ} (h : s.updateTime t = some s') {p r c : Pt3 ℝ}
    (hr : InFrame s t p r) (hb : BeamAt s t c) : s'.value3 p = some (s'.scalarAt (rho2In3D c r) (r.z - c.z)) := by
  obtain ⟨m, -, -, -, -, -, hc, -⟩ := updateTime_spec h
  unfold Source.value3
  rw [(inFrame_iff h p r).2 hr, hc, show (ScanPath.value s.path t false).1 = .value c from hb]

theorem value2_cases {s s' : Source} {t : ℝ} (h : s.updateTime t = some s') {x z v : ℝ}
    (hv : s'.value2 x z = some v) :
    (∃ c, BeamAt s t c ∧ v = s'.scalarAt ((x - c.x) ^ 2) (z - c.y)) ∨
      ((ScanPath.value s.path t false).1 = .outOfDomain ∧ v = 0) := by
  obtain ⟨m, -, -, -, -, -, hc, -⟩ := updateTime_spec h
  unfold Source.value2 at hv
  rw [hc] at hv
  cases hx : (ScanPath.value s.path t false).1 with
  | value c => rw [hx] at hv; simp only [Option.some.injEq] at hv; exact Or.inl ⟨c, hx, hv.symm⟩
  | outOfDomain => rw [hx] at hv; simp only [Option.some.injEq] at hv; exact Or.inr ⟨rfl, hv.symm⟩
  | nan => rw [hx] at hv; exact absurd hv (by simp)
  | ub => rw [hx] at hv; exact absurd hv (by simp)

theorem value2_eq {s s' : Source} {t : ℝ} (h : s.updateTime t = some s') {c : Pt3 ℝ} (x z : ℝ)
    (hb : BeamAt s t c) : s'.value2 x z = some (s'.scalarAt ((x - c.x) ^ 2) (z - c.y)) := by
  obtain ⟨m, -, -, -, -, -, hc, -⟩ := updateTime_spec h
  unfold Source.value2
  rw [hc, show (ScanPath.value s.path t false).1 = .value c from hb]

theorem vector3_cases {s s' : Source} {t : ℝ} (h : s.updateTime t = some s') {n : ℕ} {p : Fin n → Pt3 ℝ}
    {v : Fin n → ℝ} (hv : s'.vector3 p = some v) :
    ∃ r : Fin n → Pt3 ℝ, (∀ i, InFrame s t (p i) (r i)) ∧
      ((∃ c, BeamAt s t c ∧ v = s'.lanesAt (fun i => rho2In3D c (r i)) fun i => (r i).z - c.z) ∨
        ((ScanPath.value s.path t false).1 = .outOfDomain ∧ v = fun _ => 0)) := by
  obtain ⟨m, -, -, -, hf, -, hc, hq, -⟩ := updateTime_spec h
  unfold Source.vector3 at hv
  rw [hc, hf, hq] at hv
  have hfr : ∀ (_ : s.fiveAxis = false) (i : Fin n), InFrame s t (p i) (p i) := fun h5 i => Or.inl ⟨h5, rfl⟩
  cases hx : (ScanPath.value s.path t false).1 with
  | value c =>
    rw [hx] at hv
    simp only at hv
    cases h5 : s.fiveAxis with
    | false =>
      rw [h5] at hv
      simp only [Bool.false_eq_true, if_false, Option.some.injEq] at hv
      exact ⟨p, hfr h5, Or.inl ⟨c, hx, hv.symm⟩⟩
    | true =>
      rw [h5] at hv
      simp only [if_true] at hv
      cases hq' : quaternion s.path t with
      | value q =>
        rw [hq'] at hv
        simp only [Option.some.injEq] at hv
        exact ⟨fun i => q.rotate (p i), fun i => Or.inr ⟨h5, q, hq', rfl⟩, Or.inl ⟨c, hx, hv.symm⟩⟩
      | outOfDomain => rw [hq'] at hv; exact absurd hv (by simp)
      | nan => rw [hq'] at hv; exact absurd hv (by simp)
      | ub => rw [hq'] at hv; exact absurd hv (by simp)
  | outOfDomain =>
    rw [hx] at hv
    simp only at hv
    cases h5 : s.fiveAxis with
    | false =>
      rw [h5] at hv
      simp only [Bool.false_eq_true, if_false, Option.some.injEq] at hv
      exact ⟨p, hfr h5, Or.inr ⟨rfl, hv.symm⟩⟩
    | true =>
      rw [h5] at hv
      simp only [if_true] at hv
      cases hq' : quaternion s.path t with
      | value q =>
        rw [hq'] at hv
        simp only [Option.some.injEq] at hv
        exact ⟨fun i => q.rotate (p i), fun i => Or.inr ⟨h5, q, hq', rfl⟩, Or.inr ⟨rfl, hv.symm⟩⟩
      | outOfDomain => rw [hq'] at hv; exact absurd hv (by simp)
      | nan => rw [hq'] at hv; exact absurd hv (by simp)
      | ub => rw [hq'] at hv; exact absurd hv (by simp)
  | nan => rw [hx] at hv; exact absurd hv (by simp)
  | ub => rw [hx] at hv; exact absurd hv (by simp)

theorem inFrame_unique {s : Source} {t : ℝ} {p r r' : Pt3 ℝ} (h : InFrame s t p r) (h' : InFrame s t p r') :
    r = r' := by
  rcases h with ⟨h1, h2⟩ | ⟨h1, q, h2, h3⟩ <;> rcases h' with ⟨h1', h2'⟩ | ⟨h1', q', h2', h3'⟩
  · rw [h2, h2']
  · rw [h1] at h1'; cases h1'
  · rw [h1] at h1'; cases h1'
  · rw [h2] at h2'; injection h2' with h2'; rw [h3, h3', h2']

theorem beamAt_unique {s : Source} {t : ℝ} {c c' : Pt3 ℝ} (h : BeamAt s t c) (h' : BeamAt s t c') : c = c' := by
  unfold BeamAt at h h'
  rw [h] at h'
  injection h'

/-! ## C65 -/

/-- **C65** (partial: the power of every record is assumed non-negative, the position a number). The heat at a point at
or below the beam is never negative: scalar code, 3D (five-axis or not). -/
theorem C65_nonneg_3d (s s' : Source) (t : ℝ) (h : s.updateTime t = some s') (hb : s.props.Valid)
    (hp : ∀ g ∈ s.path.segs, 0 ≤ g.power) (p : Pt3 ℝ) (v : ℝ) (hv : s'.value3 p = some v)
    (hz : ∀ c r : Pt3 ℝ, BeamAt s t c → InFrame s t p r → r.z ≤ c.z) : 0 ≤ v := by
  obtain ⟨m, hm, -⟩ := updateTime_spec h
  obtain ⟨r, hr, ⟨c, hc, rfl⟩ | ⟨-, rfl⟩⟩ := value3_cases h hv
  · rw [scalarAt_eq h hb hm]
    have := hz c r hc hr
    have h0 := mul_nonneg (mul_nonneg hb.absorption hb.power) (power_nonneg hp hm)
    split
    · exact le_rfl
    · rename_i hn
      rw [not_or, not_lt] at hn
      exact formula_nonneg _ h0 hb.depth hn.1 (by linarith)
  · exact le_rfl

/-- **C65**, 2D: the height of the beam is the second coordinate of the scan path. -/
theorem C65_nonneg_2d (s s' : Source) (t : ℝ) (h : s.updateTime t = some s') (hb : s.props.Valid)
    (hp : ∀ g ∈ s.path.segs, 0 ≤ g.power) (x z v : ℝ) (hv : s'.value2 x z = some v)
    (hz : ∀ c : Pt3 ℝ, BeamAt s t c → z ≤ c.y) : 0 ≤ v := by
  obtain ⟨m, hm, -⟩ := updateTime_spec h
  obtain ⟨c, hc, rfl⟩ | ⟨-, rfl⟩ := value2_cases h hv
  · rw [scalarAt_eq h hb hm]
    have := hz c hc
    have h0 := mul_nonneg (mul_nonneg hb.absorption hb.power) (power_nonneg hp hm)
    split
    · exact le_rfl
    · rename_i hn
      rw [not_or, not_lt] at hn
      exact formula_nonneg _ h0 hb.depth hn.1 (by linarith)
  · exact le_rfl

/-- **C65**, vectorised code, 3D. -/
theorem C65_nonneg_vector (s s' : Source) (t : ℝ) (h : s.updateTime t = some s') (hb : s.props.Valid)
    (hp : ∀ g ∈ s.path.segs, 0 ≤ g.power) {n : ℕ} (p : Fin n → Pt3 ℝ) (v : Fin n → ℝ)
    (hv : s'.vector3 p = some v) (i : Fin n)
    (hz : ∀ c r : Pt3 ℝ, BeamAt s t c → InFrame s t (p i) r → r.z ≤ c.z) : 0 ≤ v i := by
  obtain ⟨m, hm, -⟩ := updateTime_spec h
  obtain ⟨r, hr, ⟨c, hc, rfl⟩ | ⟨-, rfl⟩⟩ := vector3_cases h hv
  · rw [lanesAt_eq h hb hm]
    have := hz c (r i) hc (hr i)
    have h0 := mul_nonneg (mul_nonneg hb.absorption hb.power) (power_nonneg hp hm)
    split
    · exact le_rfl
    · rename_i hn
      rw [not_or, not_lt] at hn
      exact formula_nonneg _ h0 hb.depth hn.1 (by linarith)
  · exact le_rfl

/-- **C65**. The beam is reported on exactly when the power of the current record is positive, and when it is not on, no
point receives heat (scalar 2D and 3D, vectorised).  (At a position that is not a number see
`C65_off_refuted`.) -/
theorem C65_zero_when_off (s s' : Source) (t : ℝ) (h : s.updateTime t = some s') (hb : s.props.Valid)
    (hp : ∀ g ∈ s.path.segs, 0 ≤ g.power) :
    (s'.sourceOn = true ↔ ∃ m : ℝ, (powerModifier s.path t).1 = .value m ∧ 0 < m) ∧
    (s'.sourceOn = false →
      (∀ (p : Pt3 ℝ) (v : ℝ), s'.value3 p = some v → v = 0) ∧
      (∀ x z v : ℝ, s'.value2 x z = some v → v = 0) ∧
      (∀ (n : ℕ) (p : Fin n → Pt3 ℝ) (v : Fin n → ℝ), s'.vector3 p = some v → ∀ i, v i = 0)) := by
  obtain ⟨m, hm, -, -, -, hon, -⟩ := updateTime_spec h
  refine ⟨⟨fun ho => ⟨m, hm, hon.1 ho⟩, ?_⟩, ?_⟩
  · rintro ⟨m', hm', h0⟩
    rw [hm] at hm'
    injection hm' with hm'
    exact hon.2 (hm' ▸ h0)
  · intro hoff
    have hm0 : m = 0 := by
      apply le_antisymm _ (power_nonneg hp hm)
      by_contra hc
      rw [hon.2 (not_le.1 hc)] at hoff
      cases hoff
    subst hm0
    refine ⟨fun p v hv => ?_, fun x z v hv => ?_, fun n p v hv i => ?_⟩
    · obtain ⟨r, hr, ⟨c, hc, rfl⟩ | ⟨-, rfl⟩⟩ := value3_cases h hv
      · rw [scalarAt_eq h hb hm, mul_zero, formula_zero, ite_self]
      · rfl
    · obtain ⟨c, hc, rfl⟩ | ⟨-, rfl⟩ := value2_cases h hv
      · rw [scalarAt_eq h hb hm, mul_zero, formula_zero, ite_self]
      · rfl
    · obtain ⟨r, hr, ⟨c, hc, rfl⟩ | ⟨-, rfl⟩⟩ := vector3_cases h hv
      · rw [lanesAt_eq h hb hm, mul_zero, formula_zero, ite_self]
      · rfl

/-- **C65**. A point deeper than the penetration depth below the beam receives no heat. -/
theorem C65_zero_below_depth (s s' : Source) (t : ℝ) (h : s.updateTime t = some s') (hb : s.props.Valid)
    (c : Pt3 ℝ) (hc : BeamAt s t c) :
    (∀ p r : Pt3 ℝ, InFrame s t p r → r.z < c.z - s.props.depth → s'.value3 p = some 0) ∧
    (∀ x z : ℝ, z < c.y - s.props.depth → s'.value2 x z = some 0) ∧
    (∀ (n : ℕ) (p : Fin n → Pt3 ℝ) (v : Fin n → ℝ), s'.vector3 p = some v → ∀ i r, InFrame s t (p i) r →
      r.z < c.z - s.props.depth → v i = 0) := by
  obtain ⟨m, hm, -⟩ := updateTime_spec h
  refine ⟨fun p r hr hz => ?_, fun x z hz => ?_, fun n p v hv i r hr hz => ?_⟩
  · rw [value3_eq h hr hc, scalarAt_eq h hb hm, if_pos (Or.inl (by linarith))]
  · rw [value2_eq h x z hc, scalarAt_eq h hb hm, if_pos (Or.inl (by linarith))]
  · obtain ⟨r', hr', ⟨c', hc', rfl⟩ | ⟨-, rfl⟩⟩ := vector3_cases h hv
    · rw [lanesAt_eq h hb hm, if_pos]
      left
      rw [inFrame_unique (hr' i) hr, beamAt_unique hc' hc]
      linarith
    · rfl

/-- **C65**. Inside the cut-off (`√5` radii, one depth) the heat is exactly the published formula evaluated with the
absorbed power `absorption * max_power * power of the record`; further out it is zero (scalar code). -/
theorem C65_formula (s s' : Source) (t m : ℝ) (h : s.updateTime t = some s') (hb : s.props.Valid)
    (c : Pt3 ℝ) (hc : BeamAt s t c) (hm : (powerModifier s.path t).1 = .value m) (p r : Pt3 ℝ)
    (hr : InFrame s t p r) :
    (c.z - s.props.depth ≤ r.z → (r.x - c.x) ^ 2 + (r.y - c.y) ^ 2 ≤ 5 * s.props.radius ^ 2 →
      s'.value3 p = some (formula s.kind (s.props.absorption * s.props.maxPower * m) s.props.radius s.props.depth
        ((r.x - c.x) ^ 2 + (r.y - c.y) ^ 2) (r.z - c.z))) ∧
    (5 * s.props.radius ^ 2 < (r.x - c.x) ^ 2 + (r.y - c.y) ^ 2 → s'.value3 p = some 0) := by
  refine ⟨fun h1 h2 => ?_, fun h1 => ?_⟩
  · rw [value3_eq h hr hc, scalarAt_eq h hb hm, if_neg]
    · rfl
    · rintro (h3 | h3)
      · linarith
      · exact absurd h3 (not_lt.2 h2)
  · rw [value3_eq h hr hc, scalarAt_eq h hb hm, if_pos (Or.inr (show _ < rho2In3D c r from h1))]

/-- **C65**, 2D: the same with the horizontal distance along `x` and the height from the second coordinate. -/
theorem C65_formula_2d (s s' : Source) (t m : ℝ) (h : s.updateTime t = some s') (hb : s.props.Valid)
    (c : Pt3 ℝ) (hc : BeamAt s t c) (hm : (powerModifier s.path t).1 = .value m) (x z : ℝ) :
    (c.y - s.props.depth ≤ z → (x - c.x) ^ 2 ≤ 5 * s.props.radius ^ 2 →
      s'.value2 x z = some (formula s.kind (s.props.absorption * s.props.maxPower * m) s.props.radius s.props.depth
        ((x - c.x) ^ 2) (z - c.y))) ∧
    (5 * s.props.radius ^ 2 < (x - c.x) ^ 2 → s'.value2 x z = some 0) := by
  refine ⟨fun h1 h2 => ?_, fun h1 => ?_⟩
  · rw [value2_eq h x z hc, scalarAt_eq h hb hm, if_neg]
    rintro (h3 | h3)
    · linarith
    · exact absurd h3 (not_lt.2 h2)
  · rw [value2_eq h x z hc, scalarAt_eq h hb hm, if_pos (Or.inr h1)]

/-- **C65**. The heat in terms of the input file (SI result): with the length unit `u` (metres per input length) and the
power unit `w` (watts per input power), a source read from `depth`, `absorption_efficiency`, `diameter`, `max_power`
delivers, within `√5/2` diameters of the beam and not deeper than `depth`, the published formula with radius half the
diameter, all lengths in metres and the absorbed power in watts; it delivers nothing outside. -/
theorem C65_formula_input (k : Kind) (u w depth absorption diameter maxPower : ℝ) (hu : 0 < u) (hw : 0 ≤ w)
    (hd : 0 < depth) (ha : 0 ≤ absorption) (hD : 0 < diameter) (hP : 0 ≤ maxPower) (path : Path) (s' : Source)
    (t m : ℝ) (h : (Source.new k (BeamProps.ofDatabase u w depth absorption diameter maxPower) path).updateTime t = some s')
    (c : Pt3 ℝ) (hc : (ScanPath.value path t false).1 = .value c) (hm : (powerModifier path t).1 = .value m)
    (h5 : path.fiveAxis = false) (p : Pt3 ℝ) :
    s'.value3 p = some (if c.z - u * depth ≤ p.z ∧ (p.x - c.x) ^ 2 + (p.y - c.y) ^ 2 ≤ 5 * (u * diameter / 2) ^ 2 then
      formula k (absorption * (w * maxPower) * m) (u * diameter / 2) (u * depth)
        ((p.x - c.x) ^ 2 + (p.y - c.y) ^ 2) (p.z - c.z) else 0) := by
  have hb := ofDatabase_valid hu hw hd ha hD hP
  have e1 : (BeamProps.ofDatabase u w depth absorption diameter maxPower).depth = u * depth := by
    simp only [BeamProps.ofDatabase]; ring
  have e2 : (BeamProps.ofDatabase u w depth absorption diameter maxPower).radius = u * diameter / 2 := by
    simp only [BeamProps.ofDatabase]; ring
  have e3 : (BeamProps.ofDatabase u w depth absorption diameter maxPower).maxPower = w * maxPower := by
    simp only [BeamProps.ofDatabase]; ring
  have hf : InFrame (Source.new k (BeamProps.ofDatabase u w depth absorption diameter maxPower) path) t p p :=
    Or.inl ⟨h5, rfl⟩
  rw [value3_eq h hf hc, scalarAt_eq h hb hm]
  simp only [Source.new, e1, e2, e3, rho2In3D]
  congr 1
  by_cases h1 : c.z - u * depth ≤ p.z ∧ (p.x - c.x) ^ 2 + (p.y - c.y) ^ 2 ≤ 5 * (u * diameter / 2) ^ 2
  · rw [if_pos h1, if_neg]
    · rfl
    · rintro (h2 | h2)
      · linarith [h1.1]
      · exact absurd h2 (not_lt.2 h1.2)
  · rw [if_neg h1, if_pos]
    rw [not_and_or, not_le, not_le] at h1
    exact h1.imp (fun h => by linarith) id

/-- **C65**. The heat is proportional to absorption times power: changing both (as the ensemble and data assimilation
do, followed by `update_time`) scales the heat of every point by the ratio. -/
theorem C65_proportional (s s₁ s₂ : Source) (t eta power : ℝ) (h : s.updateTime t = some s₁)
    (h' : (s.setBeamProperties { s.props with absorption := eta, maxPower := power }).updateTime t = some s₂)
    (hb : s.props.Valid) (he : 0 ≤ eta) (hpw : 0 ≤ power) (p : Pt3 ℝ) (v₁ v₂ : ℝ)
    (hv₁ : s₁.value3 p = some v₁) (hv₂ : s₂.value3 p = some v₂) :
    v₂ * (s.props.absorption * s.props.maxPower) = v₁ * (eta * power) := by
  obtain ⟨m, hm, -⟩ := updateTime_spec h
  have hb' : ({ s.props with absorption := eta, maxPower := power } : BeamProps).Valid :=
    ⟨hb.radius, hb.radiusSq, hb.depth, he, hpw⟩
  have hm' : (powerModifier (s.setBeamProperties
    { s.props with absorption := eta, maxPower := power }).path t).1 = .value m := hm
  obtain ⟨r, hr, ⟨c, hc, rfl⟩ | ⟨hx, rfl⟩⟩ := value3_cases h hv₁
  · obtain ⟨r', hr', ⟨c', hc', rfl⟩ | ⟨hx, -⟩⟩ := value3_cases h' hv₂
    · have h1 : r' = r := inFrame_unique (s := s) (t := t) hr' hr
      have h2 : c' = c := beamAt_unique (s := s) (t := t) hc' hc
      subst h1 h2
      by_cases hcut : r'.z - c'.z < -s.props.depth ∨ 5 * s.props.radius ^ 2 < rho2In3D c' r'
      · have e1 := scalarAt_eq h hb hm (rho2In3D c' r') (r'.z - c'.z)
        have e2 := scalarAt_eq h' hb' hm' (rho2In3D c' r') (r'.z - c'.z)
        rw [if_pos hcut] at e1
        rw [if_pos (by exact hcut)] at e2
        rw [e1, e2]; ring
      · have e1 := scalarAt_eq h hb hm (rho2In3D c' r') (r'.z - c'.z)
        have e2 := scalarAt_eq h' hb' hm' (rho2In3D c' r') (r'.z - c'.z)
        rw [if_neg hcut, formula_mul s.kind (s.props.absorption * s.props.maxPower) m] at e1
        rw [if_neg (by exact hcut)] at e2
        have e3 : s₂.scalarAt (rho2In3D c' r') (r'.z - c'.z) =
            formula s.kind ((eta * power) * m) s.props.radius s.props.depth (rho2In3D c' r') (r'.z - c'.z) := e2
        rw [e1, e3, formula_mul]
        ring
    · have : (ScanPath.value s.path t false).1 = .outOfDomain := hx
      rw [show (ScanPath.value s.path t false).1 = .value c from hc] at this
      cases this
  · obtain ⟨r', hr', ⟨c', hc', rfl⟩ | ⟨-, rfl⟩⟩ := value3_cases h' hv₂
    · have : (ScanPath.value s.path t false).1 = .value c' := hc'
      rw [hx] at this
      cases this
    · ring

/-! A concrete source meeting the hypotheses: a spot of one second at the origin. -/

/-- One record: a spot at the origin until time 1 with full power. -/
noncomputable def spotPath : Path := ⟨[⟨1, 1, ⟨0, 0, 0⟩, none⟩], false, 0⟩

/-- Radius 1, depth 1, absorption 1, power 1. -/
noncomputable def unitProps : BeamProps := ⟨1, 1, 1, 1, 1⟩

theorem unitProps_valid : unitProps.Valid := ⟨by norm_num [unitProps], by norm_num [unitProps],
  by norm_num [unitProps], by norm_num [unitProps], by norm_num [unitProps]⟩

theorem spot_current {t : ℝ} (ht : t ≤ 1) : current spotPath t = some (0, ⟨1, 1, ⟨0, 0, 0⟩, none⟩) := by
  have : search spotPath.segs t spotPath.old = some 0 :=
    search_intro le_rfl (by simp [spotPath]) (by simpa [spotPath] using ht) (by intro j _ _ h; omega)
  unfold current
  rw [this]
  rfl

theorem spot_power {t : ℝ} (ht : t ≤ 1) : powerModifier spotPath t = (.value 1, spotPath) := by
  unfold powerModifier
  rw [show spotPath.segs.getLast? = some ⟨1, 1, ⟨0, 0, 0⟩, none⟩ from rfl]
  simp only
  rw [if_neg (not_lt.2 ht), spot_current ht]
  rfl

theorem spot_value {t : ℝ} (ht : t ≤ 1) (b : Bool) : (ScanPath.value spotPath t b).1 = .value ⟨0, 0, 0⟩ := by
  unfold ScanPath.value
  rw [show spotPath.segs.getLast? = some ⟨1, 1, ⟨0, 0, 0⟩, none⟩ from rfl]
  simp only
  rw [if_neg (not_lt.2 ht), spot_current ht]
  simp [segStart, lerp]

theorem updateTime_exists {s : Source} {t m : ℝ} (h : (powerModifier s.path t).1 = .value m) :
    ∃ s', s.updateTime t = some s' := by
  unfold Source.updateTime
  cases hp : powerModifier s.path t with
  | mk a path1 =>
    rw [hp] at h
    simp only at h
    subst h
    exact ⟨_, rfl⟩

/-- The source on the spot path has been updated to any time in the spot, it is on and at the origin: the hypotheses of
the theorems above hold, and the value at the centre is positive. -/
theorem spot_update (k : Kind) {t : ℝ} (ht : t ≤ 1) :
    ∃ s', (Source.new k unitProps spotPath).updateTime t = some s' ∧
      BeamAt (Source.new k unitProps spotPath) t ⟨0, 0, 0⟩ ∧ s'.sourceOn = true := by
  obtain ⟨s', hs'⟩ := updateTime_exists (s := Source.new k unitProps spotPath) (t := t) (m := 1)
    (by rw [show (Source.new k unitProps spotPath).path = spotPath from rfl, spot_power ht])
  refine ⟨s', hs', spot_value ht false, ?_⟩
  obtain ⟨m, hm, -, -, -, hon, -⟩ := updateTime_spec hs'
  rw [show (Source.new k unitProps spotPath).path = spotPath from rfl, spot_power ht] at hm
  injection hm with hm
  exact hon.2 (by rw [← hm]; norm_num)

/-- The centre of the spot is heated: the conclusions above are not about zero only. -/
theorem spot_heats (k : Kind) {t : ℝ} (ht : t ≤ 1) :
    ∃ s' v, (Source.new k unitProps spotPath).updateTime t = some s' ∧ s'.value3 ⟨0, 0, 0⟩ = some v ∧ 0 < v := by
  obtain ⟨s', hs', hb, -⟩ := spot_update k ht
  have hm : (powerModifier (Source.new k unitProps spotPath).path t).1 = .value 1 := by
    rw [show (Source.new k unitProps spotPath).path = spotPath from rfl, spot_power ht]
  have := (C65_formula _ s' t 1 hs' unitProps_valid ⟨0, 0, 0⟩ hb hm ⟨0, 0, 0⟩ ⟨0, 0, 0⟩ (Or.inl ⟨rfl, rfl⟩)).1
    (by norm_num [Source.new, unitProps]) (by norm_num [Source.new, unitProps])
  refine ⟨s', _, hs', this, ?_⟩
  have hpi := Real.pi_pos
  have hl : 0 < Real.log 10 := Real.log_pos (by norm_num)
  cases k
  · simp only [formula, goldakFormula, Source.new, unitProps]
    positivity
  · simp only [formula, electronBeamFormula, Source.new, unitProps]
    norm_num
    positivity

/-! ## After the end, and positions that are not numbers -/

/-- **C65**. After the last record the source is off and every point receives zero (3-axis, or five-axis with an
orientation in the last record). -/
theorem C65_zero_after_end (s s' : Source) (t : ℝ) (l : Segment) (hl : s.path.segs.getLast? = some l)
    (ht : l.endTime < t) (h : s.updateTime t = some s') (hf : s.fiveAxis = false ∨ ∃ q, quaternion s.path t = .value q)
    (p : Pt3 ℝ) : s'.sourceOn = false ∧ s'.value3 p = some 0 ∧ ∀ x z : ℝ, s'.value2 x z = some 0 := by
  obtain ⟨m, hm, -, -, -, hon, hc, -⟩ := updateTime_spec h
  have hm0 : m = 0 := by
    unfold powerModifier at hm
    rw [hl] at hm
    simp only at hm
    rw [if_pos ht] at hm
    injection hm with hm
    exact hm.symm
  have hv : (ScanPath.value s.path t false).1 = .outOfDomain := by
    unfold ScanPath.value
    rw [hl]
    simp only
    rw [if_pos ht]
  rw [hv] at hc
  refine ⟨?_, ?_, ?_⟩
  · cases ho : s'.sourceOn with
    | false => rfl
    | true => have := hon.1 ho; rw [hm0] at this; exact absurd this (lt_irrefl _)
  · obtain ⟨r, hr⟩ : ∃ r, InFrame s t p r := by
      rcases hf5 : s.fiveAxis with _ | _
      · exact ⟨p, Or.inl ⟨hf5, rfl⟩⟩
      · rcases hf with hf | ⟨q, hq⟩
        · rw [hf5] at hf; cases hf
        · exact ⟨q.rotate p, Or.inr ⟨hf5, q, hq, rfl⟩⟩
    unfold Source.value3
    rw [(inFrame_iff h p r).2 hr, hc]
  · intro x z
    unfold Source.value2
    rw [hc]

/-- Two records: one of zero duration and zero power at time 0 (the usual way of giving the start position), then a
powered one. -/
noncomputable def zeroStart : Path :=
  ⟨[⟨0, 0, ⟨0, 0, 0⟩, none⟩, ⟨1, 1, ⟨1, 0, 0⟩, none⟩], false, 0⟩

/-- **C65** refuted at one instant: a path whose first record has zero duration is off at time zero, but the heat of every
point then is `0 * NaN`, not zero (the position is `0/0`).  If another beam is on, or on the device (which does not test
`is_source_on`), the NaN enters the right-hand side. -/
theorem C65_off_refuted :
    ∃ s s' : Source, s.props.Valid ∧ (∀ g ∈ s.path.segs, 0 ≤ g.power) ∧ s.updateTime 0 = some s' ∧
      s'.sourceOn = false ∧ ∀ p : Pt3 ℝ, s'.value3 p = none := by
  have hcur : current zeroStart 0 = some (0, ⟨0, 0, ⟨0, 0, 0⟩, none⟩) := by
    have : search zeroStart.segs 0 zeroStart.old = some 0 :=
      search_intro le_rfl (by simp [zeroStart]) (by simp [zeroStart]) (by intro j _ _ h; omega)
    unfold current
    rw [this]
    rfl
  have hlast : zeroStart.segs.getLast? = some ⟨1, 1, ⟨1, 0, 0⟩, none⟩ := rfl
  have hp : (powerModifier zeroStart 0).1 = .value 0 := by
    unfold powerModifier
    rw [hlast]
    simp only
    rw [if_neg (by norm_num), hcur]
  have hv : (ScanPath.value zeroStart 0 false).1 = .nan := by
    unfold ScanPath.value
    rw [hlast]
    simp only
    rw [if_neg (by norm_num), hcur]
    simp [segStart]
  obtain ⟨s', hs'⟩ := updateTime_exists (s := Source.new .goldak unitProps zeroStart) (t := 0) (m := 0) hp
  refine ⟨Source.new .goldak unitProps zeroStart, s', unitProps_valid, ?_, hs', ?_, ?_⟩
  · intro g hg
    simp only [Source.new, zeroStart, List.mem_cons, List.not_mem_nil, or_false] at hg
    rcases hg with rfl | rfl <;> norm_num
  · obtain ⟨m, hm, -, -, -, hon, -⟩ := updateTime_spec hs'
    have hm0 : m = 0 := by
      have : (powerModifier zeroStart 0).1 = .value m := hm
      rw [hp] at this
      injection this with this
      exact this.symm
    cases ho : s'.sourceOn with
    | false => rfl
    | true => have := hon.1 ho; rw [hm0] at this; exact absurd this (lt_irrefl _)
  · intro p
    obtain ⟨m, -, -, -, hf, -, hc, -⟩ := updateTime_spec hs'
    have hc' : s'.center = .nan := hc.trans hv
    unfold Source.value3
    rw [(inFrame_iff hs' p p).2 (Or.inl ⟨rfl, rfl⟩), hc']

/-- Above the beam (more than a third of the depth) the electron beam removes heat: this is why the claim is restricted
to points at or below the beam. -/
theorem C65_electron_beam_negative_above {t : ℝ} (ht : t ≤ 1) :
    ∃ s' v, (Source.new .electronBeam unitProps spotPath).updateTime t = some s' ∧
      s'.value3 ⟨0, 0, 1⟩ = some v ∧ v < 0 := by
  obtain ⟨s', hs', hb, -⟩ := spot_update .electronBeam ht
  have hm : (powerModifier (Source.new .electronBeam unitProps spotPath).path t).1 = .value 1 := by
    rw [show (Source.new .electronBeam unitProps spotPath).path = spotPath from rfl, spot_power ht]
  have := (C65_formula _ s' t 1 hs' unitProps_valid ⟨0, 0, 0⟩ hb hm ⟨0, 0, 1⟩ ⟨0, 0, 1⟩ (Or.inl ⟨rfl, rfl⟩)).1
    (by norm_num [Source.new, unitProps]) (by norm_num [Source.new, unitProps])
  refine ⟨s', _, hs', this, ?_⟩
  have hpi := Real.pi_pos
  have hl : 0 < Real.log 10 := Real.log_pos (by norm_num)
  simp only [formula, electronBeamFormula, Source.new, unitProps]
  norm_num
  positivity

/-! ## C87 -/

/-- **C87** (partial: when no lane, or every lane, is outside the `√5`-radius cut-off). Each lane of the vectorised heat
is the scalar heat of that lane's point. -/
theorem C87_vector_eq_scalar_partial (s s' : Source) (t : ℝ) (h : s.updateTime t = some s') (hb : s.props.Valid)
    {n : ℕ} (p : Fin n → Pt3 ℝ) (v : Fin n → ℝ) (hv : s'.vector3 p = some v)
    (hcut : ∀ (c : Pt3 ℝ) (r : Fin n → Pt3 ℝ), BeamAt s t c → (∀ i, InFrame s t (p i) (r i)) →
      (∀ i, ((r i).x - c.x) ^ 2 + ((r i).y - c.y) ^ 2 ≤ 5 * s.props.radius ^ 2) ∨
      (∀ i, 5 * s.props.radius ^ 2 < ((r i).x - c.x) ^ 2 + ((r i).y - c.y) ^ 2)) (i : Fin n) :
    s'.value3 (p i) = some (v i) := by
  obtain ⟨m, hm, -, -, -, -, hcen, -⟩ := updateTime_spec h
  obtain ⟨r, hr, ⟨c, hc, rfl⟩ | ⟨hx, rfl⟩⟩ := vector3_cases h hv
  · rw [value3_eq h (hr i) hc, scalarAt_eq h hb hm, lanesAt_eq h hb hm]
    congr 1
    rcases hcut c r hc hr with h1 | h1
    · by_cases hz : (r i).z - c.z < -s.props.depth
      · rw [if_pos (Or.inl hz), if_pos (Or.inl hz)]
      · rw [if_neg (by rintro (h3 | h3); exacts [hz h3, absurd h3 (not_lt.2 (h1 i))]),
          if_neg (by rintro (h3 | h3); exacts [hz h3, absurd (h3 i) (not_lt.2 (h1 i))])]
    · rw [if_pos (Or.inr (show _ < rho2In3D c (r i) from h1 i)), if_pos (Or.inr (show ∀ j, _ < rho2In3D c (r j) from h1))]
  · unfold Source.value3
    rw [(inFrame_iff h _ _).2 (hr i), hcen, hx]

/-- **C87** (partial). Whatever the lanes, the vectorised and the scalar heat of a lane can differ only beyond the
cut-off (and not below the depth), where the scalar code returns zero and the vectorised code the formula. -/
theorem C87_difference_beyond_cutoff_partial (s s' : Source) (t m : ℝ) (h : s.updateTime t = some s')
    (hb : s.props.Valid) (hm : (powerModifier s.path t).1 = .value m) {n : ℕ} (p : Fin n → Pt3 ℝ) (v : Fin n → ℝ)
    (hv : s'.vector3 p = some v) (i : Fin n) (hne : s'.value3 (p i) ≠ some (v i)) :
    s'.value3 (p i) = some 0 ∧ ∃ c r : Pt3 ℝ, BeamAt s t c ∧ InFrame s t (p i) r ∧
      5 * s.props.radius ^ 2 < (r.x - c.x) ^ 2 + (r.y - c.y) ^ 2 ∧ c.z - s.props.depth ≤ r.z ∧
      v i = formula s.kind (s.props.absorption * s.props.maxPower * m) s.props.radius s.props.depth
        ((r.x - c.x) ^ 2 + (r.y - c.y) ^ 2) (r.z - c.z) := by
  obtain ⟨_, -, -, -, -, -, hcen, -⟩ := updateTime_spec h
  obtain ⟨r, hr, ⟨c, hc, rfl⟩ | ⟨hx, rfl⟩⟩ := vector3_cases h hv
  · rw [value3_eq h (hr i) hc, scalarAt_eq h hb hm, lanesAt_eq h hb hm] at *
    by_cases hz : (r i).z - c.z < -s.props.depth
    · rw [if_pos (Or.inl hz), if_pos (Or.inl hz)] at hne
      exact absurd rfl hne
    · by_cases hcut : 5 * s.props.radius ^ 2 < rho2In3D c (r i)
      · rw [if_pos (Or.inr hcut)] at hne ⊢
        refine ⟨rfl, c, r i, hc, hr i, hcut, by linarith, ?_⟩
        by_cases hall : ∀ j, 5 * s.props.radius ^ 2 < rho2In3D c (r j)
        · rw [if_pos (Or.inr hall)] at hne
          exact absurd rfl hne
        · rw [if_neg (by rintro (h3 | h3); exacts [hz h3, hall h3])]
          rfl
      · rw [if_neg (by rintro (h3 | h3); exacts [hz h3, hcut h3]),
          if_neg (by rintro (h3 | h3); exacts [hz h3, hcut (h3 i)])] at hne
        exact absurd rfl hne
  · exfalso
    apply hne
    unfold Source.value3
    rw [(inFrame_iff h _ _).2 (hr i), hcen, hx]

/-- **C87**, 2D (partial: when no lane, or every lane, is outside the cut-off). -/
theorem C87_vector_eq_scalar_2d_partial (s s' : Source) (t : ℝ) (h : s.updateTime t = some s') (hb : s.props.Valid)
    {n : ℕ} (x z : Fin n → ℝ) (v : Fin n → ℝ) (hv : s'.vector2 x z = some v)
    (hcut : ∀ c : Pt3 ℝ, BeamAt s t c →
      (∀ i, (x i - c.x) ^ 2 ≤ 5 * s.props.radius ^ 2) ∨ (∀ i, 5 * s.props.radius ^ 2 < (x i - c.x) ^ 2)) (i : Fin n) :
    s'.value2 (x i) (z i) = some (v i) := by
  obtain ⟨m, hm, -, -, -, -, hcen, -⟩ := updateTime_spec h
  have hcen' := hcen
  unfold Source.vector2 at hv
  cases hx : s'.center with
  | value c =>
    rw [hx] at hv hcen
    injection hv with hv
    have hc : BeamAt s t c := hcen.symm
    subst hv
    rw [value2_eq h _ _ hc, scalarAt_eq h hb hm, lanesAt_eq h hb hm]
    congr 1
    rcases hcut c hc with h1 | h1
    · by_cases hz : z i - c.y < -s.props.depth
      · rw [if_pos (Or.inl hz), if_pos (Or.inl hz)]
      · rw [if_neg (by rintro (h3 | h3); exacts [hz h3, absurd h3 (not_lt.2 (h1 i))]),
          if_neg (by rintro (h3 | h3); exacts [hz h3, absurd (h3 i) (not_lt.2 (h1 i))])]
    · rw [if_pos (Or.inr (h1 i)), if_pos (Or.inr h1)]
  | outOfDomain =>
    rw [hx] at hv
    injection hv with hv
    unfold Source.value2
    rw [hx, ← hv]
  | nan => rw [hx] at hv; simp at hv
  | ub => rw [hx] at hv; simp at hv

/-- **C87** refuted: two lanes, one at the beam and one three radii away (at the beam's height). The scalar code gives the
far point zero, the vectorised code a positive heat; so the heat of a quadrature point depends on which points share its
SIMD batch. -/
theorem C87_vector_eq_scalar_refuted (k : Kind) {t : ℝ} (ht : t ≤ 1) :
    ∃ (s' : Source) (v : Fin 2 → ℝ), (Source.new k unitProps spotPath).updateTime t = some s' ∧
      s'.vector3 (fun i : Fin 2 => if i = 0 then ⟨0, 0, 0⟩ else ⟨3, 0, 0⟩) = some v ∧
      s'.value3 ⟨3, 0, 0⟩ = some 0 ∧ 0 < v 1 := by
  obtain ⟨s', hs', hb, -⟩ := spot_update k ht
  have hm : (powerModifier (Source.new k unitProps spotPath).path t).1 = .value 1 := by
    rw [show (Source.new k unitProps spotPath).path = spotPath from rfl, spot_power ht]
  obtain ⟨_, -, -, -, hf, -, hcen, -⟩ := updateTime_spec hs'
  have hf' : s'.fiveAxis = false := hf
  rw [show (ScanPath.value (Source.new k unitProps spotPath).path t false).1 = .value ⟨0, 0, 0⟩ from hb] at hcen
  set pts : Fin 2 → Pt3 ℝ := fun i : Fin 2 => if i = 0 then ⟨0, 0, 0⟩ else ⟨3, 0, 0⟩ with hpts
  refine ⟨s', s'.lanesAt (fun i => rho2In3D ⟨0, 0, 0⟩ (pts i)) (fun i => (pts i).z - 0), hs', ?_, ?_, ?_⟩
  · unfold Source.vector3
    rw [hcen]
    simp only
    rw [hf']
    simp only [Bool.false_eq_true, if_false]
  · exact (C65_formula _ s' t 1 hs' unitProps_valid ⟨0, 0, 0⟩ hb hm ⟨3, 0, 0⟩ ⟨3, 0, 0⟩ (Or.inl ⟨rfl, rfl⟩)).2
      (by norm_num [Source.new, unitProps])
  · rw [lanesAt_eq hs' unitProps_valid hm, if_neg]
    · have hpi := Real.pi_pos
      have hl : 0 < Real.log 10 := Real.log_pos (by norm_num)
      cases k
      · simp only [formula, goldakFormula, Source.new, unitProps]
        positivity
      · simp only [formula, electronBeamFormula, Source.new, unitProps, hpts]
        norm_num
        positivity
    · rintro (h3 | h3)
      · norm_num [Source.new, unitProps, hpts] at h3
      · have := h3 0
        norm_num [Source.new, unitProps, rho2In3D, hpts] at this

end Verif.HeatSource
