import Verif.Thermal.Energy

/-!
# C116: temperatures stay in the range of the initial and the ambient temperatures

The time steppers of C40 (`source/ThermalPhysics.templates.hh:449-471, 859-888`) on the operator of C93: the discrete maximum
principle and the time-step limit it needs.
-/

namespace Verif.Assembly

open Verif.Material Verif.Input
open Verif.Thermal (Operator evolve steps rhs Method)

variable {ι : Type*} [Fintype ι] [DecidableEq ι]

/-! ## Specification: heat exchange between degrees of freedom and with the surroundings -/

/-- The coefficient of heat exchange of a face at surface temperature `T`: convection plus linearised radiation. -/
noncomputable def Face.exchangeCoef (f : Face ι) (types : List ℕ) (T : ℝ) (q : Fin f.nq) : ℝ :=
  (if Has (getType types f.id) .convective then (f.coef q T).conv else 0) +
    (if Has (getType types f.id) .radiative then
      (f.coef q T).emissivity * 5.670374419e-8 * (T + (f.coef q T).radTinf) * (T ^ 2 + (f.coef q T).radTinf ^ 2) else 0)

/-- Conductance between `g` and `g'` through a cell at the temperatures `y`. -/
noncomputable def Cell.conductance (c : Cell ι) (h : Hanging ι) (y : ι → ℝ) (g g' : ι) : ℝ :=
  ∑ q, c.jxw q *
    let k := c.coef q (c.temperature h y q)
    k.invRhoCp * (-∑ d, ∑ e, c.dphi h g q d * conductivityTensor k.kx k.ky k.kz (c.cos q) (c.sin q) d e * c.dphi h g' q e)

/-- The strength of the exchange of `g` with the surroundings of a face. -/
noncomputable def Face.strength (f : Face ι) (types : List ℕ) (h : Hanging ι) (y : ι → ℝ) (g : ι) : ℝ :=
  ∑ q, f.jxw q * ((f.coef q (f.temperature h y q)).invRhoCp * f.exchangeCoef types (f.temperature h y q) q * f.phi h g q)

/-- The part of it that is proportional to the temperature of `g'` (the surface temperature is interpolated between the degrees
of freedom of the face). -/
noncomputable def Face.cross (f : Face ι) (types : List ℕ) (h : Hanging ι) (y : ι → ℝ) (g g' : ι) : ℝ :=
  ∑ q, f.jxw q * ((f.coef q (f.temperature h y q)).invRhoCp * f.exchangeCoef types (f.temperature h y q) q * f.phi h g q) *
    f.phi h g' q

/-- The coupling between `g` and `g'`. -/
noncomputable def Mesh.coupling (m : Mesh ι) (y : ι → ℝ) (g g' : ι) : ℝ :=
  (m.material.map fun c => c.conductance m.hanging y g g').sum - (m.surface.map fun f => f.cross m.types m.hanging y g g').sum

/-- The coupling of `g` to the surroundings. -/
noncomputable def Mesh.exchange (m : Mesh ι) (y : ι → ℝ) (g : ι) : ℝ :=
  (m.surface.map fun f => f.strength m.types m.hanging y g).sum

/-- The temperatures of the unconstrained degrees of freedom are in `[lo, hi]`. -/
def Between (m : Mesh ι) (lo hi : ℝ) (y : ι → ℝ) : Prop := ∀ g, m.hanging.constrained g = false → lo ≤ y g ∧ y g ≤ hi

/-- The surroundings of the faces that exchange heat have temperatures in `[lo, hi]`. -/
def AmbientBetween (m : Mesh ι) (lo hi : ℝ) : Prop :=
  ∀ f ∈ m.faces, f.Exposed → ∀ q T,
    (Has (getType m.types f.id) .convective → lo ≤ (f.coef q T).convTinf ∧ (f.coef q T).convTinf ≤ hi) ∧
    (Has (getType m.types f.id) .radiative → lo ≤ (f.coef q T).radTinf ∧ (f.coef q T).radTinf ≤ hi)

/-- Basis functions without negative values (linear elements). -/
structure Positive (m : Mesh ι) : Prop where
  weights : ∀ g' g, 0 ≤ m.hanging.coef g' g
  cell : ∀ c ∈ m.cells, c.fe = 0 → ∀ g q, 0 ≤ c.phi m.hanging g q
  face : ∀ f ∈ m.faces, f.Exposed → ∀ g q, 0 ≤ f.phi m.hanging g q

/-- The time-step limit: for all temperatures in the range no coupling between different degrees of freedom is negative, and the
sum of the couplings of each degree of freedom times the time step is at most its mass. -/
structure StepLimit (m : Mesh ι) (lo hi dt : ℝ) : Prop where
  mass : ∀ g, m.hanging.constrained g = false → 0 < m.mass g
  coupling : ∀ y, Between m lo hi y → ∀ g g', g ≠ g' → m.hanging.constrained g = false → m.hanging.constrained g' = false →
    0 ≤ m.coupling y g g'
  limit : ∀ y, Between m lo hi y → ∀ g, m.hanging.constrained g = false →
    dt * (∑ g' ∈ Finset.univ.erase g, m.coupling y g g' + m.exchange y g) ≤ m.mass g

/-! ## The right-hand side as an exchange of heat -/

/-- What the surroundings of a face contribute. -/
noncomputable def Face.ambient (f : Face ι) (types : List ℕ) (h : Hanging ι) (y : ι → ℝ) (g : ι) : ℝ :=
  ∑ q, f.jxw q * ((f.coef q (f.temperature h y q)).invRhoCp *
    ((if Has (getType types f.id) .convective then
        (f.coef q (f.temperature h y q)).conv * (f.coef q (f.temperature h y q)).convTinf else 0) +
      (if Has (getType types f.id) .radiative then
        (f.coef q (f.temperature h y q)).emissivity * 5.670374419e-8 *
          (f.temperature h y q + (f.coef q (f.temperature h y q)).radTinf) *
          ((f.temperature h y q) ^ 2 + (f.coef q (f.temperature h y q)).radTinf ^ 2) * (f.coef q (f.temperature h y q)).radTinf else 0)) *
    f.phi h g q)

theorem outflow_exchange (f : Face ι) (types : List ℕ) (T : ℝ) (q : Fin f.nq) :
    f.outflow types T q = f.exchangeCoef types T q * T -
      ((if Has (getType types f.id) .convective then (f.coef q T).conv * (f.coef q T).convTinf else 0) +
      (if Has (getType types f.id) .radiative then (f.coef q T).emissivity * 5.670374419e-8 * (T + (f.coef q T).radTinf) *
          (T ^ 2 + (f.coef q T).radTinf ^ 2) * (f.coef q T).radTinf else 0)) := by
  unfold Face.outflow Face.exchangeCoef
  by_cases hc : Has (getType types f.id) .convective <;> by_cases hr : Has (getType types f.id) .radiative <;>
    simp only [hc, hr, if_true, if_false] <;> ring

theorem dphi_total (m : Mesh ι) (hm : Consistent m) (c : Cell ι) (hc : c ∈ m.material) (q : Fin c.nq) (d : Fin 3) :
    ∑ g, c.dphi m.hanging g q d = 0 := by
  have hc' := (mem_material m c).1 hc
  unfold Cell.dphi
  rw [sum_coef_mul m.hanging hm.weights c.dof fun i => c.grad i q d, hm.grad c hc'.1 hc'.2]

theorem fphi_total (m : Mesh ι) (hm : Consistent m) (f : Face ι) (hf : f ∈ m.surface) (q : Fin f.nq) :
    ∑ g, f.phi m.hanging g q = 1 := by
  have hf' := (mem_surface m f).1 hf
  unfold Face.phi
  rw [sum_coef_mul m.hanging hm.weights f.material.dof fun i => f.material.shape i q, hm.face f hf'.1 hf'.2]

omit [DecidableEq ι] in
theorem bilinear_sum (K : Fin 3 → Fin 3 → ℝ) (a : Fin 3 → ℝ) (b : ι → Fin 3 → ℝ) (w : ι → ℝ) :
    ∑ d, ∑ e, a d * K d e * (∑ g', b g' e * w g') = ∑ g', (∑ d, ∑ e, a d * K d e * b g' e) * w g' := by
  simp only [Fin.sum_univ_three, Finset.mul_sum, ← Finset.sum_add_distrib]
  exact Finset.sum_congr rfl fun _ _ => by ring

theorem weak_conductance (m : Mesh ι) (hm : Consistent m) (c : Cell ι) (hc : c ∈ m.material) (Q : (Fin 3 → ℝ) → ℝ) (y : ι → ℝ) (g : ι) :
    c.weak m.hanging Q y g = ∑ g', c.conductance m.hanging y g g' * (y g' - y g) +
      ∑ q, c.jxw q * ((c.coef q (c.temperature m.hanging y q)).invRhoCp * (Q (c.point q) * c.phi m.hanging g q)) := by
  have h1 : ∑ g', c.conductance m.hanging y g g' * (y g' - y g) = ∑ q, -(c.jxw q * ((c.coef q (c.temperature m.hanging y q)).invRhoCp *
      ∑ d, ∑ e, c.dphi m.hanging g q d * conductivityTensor (c.coef q (c.temperature m.hanging y q)).kx
        (c.coef q (c.temperature m.hanging y q)).ky (c.coef q (c.temperature m.hanging y q)).kz (c.cos q) (c.sin q) d e *
          c.gradT m.hanging y q e)) := by
    unfold Cell.conductance
    simp only [Finset.sum_mul _ _ (y _ - y g)]
    rw [Finset.sum_comm]
    refine Finset.sum_congr rfl fun q _ => ?_
    set k := c.coef q (c.temperature m.hanging y q)
    have hg : ∀ e, c.gradT m.hanging y q e = ∑ g', c.dphi m.hanging g' q e * (y g' - y g) := by
      intro e
      simp only [mul_sub, Finset.sum_sub_distrib, ← Finset.sum_mul, dphi_total m hm c hc, zero_mul, sub_zero]
      exact Finset.sum_congr rfl fun g' _ => mul_comm _ _
    simp only [hg]
    rw [bilinear_sum (fun d e => conductivityTensor k.kx k.ky k.kz (c.cos q) (c.sin q) d e) (fun d => c.dphi m.hanging g q d)
      (fun g' e => c.dphi m.hanging g' q e), Finset.mul_sum, Finset.mul_sum, ← Finset.sum_neg_distrib]
    exact Finset.sum_congr rfl fun _ _ => by ring
  rw [h1, ← Finset.sum_add_distrib]
  unfold Cell.weak
  exact Finset.sum_congr rfl fun q _ => by ring

theorem weak_exchange (m : Mesh ι) (hm : Consistent m) (f : Face ι) (hf : f ∈ m.surface) (y : ι → ℝ) (g : ι) :
    f.weak m.types m.hanging y g = f.ambient m.types m.hanging y g - f.strength m.types m.hanging y g * y g -
      ∑ g', f.cross m.types m.hanging y g g' * (y g' - y g) := by
  have h1 : ∑ g', f.cross m.types m.hanging y g g' * (y g' - y g) = ∑ q, f.jxw q * ((f.coef q (f.temperature m.hanging y q)).invRhoCp *
      f.exchangeCoef m.types (f.temperature m.hanging y q) q * f.phi m.hanging g q) * (f.temperature m.hanging y q - y g) := by
    unfold Face.cross
    simp only [Finset.sum_mul _ _ (y _ - y g)]
    rw [Finset.sum_comm]
    refine Finset.sum_congr rfl fun q _ => ?_
    have : f.temperature m.hanging y q - y g = ∑ g', f.phi m.hanging g' q * (y g' - y g) := by
      simp only [mul_sub, Finset.sum_sub_distrib, ← Finset.sum_mul, fphi_total m hm f hf, one_mul]
      congr 1
      exact Finset.sum_congr rfl fun g' _ => mul_comm _ _
    rw [this, Finset.mul_sum]
    exact Finset.sum_congr rfl fun _ _ => by ring
  rw [h1]
  unfold Face.weak Face.ambient Face.strength
  rw [Finset.sum_mul, ← Finset.sum_sub_distrib, ← Finset.sum_sub_distrib]
  refine Finset.sum_congr rfl fun q _ => ?_
  rw [outflow_exchange]
  ring

/-- What the sources contribute. -/
noncomputable def Mesh.heatIn (m : Mesh ι) (beams : List Beam) (y : ι → ℝ) (g : ι) : ℝ :=
  (m.material.map fun c => ∑ q, c.jxw q * ((c.coef q (c.temperature m.hanging y q)).invRhoCp *
    (power beams (c.point q) * c.phi m.hanging g q))).sum

/-- What the surroundings contribute. -/
noncomputable def Mesh.ambient (m : Mesh ι) (y : ι → ℝ) (g : ι) : ℝ :=
  (m.surface.map fun f => f.ambient m.types m.hanging y g).sum

theorem list_sum_sub {α : Type*} (l : List α) (φ ψ : α → ℝ) : (l.map fun a => φ a - ψ a).sum = (l.map φ).sum - (l.map ψ).sum := by
  induction l with
  | nil => simp
  | cons a l ih => simp only [List.map_cons, List.sum_cons, ih]; ring

theorem list_sum_mulr {α : Type*} (l : List α) (φ : α → ℝ) (s : ℝ) : (l.map fun a => φ a * s).sum = (l.map φ).sum * s := by
  induction l with
  | nil => simp
  | cons a l ih => simp only [List.map_cons, List.sum_cons, ih]; ring

/-- The assembled right-hand side is an exchange of heat between the degrees of freedom and with the surroundings. -/
theorem vmult_exchange (m : Mesh ι) (hm : Consistent m) (hp : PureAdiabatic m.types) (beams : List Beam) (hoff : OffIsZero beams)
    (y : ι → ℝ) (g : ι) (hg : m.hanging.constrained g = false) :
    m.vmult beams y g = ∑ g' ∈ Finset.univ.erase g, m.coupling y g g' * (y g' - y g) + (m.ambient y g - m.exchange y g * y g) +
      m.heatIn beams y g := by
  rw [vmult_free m beams hoff hp y g hg]
  have h1 : m.bulkTerm beams y g = ∑ g', (m.material.map fun c => c.conductance m.hanging y g g').sum * (y g' - y g) +
      m.heatIn beams y g := by
    unfold Mesh.bulkTerm Mesh.heatIn
    rw [show (m.cells.filter fun c => decide (c.fe = 0)) = m.material from rfl,
      List.map_congr_left (fun c hc => weak_conductance m hm c hc (power beams) y g), list_sum_add, ← sum_list]
    simp only [list_sum_mulr]
  have h2 : m.boundaryTerm y g = m.ambient y g - m.exchange y g * y g -
      ∑ g', (m.surface.map fun f => f.cross m.types m.hanging y g g').sum * (y g' - y g) := by
    unfold Mesh.boundaryTerm Mesh.ambient Mesh.exchange
    rw [show (m.faces.filter fun f => decide f.Exposed) = m.surface from rfl,
      List.map_congr_left (fun f hf => weak_exchange m hm f hf y g), list_sum_sub, list_sum_sub, ← sum_list]
    simp only [list_sum_mulr]
  have h3 : ∑ g' ∈ Finset.univ.erase g, m.coupling y g g' * (y g' - y g) = ∑ g', m.coupling y g g' * (y g' - y g) := by
    refine Finset.sum_subset (Finset.erase_subset _ _) fun g' _ hg' => ?_
    have : g' = g := by simpa using hg'
    rw [this, sub_self, mul_zero]
  rw [h1, h2, h3]
  unfold Mesh.coupling
  simp only [sub_mul, Finset.sum_sub_distrib]
  ring

theorem coupling_constrained (m : Mesh ι) (y : ι → ℝ) (g g' : ι) (hg : m.hanging.constrained g' = true) : m.coupling y g g' = 0 := by
  unfold Mesh.coupling
  have h1 : (m.material.map fun c => c.conductance m.hanging y g g').sum = 0 := by
    apply List.sum_eq_zero
    intro x hx
    obtain ⟨c, _, rfl⟩ := List.mem_map.1 hx
    unfold Cell.conductance
    simp [dphi_constrained c m.hanging g' hg]
  have h2 : (m.surface.map fun f => f.cross m.types m.hanging y g g').sum = 0 := by
    apply List.sum_eq_zero
    intro x hx
    obtain ⟨f, _, rfl⟩ := List.mem_map.1 hx
    unfold Face.cross
    simp [fphi_constrained f m.hanging g' hg]
  rw [h1, h2, sub_zero]

theorem surface_between (m : Mesh ι) (hm : Consistent m) (hpos : Positive m) (lo hi : ℝ) (y : ι → ℝ) (hy : Between m lo hi y)
    (f : Face ι) (hf : f ∈ m.surface) (q : Fin f.nq) : lo ≤ f.temperature m.hanging y q := by
  have hf' := (mem_surface m f).1 hf
  have : lo = ∑ g, lo * f.phi m.hanging g q := by rw [← Finset.mul_sum, fphi_total m hm f hf, mul_one]
  rw [this]
  unfold Face.temperature
  refine Finset.sum_le_sum fun g _ => ?_
  by_cases hg : m.hanging.constrained g = true
  · rw [fphi_constrained f m.hanging g hg]; simp
  · exact mul_le_mul_of_nonneg_right (hy g (by simpa using hg)).1 (hpos.face f hf'.1 hf'.2 g q)

/-- The surroundings pull towards their own temperatures. -/
theorem ambient_between (m : Mesh ι) (hm : Consistent m) (hpos : Positive m) (hpas : Passive m) (lo hi : ℝ) (hlo : 0 ≤ lo)
    (hamb : AmbientBetween m lo hi) (y : ι → ℝ) (hy : Between m lo hi y) (g : ι) :
    m.exchange y g * lo ≤ m.ambient y g ∧ m.ambient y g ≤ m.exchange y g * hi ∧ 0 ≤ m.exchange y g := by
  have key : ∀ f ∈ m.surface, f.strength m.types m.hanging y g * lo ≤ f.ambient m.types m.hanging y g ∧
      f.ambient m.types m.hanging y g ≤ f.strength m.types m.hanging y g * hi ∧ 0 ≤ f.strength m.types m.hanging y g := by
    intro f hf
    have hf' := (mem_surface m f).1 hf
    have hpt : ∀ q, (0 ≤ f.jxw q * (f.coef q (f.temperature m.hanging y q)).invRhoCp * f.phi m.hanging g q) ∧
        0 ≤ f.exchangeCoef m.types (f.temperature m.hanging y q) q ∧ ∃ a, a = ((if Has (getType m.types f.id) .convective then
        (f.coef q (f.temperature m.hanging y q)).conv * (f.coef q (f.temperature m.hanging y q)).convTinf else 0) +
      (if Has (getType m.types f.id) .radiative then
        (f.coef q (f.temperature m.hanging y q)).emissivity * 5.670374419e-8 *
          (f.temperature m.hanging y q + (f.coef q (f.temperature m.hanging y q)).radTinf) *
          ((f.temperature m.hanging y q) ^ 2 + (f.coef q (f.temperature m.hanging y q)).radTinf ^ 2) *
            (f.coef q (f.temperature m.hanging y q)).radTinf else 0)) ∧
        f.exchangeCoef m.types (f.temperature m.hanging y q) q * lo ≤ a ∧ a ≤ f.exchangeCoef m.types (f.temperature m.hanging y q) q * hi := by
      intro q
      obtain ⟨hj, hk⟩ := hpas.face f hf'.1 hf'.2 q
      have hT := surface_between m hm hpos lo hi y hy f hf q
      set T := f.temperature m.hanging y q
      obtain ⟨h1, h2, h3⟩ := hk T
      refine ⟨mul_nonneg (mul_nonneg hj h1) (hpos.face f hf'.1 hf'.2 g q), ?_, _, rfl, ?_⟩
      · unfold Face.exchangeCoef
        refine add_nonneg ?_ ?_
        · split_ifs <;> simp [h2]
        · split_ifs with hr
          · have := ((hamb f hf'.1 hf'.2 q T).2 hr).1
            have : 0 ≤ (f.coef q T).radTinf := by linarith
            have : 0 ≤ T := by linarith
            positivity
          · exact le_rfl
      · unfold Face.exchangeCoef
        obtain ⟨ac, ar⟩ := hamb f hf'.1 hf'.2 q T
        have hc : (if Has (getType m.types f.id) .convective then (f.coef q T).conv else 0) * lo ≤
            (if Has (getType m.types f.id) .convective then (f.coef q T).conv * (f.coef q T).convTinf else 0) ∧
            (if Has (getType m.types f.id) .convective then (f.coef q T).conv * (f.coef q T).convTinf else 0) ≤
            (if Has (getType m.types f.id) .convective then (f.coef q T).conv else 0) * hi := by
          by_cases hc : Has (getType m.types f.id) .convective
          · simp only [hc, if_true]
            exact ⟨mul_le_mul_of_nonneg_left (ac hc).1 h2, mul_le_mul_of_nonneg_left (ac hc).2 h2⟩
          · simp [hc]
        have hr : (if Has (getType m.types f.id) .radiative then (f.coef q T).emissivity * 5.670374419e-8 * (T + (f.coef q T).radTinf) *
              (T ^ 2 + (f.coef q T).radTinf ^ 2) else 0) * lo ≤
            (if Has (getType m.types f.id) .radiative then (f.coef q T).emissivity * 5.670374419e-8 * (T + (f.coef q T).radTinf) *
              (T ^ 2 + (f.coef q T).radTinf ^ 2) * (f.coef q T).radTinf else 0) ∧
            (if Has (getType m.types f.id) .radiative then (f.coef q T).emissivity * 5.670374419e-8 * (T + (f.coef q T).radTinf) *
              (T ^ 2 + (f.coef q T).radTinf ^ 2) * (f.coef q T).radTinf else 0) ≤
            (if Has (getType m.types f.id) .radiative then (f.coef q T).emissivity * 5.670374419e-8 * (T + (f.coef q T).radTinf) *
              (T ^ 2 + (f.coef q T).radTinf ^ 2) else 0) * hi := by
          by_cases hr : Has (getType m.types f.id) .radiative
          · simp only [hr, if_true]
            have h5 : 0 ≤ (f.coef q T).radTinf := by linarith [(ar hr).1]
            have h6 : 0 ≤ T := by linarith
            have : 0 ≤ (f.coef q T).emissivity * 5.670374419e-8 * (T + (f.coef q T).radTinf) * (T ^ 2 + (f.coef q T).radTinf ^ 2) := by
              positivity
            exact ⟨mul_le_mul_of_nonneg_left (ar hr).1 this, mul_le_mul_of_nonneg_left (ar hr).2 this⟩
          · simp [hr]
        constructor
        · rw [add_mul]; exact add_le_add hc.1 hr.1
        · rw [add_mul]; exact add_le_add hc.2 hr.2
    unfold Face.strength Face.ambient
    rw [Finset.sum_mul, Finset.sum_mul]
    refine ⟨Finset.sum_le_sum fun q _ => ?_, Finset.sum_le_sum fun q _ => ?_, Finset.sum_nonneg fun q _ => ?_⟩
    · obtain ⟨hw, hx, a, ha, h1, h2⟩ := hpt q
      rw [← ha]
      have := mul_le_mul_of_nonneg_left h1 hw
      linarith
    · obtain ⟨hw, hx, a, ha, h1, h2⟩ := hpt q
      rw [← ha]
      have := mul_le_mul_of_nonneg_left h2 hw
      linarith
    · obtain ⟨hw, hx, _⟩ := hpt q
      have := mul_nonneg hw hx
      linarith
  unfold Mesh.exchange Mesh.ambient
  rw [← list_sum_mulr, ← list_sum_mulr]
  refine ⟨List.sum_le_sum fun f hf => (key f hf).1, List.sum_le_sum fun f hf => (key f hf).2.1, List.sum_nonneg ?_⟩
  intro x hx
  obtain ⟨f, hf, rfl⟩ := List.mem_map.1 hx
  exact (key f hf).2.2

/-- One forward Euler step within the limit: lower bound with sources that do not cool, upper bound without sources. -/
theorem euler_range (m : Mesh ι) (hm : Consistent m) (hp : PureAdiabatic m.types) (hpos : Positive m) (hpas : Passive m)
    (lo hi dt : ℝ) (hlo : 0 ≤ lo) (h0 : 0 ≤ dt) (hamb : AmbientBetween m lo hi) (hl : StepLimit m lo hi dt) (beams : List Beam)
    (hoff : OffIsZero beams) (y : ι → ℝ) (hy : Between m lo hi y) (g : ι) (hg : m.hanging.constrained g = false) :
    ((∀ p, 0 ≤ power beams p) → lo ≤ y g + dt * (m.invMass g * m.vmult beams y g)) ∧
    ((∀ p, power beams p ≤ 0) → y g + dt * (m.invMass g * m.vmult beams y g) ≤ hi) := by
  have hM := hl.mass g hg
  have hinv := (C99_lumped_mass m hm).2.2.2.2 g hM.ne'
  have hiv : 0 < m.invMass g := by rw [Mesh.invMass]; positivity
  have hlim := hl.limit y hy g hg
  obtain ⟨ha1, ha2, hE⟩ := ambient_between m hm hpos hpas lo hi hlo hamb y hy g
  rw [vmult_exchange m hm hp beams hoff y g hg]
  have hC : ∀ g' ∈ Finset.univ.erase g, 0 ≤ m.coupling y g g' := by
    intro g' hg'
    by_cases hc : m.hanging.constrained g' = true
    · rw [coupling_constrained m y g g' hc]
    · exact hl.coupling y hy g g' (Finset.ne_of_mem_erase hg').symm hg (by simpa using hc)
  have hb := hy g hg
  have hheat : ∀ s : ℝ, (∀ p, 0 ≤ s * power beams p) → 0 ≤ s * m.heatIn beams y g := by
    intro s hs
    unfold Mesh.heatIn
    rw [← list_sum_smul]
    refine List.sum_nonneg ?_
    intro x hx
    obtain ⟨c, hc, rfl⟩ := List.mem_map.1 hx
    have hc' := (mem_material m c).1 hc
    rw [Finset.mul_sum]
    refine Finset.sum_nonneg fun q _ => ?_
    obtain ⟨hj, _, hk⟩ := hpas.cell c hc'.1 hc'.2 q
    have h1 := mul_nonneg hj (hk (c.temperature m.hanging y q)).1
    have h2 := mul_nonneg (hs (c.point q)) (hpos.cell c hc'.1 hc'.2 g q)
    have := mul_nonneg h1 h2
    linarith
  set C := ∑ g' ∈ Finset.univ.erase g, m.coupling y g g' with hCdef
  have hsum : ∀ T, ∑ g' ∈ Finset.univ.erase g, m.coupling y g g' * (y g' - y g) =
      ∑ g' ∈ Finset.univ.erase g, m.coupling y g g' * (y g' - T) - C * (y g - T) := by
    intro T
    rw [hCdef, Finset.sum_mul, ← Finset.sum_sub_distrib]
    exact Finset.sum_congr rfl fun _ _ => by ring
  constructor
  · intro hpow
    have hh := hheat 1 (by simpa using hpow)
    rw [hsum lo]
    have hS : 0 ≤ ∑ g' ∈ Finset.univ.erase g, m.coupling y g g' * (y g' - lo) := by
      refine Finset.sum_nonneg fun g' hg' => ?_
      by_cases hc : m.hanging.constrained g' = true
      · rw [coupling_constrained m y g g' hc]; simp
      · exact mul_nonneg (hC g' hg') (by linarith [(hy g' (by simpa using hc)).1])
    set S := ∑ g' ∈ Finset.univ.erase g, m.coupling y g g' * (y g' - lo)
    have hmain : 0 ≤ m.mass g * (y g - lo) + dt * (S - C * (y g - lo) + (m.ambient y g - m.exchange y g * y g) + m.heatIn beams y g) := by
      have e1 := mul_nonneg (sub_nonneg.2 hlim) (sub_nonneg.2 hb.1)
      have e2 := mul_nonneg h0 hS
      have e3 := mul_nonneg h0 (sub_nonneg.2 ha1)
      have e4 := mul_nonneg h0 hh
      linarith
    have := mul_nonneg hiv.le hmain
    have e : m.invMass g * (m.mass g * (y g - lo) + dt * (S - C * (y g - lo) + (m.ambient y g - m.exchange y g * y g) +
        m.heatIn beams y g)) = y g + dt * (m.invMass g * (S - C * (y g - lo) + (m.ambient y g - m.exchange y g * y g) +
        m.heatIn beams y g)) - lo := by linear_combination (y g - lo) * hinv
    linarith
  · intro hpow
    have hh := hheat (-1) (fun p => by have := hpow p; linarith)
    rw [hsum hi]
    have hS : ∑ g' ∈ Finset.univ.erase g, m.coupling y g g' * (y g' - hi) ≤ 0 := by
      refine Finset.sum_nonpos fun g' hg' => ?_
      by_cases hc : m.hanging.constrained g' = true
      · rw [coupling_constrained m y g g' hc]; simp
      · exact mul_nonpos_of_nonneg_of_nonpos (hC g' hg') (by linarith [(hy g' (by simpa using hc)).2])
    set S := ∑ g' ∈ Finset.univ.erase g, m.coupling y g g' * (y g' - hi)
    have hmain : 0 ≤ m.mass g * (hi - y g) - dt * (S - C * (y g - hi) + (m.ambient y g - m.exchange y g * y g) + m.heatIn beams y g) := by
      have e1 := mul_nonneg (sub_nonneg.2 hlim) (sub_nonneg.2 hb.2)
      have e2 := mul_nonneg h0 (neg_nonneg.2 hS)
      have e3 := mul_nonneg h0 (sub_nonneg.2 ha2)
      have e4 := mul_nonneg h0 hh
      linarith
    have := mul_nonneg hiv.le hmain
    have e : m.invMass g * (m.mass g * (hi - y g) - dt * (S - C * (y g - hi) + (m.ambient y g - m.exchange y g * y g) +
        m.heatIn beams y g)) = hi - (y g + dt * (m.invMass g * (S - C * (y g - hi) + (m.ambient y g - m.exchange y g * y g) +
        m.heatIn beams y g))) := by linear_combination (hi - y g) * hinv
    linarith

theorem resolve_between (m : Mesh ι) (hm : Consistent m) (hpos : Positive m) (lo hi : ℝ) (y : ι → ℝ) (hy : Between m lo hi y) (g' : ι) :
    lo ≤ m.hanging.resolve y g' ∧ m.hanging.resolve y g' ≤ hi := by
  have h : ∀ T, T = ∑ g, m.hanging.coef g' g * T := fun T => by rw [← Finset.sum_mul, hm.weights, one_mul]
  constructor
  · rw [h lo]
    refine Finset.sum_le_sum fun g _ => ?_
    by_cases hg : m.hanging.constrained g = true
    · rw [coef_constrained m.hanging g' g hg]; simp
    · exact mul_le_mul_of_nonneg_left (hy g (by simpa using hg)).1 (hpos.weights g' g)
  · rw [h hi]
    refine Finset.sum_le_sum fun g _ => ?_
    by_cases hg : m.hanging.constrained g = true
    · rw [coef_constrained m.hanging g' g hg]; simp
    · exact mul_le_mul_of_nonneg_left (hy g (by simpa using hg)).2 (hpos.weights g' g)

theorem offIsZero_of_zero (beams : List Beam) (h : ∀ b ∈ beams, b.on = false) (h2 : ∀ b ∈ beams, ∀ p, b.lanes p = 0) :
    OffIsZero beams ∧ ∀ p, power beams p = 0 := by
  refine ⟨fun b hb _ p => h2 b hb p, fun p => ?_⟩
  unfold power
  apply List.sum_eq_zero
  intro x hx
  obtain ⟨b, hb, rfl⟩ := List.mem_map.1 hx
  exact h2 b hb p

theorem vmult_off (m : Mesh ι) (beams : List Beam) (h : ∀ b ∈ beams, b.on = false) (y : ι → ℝ) : m.vmult beams y = m.vmult [] y := by
  rw [Mesh.vmult, vmultAdd_off m beams (all_off beams h)]; rfl

/-- **C116**, forward Euler: with all sources off and a time step within the limit, no temperature ever leaves the range of the
initial temperatures and the temperatures of the surroundings, whatever the temperature dependence of the material data.  Missing:
nothing in the application enforces the limit (`C116_unstable_refuted`). -/
theorem C116_range_partial (m : Mesh ι) (hm : Consistent m) (hp : PureAdiabatic m.types) (hpos : Positive m) (hpas : Passive m)
    (lo hi dt : ℝ) (hlo : 0 ≤ lo) (h0 : 0 ≤ dt) (hamb : AmbientBetween m lo hi) (hl : StepLimit m lo hi dt) (beams : ℝ → List Beam)
    (hoff : ∀ t, ∀ b ∈ beams t, b.on = false) (t0 t : ℝ) (y : ι → ℝ) (hy : Between m lo hi y) (k : ℕ) :
    ∃ z op, steps (some .forwardEuler) dt k (t, y, m.operator beams t0) = some (t + k * dt, z, op) ∧ Between m lo hi z ∧
      ∀ g, lo ≤ m.hanging.resolve z g ∧ m.hanging.resolve z g ≤ hi := by
  obtain ⟨op, h⟩ := steps_eq .forwardEuler dt k t y (m.operator beams t0)
  have hz : Between m lo hi (runOf (rhs (m.operator beams t0)) .forwardEuler dt k t y) := by
    clear h
    induction k generalizing t y with
    | zero => exact hy
    | succ k ih =>
      refine ih (t + dt) _ fun g hg => ?_
      simp only [stepOf]
      rw [rhs_operator, vmult_off m (beams t) (hoff t)]
      have := euler_range m hm hp hpos hpas lo hi dt hlo h0 hamb hl [] offNil y hy g hg
      exact ⟨this.1 fun p => le_of_eq rfl, this.2 fun p => le_of_eq rfl⟩
  exact ⟨_, op, h, hz, resolve_between m hm hpos lo hi _ hz⟩

/-- **C116**, sources never cool: with sources of non-negative power density and a time step within the limit (for the temperatures
up to `hi` the run has stayed below so far), forward Euler never produces a temperature below the range of the initial temperatures and
those of the surroundings.  Missing: the limit is not enforced. -/
theorem C116_no_cooling_partial (m : Mesh ι) (hm : Consistent m) (hp : PureAdiabatic m.types) (hpos : Positive m) (hpas : Passive m)
    (lo hi dt : ℝ) (hlo : 0 ≤ lo) (h0 : 0 ≤ dt) (hamb : AmbientBetween m lo hi) (hl : StepLimit m lo hi dt) (beams : ℝ → List Beam)
    (hoff : ∀ t, OffIsZero (beams t)) (hpow : ∀ t p, 0 ≤ power (beams t) p) (t0 t : ℝ) (y : ι → ℝ) (hy : Between m lo hi y) (k : ℕ)
    (hbelow : ∀ j < k, ∀ z op, steps (some .forwardEuler) dt j (t, y, m.operator beams t0) = some (t + j * dt, z, op) →
      ∀ g, m.hanging.constrained g = false → z g ≤ hi) :
    ∃ z op, steps (some .forwardEuler) dt k (t, y, m.operator beams t0) = some (t + k * dt, z, op) ∧
      ∀ g, m.hanging.constrained g = false → lo ≤ z g := by
  obtain ⟨op, h⟩ := steps_eq .forwardEuler dt k t y (m.operator beams t0)
  refine ⟨_, op, h, ?_⟩
  clear h op
  have hbelow' : ∀ j < k, ∀ g, m.hanging.constrained g = false →
      runOf (rhs (m.operator beams t0)) .forwardEuler dt j t y g ≤ hi := by
    intro j hj g hg
    obtain ⟨op, h⟩ := steps_eq .forwardEuler dt j t y (m.operator beams t0)
    exact hbelow j hj _ op h g hg
  have hsucc : ∀ (j : ℕ) (t : ℝ) (y : ι → ℝ), runOf (rhs (m.operator beams t0)) .forwardEuler dt (j + 1) t y =
      stepOf (rhs (m.operator beams t0)) (t + j * dt) dt (runOf (rhs (m.operator beams t0)) .forwardEuler dt j t y) .forwardEuler := by
    intro j
    induction j with
    | zero => intro t y; simp [runOf]
    | succ j ih =>
      intro t y
      rw [runOf, ih, runOf]
      congr 1
      push_cast; ring
  clear hbelow
  induction k with
  | zero => exact fun g hg => (hy g hg).1
  | succ k ih =>
    intro g hg
    have ihk := ih fun j hj => hbelow' j (by omega)
    have hb : Between m lo hi (runOf (rhs (m.operator beams t0)) .forwardEuler dt k t y) :=
      fun g hg => ⟨ihk g hg, hbelow' k (by omega) g hg⟩
    rw [hsucc]
    simp only [stepOf]
    rw [rhs_operator]
    exact (euler_range m hm hp hpos hpas lo hi dt hlo h0 hamb hl (beams _) (hoff _) _ hb g hg).1 (hpow _)

/-! ## Runge-Kutta methods -/

/-- Temperature-independent material data and no radiation. -/
structure ConstantData (m : Mesh ι) : Prop where
  cell : ∀ c ∈ m.cells, c.fe = 0 → ∀ q T T', c.coef q T = c.coef q T'
  face : ∀ f ∈ m.faces, f.Exposed → ∀ q T T', f.coef q T = f.coef q T'
  noRadiation : ∀ f ∈ m.faces, f.Exposed → ¬ Has (getType m.types f.id) .radiative

/-- A combination of four temperature fields. -/
def mix (a b c d : ℝ) (w x y z : ι → ℝ) (i : ι) : ℝ := a * w i + b * x i + c * y i + d * z i

omit [Fintype ι] [DecidableEq ι] in
theorem list_mix {α : Type*} (l : List α) (a b c d : ℝ) (φ ψ χ ω : α → ℝ) :
    (l.map fun i => a * φ i + b * ψ i + c * χ i + d * ω i).sum =
      a * (l.map φ).sum + b * (l.map ψ).sum + c * (l.map χ).sum + d * (l.map ω).sum := by
  induction l with
  | nil => simp
  | cons x l ih => simp only [List.map_cons, List.sum_cons, ih]; ring

omit [DecidableEq ι] in
theorem sum_mix (a b c d : ℝ) (w x y z φ : ι → ℝ) : ∑ g, mix a b c d w x y z g * φ g =
    a * ∑ g, w g * φ g + b * ∑ g, x g * φ g + c * ∑ g, y g * φ g + d * ∑ g, z g * φ g := by
  simp only [mix, Finset.mul_sum, ← Finset.sum_add_distrib]
  exact Finset.sum_congr rfl fun _ _ => by ring

theorem vmult_mix (m : Mesh ι) (hp : PureAdiabatic m.types) (hc : ConstantData m) (a b c d : ℝ) (h1 : a + b + c + d = 1)
    (w x y z : ι → ℝ) (g : ι) : m.vmult [] (mix a b c d w x y z) g =
      a * m.vmult [] w g + b * m.vmult [] x g + c * m.vmult [] y g + d * m.vmult [] z g := by
  have hbulk : m.bulkTerm [] (mix a b c d w x y z) g =
      a * m.bulkTerm [] w g + b * m.bulkTerm [] x g + c * m.bulkTerm [] y g + d * m.bulkTerm [] z g := by
    unfold Mesh.bulkTerm
    rw [← list_mix]
    refine congrArg List.sum (List.map_congr_left fun e he => ?_)
    have he' := (mem_material m e).1 he
    unfold Cell.weak
    simp only [Finset.mul_sum _ _ a, Finset.mul_sum _ _ b, Finset.mul_sum _ _ c, Finset.mul_sum _ _ d, ← Finset.sum_add_distrib]
    have hg : ∀ q k, e.gradT m.hanging (mix a b c d w x y z) q k = a * e.gradT m.hanging w q k + b * e.gradT m.hanging x q k +
        c * e.gradT m.hanging y q k + d * e.gradT m.hanging z q k := fun q k => sum_mix a b c d w x y z _
    refine Finset.sum_congr rfl fun q _ => ?_
    rw [hc.cell e he'.1 he'.2 q _ 0, hc.cell e he'.1 he'.2 q (e.temperature m.hanging w q) 0,
      hc.cell e he'.1 he'.2 q (e.temperature m.hanging x q) 0, hc.cell e he'.1 he'.2 q (e.temperature m.hanging y q) 0,
      hc.cell e he'.1 he'.2 q (e.temperature m.hanging z q) 0]
    have hpw : power [] (e.point q) = 0 := rfl
    simp only [hg, hpw, Fin.sum_univ_three]
    ring
  have hbd : m.boundaryTerm (mix a b c d w x y z) g =
      a * m.boundaryTerm w g + b * m.boundaryTerm x g + c * m.boundaryTerm y g + d * m.boundaryTerm z g := by
    unfold Mesh.boundaryTerm
    rw [← list_mix]
    refine congrArg List.sum (List.map_congr_left fun f hf => ?_)
    have hf' := (mem_surface m f).1 hf
    unfold Face.weak
    simp only [Finset.mul_sum, ← Finset.sum_add_distrib]
    refine Finset.sum_congr rfl fun q _ => ?_
    have ht : f.temperature m.hanging (mix a b c d w x y z) q = a * f.temperature m.hanging w q + b * f.temperature m.hanging x q +
        c * f.temperature m.hanging y q + d * f.temperature m.hanging z q := sum_mix a b c d w x y z _
    have hr := hc.noRadiation f hf'.1 hf'.2
    unfold Face.outflow
    rw [hc.face f hf'.1 hf'.2 q _ 0, hc.face f hf'.1 hf'.2 q (f.temperature m.hanging w q) 0,
      hc.face f hf'.1 hf'.2 q (f.temperature m.hanging x q) 0, hc.face f hf'.1 hf'.2 q (f.temperature m.hanging y q) 0,
      hc.face f hf'.1 hf'.2 q (f.temperature m.hanging z q) 0, ht]
    have hd : d = 1 - a - b - c := by linarith
    by_cases hcv : Has (getType m.types f.id) .convective
    · simp only [hr, hcv, if_true, if_false, hd]; ring
    · simp only [hr, hcv, if_false]; ring
  by_cases hg : m.hanging.constrained g = true
  · simp only [vmult_constrained m [] _ g hg, mix]
  · have hg' : m.hanging.constrained g = false := by simpa using hg
    simp only [vmult_free m [] offNil hp _ g hg', hbulk, hbd]; ring

/-- For an affine right-hand side a step of each of the methods is a mean of forward Euler steps. -/
theorem step_mean (f : (ι → ℝ) → ι → ℝ) (hf : ∀ a b c d : ℝ, a + b + c + d = 1 → ∀ w x y z : ι → ℝ, ∀ i,
    f (mix a b c d w x y z) i = a * f w i + b * f x i + c * f y i + d * f z i) (t dt : ℝ) (y : ι → ℝ) (i : ι) :
    let F : (ι → ℝ) → ι → ℝ := fun y i => y i + dt * f y i
    stepOf (fun _ => f) t dt y .rk3 i = 1 / 3 * y i + 1 / 2 * F y i + 1 / 6 * F (F (F y)) i ∧
    stepOf (fun _ => f) t dt y .rk4 i = 3 / 8 * y i + 1 / 3 * F y i + 1 / 4 * F (F y) i + 1 / 24 * F (F (F (F y))) i := by
  intro F
  have s1 : (fun i => y i + dt / 2 * f y i) = mix (1 / 2) (1 / 2) 0 0 y (F y) y y := by funext i; simp only [mix, F]; ring
  have k2 : ∀ i, f (mix (1 / 2) (1 / 2) 0 0 y (F y) y y) i = 1 / 2 * f y i + 1 / 2 * f (F y) i := fun i => by
    rw [hf _ _ _ _ (by norm_num)]; ring
  constructor
  · have s2 : (fun i => y i + dt * (2 * (1 / 2 * f y i + 1 / 2 * f (F y) i) - f y i)) = mix 1 (-1) 1 0 y (F y) (F (F y)) y := by
      funext i; simp only [mix, F]; ring
    have k3 : ∀ i, f (mix 1 (-1) 1 0 y (F y) (F (F y)) y) i = f y i - f (F y) i + f (F (F y)) i := fun i => by
      rw [hf _ _ _ _ (by norm_num)]; ring
    simp only [stepOf, s1, k2, s2, k3]
    simp only [F]
    ring
  · have s2 : (fun i => y i + dt / 2 * (1 / 2 * f y i + 1 / 2 * f (F y) i)) = mix (3 / 4) (1 / 4) 0 0 y (F (F y)) y y := by
      funext i; simp only [mix, F]; ring
    have k3 : ∀ i, f (mix (3 / 4) (1 / 4) 0 0 y (F (F y)) y y) i = 3 / 4 * f y i + 1 / 4 * f (F (F y)) i := fun i => by
      rw [hf _ _ _ _ (by norm_num)]; ring
    have s3 : (fun i => y i + dt * (3 / 4 * f y i + 1 / 4 * f (F (F y)) i)) =
        mix (1 / 4) (3 / 4) (-1 / 4) (1 / 4) y (F y) (F (F y)) (F (F (F y))) := by
      funext i; simp only [mix, F]; ring
    have k4 : ∀ i, f (mix (1 / 4) (3 / 4) (-1 / 4) (1 / 4) y (F y) (F (F y)) (F (F (F y)))) i =
        1 / 4 * f y i + 3 / 4 * f (F y) i + -1 / 4 * f (F (F y)) i + 1 / 4 * f (F (F (F y))) i := fun i => by
      rw [hf _ _ _ _ (by norm_num)]
    simp only [stepOf, s1, k2, s2, k3, s3, k4]
    simp only [F]
    ring

/-- **C116**, all three methods for temperature-independent data: with all sources off and a time step within the same limit, no
temperature ever leaves the range of the initial temperatures and the temperatures of the surroundings.  Missing:
temperature-dependent data and radiation with the Runge-Kutta methods; the limit is not enforced. -/
theorem C116_constant_data_partial (m : Mesh ι) (hm : Consistent m) (hp : PureAdiabatic m.types) (hpos : Positive m) (hpas : Passive m)
    (hc : ConstantData m) (lo hi dt : ℝ) (hlo : 0 ≤ lo) (h0 : 0 ≤ dt) (hamb : AmbientBetween m lo hi) (hl : StepLimit m lo hi dt)
    (beams : ℝ → List Beam) (hoff : ∀ t, ∀ b ∈ beams t, b.on = false) (t0 t : ℝ) (y : ι → ℝ) (hy : Between m lo hi y) (meth : Method)
    (k : ℕ) :
    ∃ z op, steps (some meth) dt k (t, y, m.operator beams t0) = some (t + k * dt, z, op) ∧ Between m lo hi z ∧
      ∀ g, lo ≤ m.hanging.resolve z g ∧ m.hanging.resolve z g ≤ hi := by
  obtain ⟨op, h⟩ := steps_eq meth dt k t y (m.operator beams t0)
  have hrhs : rhs (m.operator beams t0) = fun _ y g => m.invMass g * m.vmult [] y g := by
    funext s y g
    rw [rhs_operator, vmult_off m (beams s) (hoff s)]
  have hF : ∀ y, Between m lo hi y → Between m lo hi fun i => y i + dt * (m.invMass i * m.vmult [] y i) := by
    intro y hy g hg
    have := euler_range m hm hp hpos hpas lo hi dt hlo h0 hamb hl [] offNil y hy g hg
    exact ⟨this.1 fun p => le_of_eq rfl, this.2 fun p => le_of_eq rfl⟩
  have hz : Between m lo hi (runOf (rhs (m.operator beams t0)) meth dt k t y) := by
    clear h
    rw [hrhs]
    induction k generalizing t y with
    | zero => exact hy
    | succ k ih =>
      refine ih (t + dt) _ fun g hg => ?_
      have hm := step_mean (fun y g => m.invMass g * m.vmult [] y g)
        (fun a b c d h w x y z i => by rw [vmult_mix m hp hc a b c d h]; ring) t dt y g
      have b1 := hF y hy
      have b2 := hF _ b1
      have b3 := hF _ b2
      have b4 := hF _ b3
      have a0 := hy g hg
      have a1 := b1 g hg
      have a2 := b2 g hg
      have a3 := b3 g hg
      have a4 := b4 g hg
      cases meth with
      | forwardEuler => exact a1
      | rk3 =>
        rw [hm.1]
        dsimp only at a1 a2 a3 a4 ⊢
        constructor <;> linarith
      | rk4 =>
        rw [hm.2]
        dsimp only at a1 a2 a3 a4 ⊢
        constructor <;> linarith
  exact ⟨_, op, h, hz, resolve_between m hm hpos lo hi _ hz⟩

/-! ## A rod of one cell -/

/-- One linear cell between two degrees of freedom, `1/(ρ c_p) = a`; the face at degree of freedom 0 has the exchange coefficient `h`
with surroundings at 300 K. -/
noncomputable def endRod (a h : ℝ) (types : List ℕ) : Mesh (Fin 2) where
  hanging := noHanging _
  cells := [lineCell 0 1 1 a 0]
  faces := [⟨0, none, 0, 1, fun _ => 1, ⟨1, fun _ => 0, fun _ _ => 1⟩, ⟨0, Fin.elim0, fun i => i.elim0⟩, fun _ _ => ⟨1, h, 300, 0, 0⟩⟩]
  types := types

theorem endRod_consistent (a h : ℝ) (types : List ℕ) : Consistent (endRod a h types) := by
  refine ⟨?_, ?_, ?_, ?_, ?_⟩
  · intro g'
    simp [endRod, noHanging, Hanging.coef]
  · intro c hc _
    simp only [endRod, List.mem_cons, List.not_mem_nil, or_false] at hc
    subst hc
    exact (lineCell_shape _ _ _ _ _).1
  · intro c hc _
    simp only [endRod, List.mem_cons, List.not_mem_nil, or_false] at hc
    subst hc
    exact (lineCell_shape _ _ _ _ _).2.1
  · intro c hc _
    simp only [endRod, List.mem_cons, List.not_mem_nil, or_false] at hc
    subst hc
    exact (lineCell_shape _ _ _ _ _).2.2
  · intro f hf _ q
    simp only [endRod, List.mem_cons, List.not_mem_nil, or_false] at hf
    subst hf
    change (∑ i : Fin 1, (1 : ℝ)) = 1
    simp

theorem endRod_mass (a h : ℝ) (types : List ℕ) (g : Fin 2) : (endRod a h types).mass g = 1 / 2 := by
  rw [(C99_lumped_mass _ (endRod_consistent a h types)).1 g rfl]
  have hmat : (endRod a h types).material = [lineCell 0 1 1 a 0] := rfl
  rw [hmat]
  simp only [List.map_cons, List.map_nil, List.sum_cons, List.sum_nil, add_zero]
  change (∑ q : Fin 2, (1 / 2 : ℝ) * ∑ i : Fin 2, (noHanging (Fin 2)).coef (![0, 1] i) g * (if i = q then 1 else 0)) = _
  simp only [Fin.sum_univ_two, noHanging, Hanging.coef]
  fin_cases g <;> simp

theorem endRod_conductance (a : ℝ) (y : Fin 2 → ℝ) (g g' : Fin 2) (hg : g ≠ g') :
    (lineCell (0 : Fin 2) 1 1 a 0).conductance (noHanging _) y g g' = a := by
  have hd : ∀ (g : Fin 2) (q : Fin 1) (d : Fin 3), (lineCell (0 : Fin 2) 1 1 a 0).dphi (noHanging _) g q d =
      if d = 0 then (if 1 = g then 1 else 0) - (if 0 = g then 1 else 0) else 0 := by
    intro g q d
    change (∑ i : Fin 2, (noHanging (Fin 2)).coef (![0, 1] i) g * (if d = 0 then (if i = 0 then -1 / 1 else 1 / 1) else 0)) = _
    simp only [Fin.sum_univ_two, noHanging, Hanging.coef]
    by_cases h0 : d = 0 <;> fin_cases g <;> simp [h0]
  unfold Cell.conductance
  change (∑ q : Fin 1, (1 : ℝ) * (a * -∑ d, ∑ e, (lineCell (0 : Fin 2) 1 1 a 0).dphi (noHanging _) g q d *
    conductivityTensor 1 1 1 1 0 d e * (lineCell (0 : Fin 2) 1 1 a 0).dphi (noHanging _) g' q e)) = _
  rw [Fin.sum_univ_one, conductivityTensor_eq]
  simp only [hd, Fin.sum_univ_three]
  fin_cases g <;> fin_cases g' <;> simp at hg ⊢

theorem endRod_face (a h : ℝ) (types : List ℕ) (f : Face (Fin 2)) (hf : f ∈ (endRod a h types).faces) (g : Fin 2) (q : Fin f.nq) :
    f.phi (noHanging _) g q = if g = 0 then 1 else 0 := by
  simp only [endRod, List.mem_cons, List.not_mem_nil, or_false] at hf
  subst hf
  change (∑ i : Fin 1, (noHanging (Fin 2)).coef 0 g * 1) = _
  rw [Fin.sum_univ_one]
  fin_cases g <;> simp [noHanging, Hanging.coef]

theorem endRod_coupling (a h : ℝ) (types : List ℕ) (y : Fin 2 → ℝ) (g g' : Fin 2) (hg : g ≠ g') : (endRod a h types).coupling y g g' = a := by
  unfold Mesh.coupling
  have h1 : ((endRod a h types).material.map fun c => c.conductance (endRod a h types).hanging y g g').sum = a := by
    have hmat : (endRod a h types).material = [lineCell 0 1 1 a 0] := rfl
    rw [hmat]
    simp only [List.map_cons, List.map_nil, List.sum_cons, List.sum_nil, add_zero]
    exact endRod_conductance a y g g' hg
  have h2 : ((endRod a h types).surface.map fun f => f.cross (endRod a h types).types (endRod a h types).hanging y g g').sum = 0 := by
    apply List.sum_eq_zero
    intro x hx
    obtain ⟨f, hf, rfl⟩ := List.mem_map.1 hx
    have hf' := (mem_surface _ f).1 hf
    unfold Face.cross
    refine Finset.sum_eq_zero fun q _ => ?_
    rw [show (endRod a h types).hanging = noHanging _ from rfl, endRod_face a h types f hf'.1, endRod_face a h types f hf'.1]
    fin_cases g <;> fin_cases g' <;> simp at hg ⊢
  rw [h1, h2, sub_zero]

/-- The rod with a convective face meets the hypotheses of C116 with the time step 1/4. -/
theorem endRod_limit : PureAdiabatic (endRod 1 1 [4, 4]).types ∧ Positive (endRod 1 1 [4, 4]) ∧ Passive (endRod 1 1 [4, 4]) ∧
    ConstantData (endRod 1 1 [4, 4]) ∧ AmbientBetween (endRod 1 1 [4, 4]) 280 330 ∧ StepLimit (endRod 1 1 [4, 4]) 280 330 (1 / 4) := by
  have hface : ∀ f ∈ (endRod 1 1 [4, 4]).faces, f.id = 0 ∧ ∀ q T, f.coef q T = ⟨1, 1, 300, 0, 0⟩ ∧ f.jxw q = 1 := by
    intro f hf
    simp only [endRod, List.mem_cons, List.not_mem_nil, or_false] at hf
    subst hf
    exact ⟨rfl, fun _ _ => ⟨rfl, rfl⟩⟩
  have hcell : ∀ c ∈ (endRod 1 1 [4, 4]).cells, c = lineCell 0 1 1 1 0 := by
    intro c hc
    simpa only [endRod, List.mem_cons, List.not_mem_nil, or_false] using hc
  have hcoef : ∀ g' g, 0 ≤ (noHanging (Fin 2)).coef g' g := by
    intro g' g
    simp only [noHanging, Hanging.coef]
    simp only [Bool.false_eq_true, if_false]
    split_ifs <;> norm_num
  refine ⟨?_, ⟨hcoef, ?_, ?_⟩, ⟨?_, ?_⟩, ⟨?_, ?_, ?_⟩, ?_, ⟨?_, ?_, ?_⟩⟩
  · intro t ht
    simp only [endRod, List.mem_cons, List.not_mem_nil, or_false, or_self] at ht
    subst ht
    decide
  · intro c hc _ g q
    obtain rfl := hcell c hc
    exact Finset.sum_nonneg fun i _ => mul_nonneg (hcoef _ _) (by simp [lineCell])
  · intro f hf _ g q
    rw [show (endRod 1 1 [4, 4]).hanging = noHanging _ from rfl, endRod_face _ _ _ f hf]
    split_ifs <;> norm_num
  · intro c hc _ q
    obtain rfl := hcell c hc
    refine ⟨by simp [lineCell], by simp [lineCell], fun T => by simp [lineCell]⟩
  · intro f hf _ q
    refine ⟨by rw [((hface f hf).2 q 0).2]; norm_num, fun T => ?_⟩
    rw [((hface f hf).2 q T).1]
    norm_num
  · intro c hc _ q T T'
    obtain rfl := hcell c hc
    rfl
  · intro f hf _ q T T'
    rw [((hface f hf).2 q T).1, ((hface f hf).2 q T').1]
  · intro f hf _
    rw [(hface f hf).1]
    decide
  · intro f hf _ q T
    rw [((hface f hf).2 q T).1]
    norm_num
    intro h
    rw [(hface f hf).1] at h
    exact absurd h (by decide)
  · intro g _
    rw [endRod_mass]; norm_num
  · intro y _ g g' hg _ _
    rw [endRod_coupling _ _ _ y g g' hg]; norm_num
  · intro y _ g _
    rw [endRod_mass]
    have hE : (endRod 1 1 [4, 4]).exchange y g ≤ 1 := by
      unfold Mesh.exchange
      have hs : (endRod 1 1 [4, 4]).surface = (endRod 1 1 [4, 4]).faces := rfl
      rw [hs]
      have hone : ∀ f ∈ (endRod 1 1 [4, 4]).faces, f.strength (endRod 1 1 [4, 4]).types (endRod 1 1 [4, 4]).hanging y g ≤ 1 := by
        intro f hf
        unfold Face.strength Face.exchangeCoef
        have hn : f.nq = 1 := by
          simp only [endRod, List.mem_cons, List.not_mem_nil, or_false] at hf
          subst hf; rfl
        have hle : ∀ q ∈ (Finset.univ : Finset (Fin f.nq)), f.jxw q * ((f.coef q (f.temperature (endRod 1 1 [4, 4]).hanging y q)).invRhoCp *
            ((if Has (getType (endRod 1 1 [4, 4]).types f.id) .convective then
              (f.coef q (f.temperature (endRod 1 1 [4, 4]).hanging y q)).conv else 0) +
            (if Has (getType (endRod 1 1 [4, 4]).types f.id) .radiative then
              (f.coef q (f.temperature (endRod 1 1 [4, 4]).hanging y q)).emissivity * 5.670374419e-8 *
              (f.temperature (endRod 1 1 [4, 4]).hanging y q + (f.coef q (f.temperature (endRod 1 1 [4, 4]).hanging y q)).radTinf) *
              (f.temperature (endRod 1 1 [4, 4]).hanging y q ^ 2 + (f.coef q (f.temperature (endRod 1 1 [4, 4]).hanging y q)).radTinf ^ 2) else 0)) *
            f.phi (endRod 1 1 [4, 4]).hanging g q) ≤ 1 := by
          intro q _
          rw [show f.phi (endRod 1 1 [4, 4]).hanging g q = if g = 0 then 1 else 0 from endRod_face _ _ _ f hf g q,
            ((hface f hf).2 q _).1, ((hface f hf).2 q 0).2]
          by_cases hg : g = 0 <;> by_cases h1 : Has (getType (endRod 1 1 [4, 4]).types f.id) .convective <;> simp [hg, h1]
        have := Finset.sum_le_sum hle
        refine this.trans ?_
        simp [hn]
      have hf0 : ∃ f, (endRod 1 1 [4, 4]).faces = [f] := ⟨_, rfl⟩
      obtain ⟨f, hf0⟩ := hf0
      rw [hf0] at hone ⊢
      simpa using hone f (by simp)
    have hC : ∑ g' ∈ Finset.univ.erase g, (endRod 1 1 [4, 4]).coupling y g g' = 1 := by
      rw [Finset.sum_congr rfl fun g' hg' => endRod_coupling 1 1 [4, 4] y g g' (Finset.ne_of_mem_erase hg').symm]
      simp
    rw [hC]
    linarith

/-- The hypotheses of C116 hold for the rod with a convective face and the time step 1/4: temperatures between 280 K and 330 K stay
there with each of the methods. -/
example (meth : Method) (k : ℕ) (y : Fin 2 → ℝ) (hy : ∀ g, 280 ≤ y g ∧ y g ≤ 330) : ∃ z op,
    steps (some meth) (1 / 4) k (0, y, (endRod 1 1 [4, 4]).operator (fun _ => []) 0) = some ((0 : ℝ) + (k : ℝ) * (1 / 4), z, op) ∧
      Between (endRod 1 1 [4, 4]) 280 330 z ∧ ∀ g, 280 ≤ (endRod 1 1 [4, 4]).hanging.resolve z g ∧ (endRod 1 1 [4, 4]).hanging.resolve z g ≤ 330 := by
  obtain ⟨h1, h2, h3, h4, h5, h6⟩ := endRod_limit
  exact C116_constant_data_partial _ (endRod_consistent _ _ _) h1 h2 h3 h4 280 330 (1 / 4) (by norm_num) (by norm_num) h5 h6
    (fun _ => []) (fun _ b hb => by simp at hb) 0 0 y (fun g _ => hy g) meth k

/-- The same with a source that is on, for one step from 300 K. -/
example : ∃ z op, steps (some .forwardEuler) (1 / 4) 1 (0, fun _ => 300, (endRod 1 1 [4, 4]).operator (fun _ => [cubeBeam0]) 0) =
    some ((0 : ℝ) + ((1 : ℕ) : ℝ) * (1 / 4), z, op) ∧ ∀ g, (endRod 1 1 [4, 4]).hanging.constrained g = false → 280 ≤ z g := by
  obtain ⟨h1, h2, h3, h4, h5, h6⟩ := endRod_limit
  refine C116_no_cooling_partial _ (endRod_consistent _ _ _) h1 h2 h3 280 330 (1 / 4) (by norm_num) (by norm_num) h5 h6
    (fun _ => [cubeBeam0]) ?_ ?_ 0 0 (fun _ => 300) (fun g _ => by norm_num) 1 ?_
  · intro t b hb hoff
    simp only [List.mem_cons, List.not_mem_nil, or_false] at hb
    subst hb
    simp [cubeBeam0] at hoff
  · intro t p
    simp [power, cubeBeam0]
  · intro j hj z op h g _
    obtain rfl : j = 0 := by omega
    simp only [steps, Option.some.injEq, Prod.mk.injEq] at h
    rw [← h.2.1]
    norm_num

/-- The amplification of the difference of the two temperatures of the insulated rod. -/
noncomputable def amplify (z : ℝ) : Method → ℝ
  | .forwardEuler => 1 - z
  | .rk3 => 1 - z + z ^ 2 / 2 - z ^ 3 / 6
  | .rk4 => 1 - z + z ^ 2 / 2 - z ^ 3 / 6 + z ^ 4 / 24

theorem endRod_rate (a : ℝ) (t0 t s d : ℝ) (g : Fin 2) :
    rhs ((endRod a 0 [1, 1]).operator (fun _ => []) t0) t ![s + d, s - d] g = ![-(4 * a * d), 4 * a * d] g := by
  have hp : PureAdiabatic (endRod a 0 [1, 1]).types := by
    intro t ht
    simp only [endRod, List.mem_cons, List.not_mem_nil, or_false, or_self] at ht
    subst ht
    decide
  rw [rhs_operator, vmult_exchange _ (endRod_consistent _ _ _) hp [] offNil _ g rfl, Mesh.invMass, endRod_mass]
  have hs : (endRod a 0 [1, 1]).ambient ![s + d, s - d] g = 0 ∧ (endRod a 0 [1, 1]).exchange ![s + d, s - d] g = 0 := by
    have hf : ∀ f ∈ (endRod a 0 [1, 1]).surface, ¬ Has (getType (endRod a 0 [1, 1]).types f.id) .convective ∧
        ¬ Has (getType (endRod a 0 [1, 1]).types f.id) .radiative := by
      intro f hf
      have hf' := ((mem_surface _ f).1 hf).1
      simp only [endRod, List.mem_cons, List.not_mem_nil, or_false] at hf'
      subst hf'
      exact (by decide : ¬ Has (getType [1, 1] 0) .convective ∧ ¬ Has (getType [1, 1] 0) .radiative)
    constructor
    · apply List.sum_eq_zero
      intro x hx
      obtain ⟨f, hf2, rfl⟩ := List.mem_map.1 hx
      obtain ⟨h1, h2⟩ := hf f hf2
      simp [Face.ambient, h1, h2]
    · apply List.sum_eq_zero
      intro x hx
      obtain ⟨f, hf2, rfl⟩ := List.mem_map.1 hx
      obtain ⟨h1, h2⟩ := hf f hf2
      simp [Face.strength, Face.exchangeCoef, h1, h2]
  have hh : (endRod a 0 [1, 1]).heatIn [] ![s + d, s - d] g = 0 := by
    apply List.sum_eq_zero
    intro x hx
    obtain ⟨c, _, rfl⟩ := List.mem_map.1 hx
    simp [power]
  rw [hs.1, hs.2, hh, Finset.sum_congr rfl fun g' hg' => by rw [endRod_coupling a 0 [1, 1] _ g g' (Finset.ne_of_mem_erase hg').symm]]
  have e0 : (Finset.univ.erase (0 : Fin 2)) = {1} := by decide
  have e1 : (Finset.univ.erase (1 : Fin 2)) = {0} := by decide
  fin_cases g
  · simp only [Fin.zero_eta, e0, Finset.sum_singleton]
    simp; ring
  · simp only [Fin.mk_one, e1, Finset.sum_singleton]
    simp; ring

theorem endRod_step (a : ℝ) (t0 t dt s d : ℝ) (meth : Method) :
    stepOf (rhs ((endRod a 0 [1, 1]).operator (fun _ => []) t0)) t dt ![s + d, s - d] meth =
      ![s + amplify (4 * a * dt) meth * d, s - amplify (4 * a * dt) meth * d] := by
  set f := rhs ((endRod a 0 [1, 1]).operator (fun _ => []) t0) with hf
  have key : ∀ t d, f t ![s + d, s - d] = ![-(4 * a * d), 4 * a * d] := fun t d => funext fun g => endRod_rate a t0 t s d g
  have hst : ∀ r e : ℝ, (fun i => (![s + d, s - d] : Fin 2 → ℝ) i + r * (![-(4 * a * e), 4 * a * e] : Fin 2 → ℝ) i) =
      ![s + (d - 4 * a * r * e), s - (d - 4 * a * r * e)] := by
    intro r e
    funext i
    fin_cases i
    · simp; ring
    · simp; ring
  have hst3 : ∀ r e e' : ℝ, (fun i => (![s + d, s - d] : Fin 2 → ℝ) i + r * (2 * (![-(4 * a * e), 4 * a * e] : Fin 2 → ℝ) i -
      (![-(4 * a * e'), 4 * a * e'] : Fin 2 → ℝ) i)) = ![s + (d - 4 * a * r * (2 * e - e')), s - (d - 4 * a * r * (2 * e - e'))] := by
    intro r e e'
    funext i
    fin_cases i
    · simp; ring
    · simp; ring
  cases meth with
  | forwardEuler =>
    simp only [stepOf, key, hst]
    funext i
    fin_cases i
    · simp [amplify]; ring
    · simp [amplify]; ring
  | rk3 =>
    simp only [stepOf, key, hst, hst3]
    funext i
    fin_cases i
    · simp [amplify]; ring
    · simp [amplify]; ring
  | rk4 =>
    simp only [stepOf, key, hst]
    funext i
    fin_cases i
    · simp [amplify]; ring
    · simp [amplify]; ring

theorem amplify_large (z : ℝ) (hz : 3 ≤ z) (meth : Method) : 11 / 8 ≤ |amplify z meth| := by
  have hz0 : 0 ≤ z - 3 := by linarith
  cases meth with
  | forwardEuler =>
    rw [abs_of_nonpos (by simp only [amplify]; linarith)]
    simp only [amplify]; linarith
  | rk3 =>
    have : amplify z .rk3 ≤ -2 := by
      simp only [amplify]
      nlinarith [pow_nonneg hz0 2, pow_nonneg hz0 3]
    rw [abs_of_nonpos (by linarith)]
    linarith
  | rk4 =>
    refine le_trans ?_ (le_abs_self _)
    simp only [amplify]
    nlinarith [pow_nonneg hz0 2, pow_nonneg hz0 3, pow_nonneg hz0 4]

/-- **C116 fails without a limit on the time step.**  An insulated rod of one cell, `1/(ρ c_p) = a > 0`, at 301 K and 299 K, no source:
for each of the methods and every time step of at least `3 / (4 a)` the temperatures leave every range; one of them falls below every
negative bound.  The validator accepts every positive time step (C84), and no time step is ever compared with a stability limit. -/
theorem C116_unstable_refuted (a dt : ℝ) (hdt : 3 ≤ 4 * a * dt) (meth : Method) (B : ℝ) : ∃ k z op g,
    steps (some meth) dt k (0, ![300 + 1, 300 - 1], (endRod a 0 [1, 1]).operator (fun _ => []) 0) = some (0 + k * dt, z, op) ∧ z g < -B := by
  have hrun : ∀ (k : ℕ) (t d : ℝ), runOf (rhs ((endRod a 0 [1, 1]).operator (fun _ => []) 0)) meth dt k t ![300 + d, 300 - d] =
      ![300 + amplify (4 * a * dt) meth ^ k * d, 300 - amplify (4 * a * dt) meth ^ k * d] := by
    intro k
    induction k with
    | zero => intro t d; simp [runOf]
    | succ k ih =>
      intro t d
      rw [runOf, endRod_step, ih]
      simp only [pow_succ, mul_assoc]
  have ham := amplify_large _ hdt meth
  obtain ⟨k, hk⟩ := pow_unbounded_of_one_lt (300 + |B|) (show 1 < |amplify (4 * a * dt) meth| by linarith)
  obtain ⟨op, h⟩ := steps_eq meth dt k 0 ![300 + 1, 300 - 1] ((endRod a 0 [1, 1]).operator (fun _ => []) 0)
  rw [hrun] at h
  rw [← abs_pow] at hk
  set r := amplify (4 * a * dt) meth ^ k
  have hB := le_abs_self B
  rcases abs_cases r with ⟨h1, _⟩ | ⟨h1, _⟩
  · refine ⟨k, _, op, 1, h, ?_⟩
    rw [h1] at hk
    simp
    linarith
  · refine ⟨k, _, op, 0, h, ?_⟩
    rw [h1] at hk
    simp
    linarith

end Verif.Assembly
