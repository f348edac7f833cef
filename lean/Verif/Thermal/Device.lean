import Verif.Thermal.Energy

/-!
# C107: the GPU computes the same temperatures as the CPU

Modelled: `ThermalOperatorDevice::vmult` (`source/ThermalOperatorDevice.templates.hh:636-668`, `:323-398`, `:452-505`),
`compute_inverse_mass_matrix` (`:582-626`), `update_inv_rho_cp_cell` (`:860-893`) and the device branch of
`evaluate_thermal_physics_impl` (`source/ThermalPhysics.templates.hh:138-330`).

Simplifications: those of `Thermal/Assembly`.  `Portable::MatrixFree` is modelled by the same contract as the host
`MatrixFree` (`read_dof_values`, `integrate`, `distribute_local_to_global`), `copy_constrained_values` by its documentation.
-/

namespace Verif.Assembly

open Verif.Material Verif.Input
open Verif.Thermal (Operator rhs Method)

variable {ι : Type*} [Fintype ι] [DecidableEq ι]

/-- The quadrature of the source term, `source/ThermalPhysics.templates.hh:185-192`: always Gauss. -/
structure SourceQuad (n : ℕ) where
  nq : ℕ
  shape : Fin n → Fin nq → ℝ
  jxw : Fin nq → ℝ
  point : Fin nq → (Fin 3 → ℝ)

/-- The gradient submitted at a quadrature point on the device, `source/ThermalOperatorDevice.templates.hh:350-397`. -/
noncomputable def Cell.deviceFlux (c : Cell ι) (h : Hanging ι) (y : ι → ℝ) (q : Fin c.nq) : Fin 3 → ℝ :=
  let k := c.coef q (c.value h y q);
  let g := c.gradient h y q;
  fun d => -k.invRhoCp * (![(k.kx * c.cos q * c.cos q + k.ky * c.sin q * c.sin q) * g 0 + ((k.kx - k.ky) * c.sin q * c.cos q) * g 1,
    ((k.kx - k.ky) * c.sin q * c.cos q) * g 0 + (k.kx * c.sin q * c.sin q + k.ky * c.cos q * c.cos q) * g 1, k.kz * g 2] d)

/-- One cell of the device loop, `source/ThermalOperatorDevice.templates.hh:452-505`: only gradients are integrated; the filter of
`reinit` keeps the cells with material. -/
noncomputable def deviceCellApply (h : Hanging ι) (y : ι → ℝ) (dst : ι → ℝ) (c : Cell ι) : ι → ℝ :=
  if c.fe = 0 then h.distribute c.dof (fun i => ∑ q, (∑ d, c.deviceFlux h y q d * c.grad i q d) * c.jxw q) dst else dst

/-- `vmult`, `source/ThermalOperatorDevice.templates.hh:636-668`. -/
noncomputable def Mesh.deviceVmult (m : Mesh ι) (y : ι → ℝ) (g : ι) : ℝ :=
  if m.hanging.constrained g then y g else m.cells.foldl (deviceCellApply m.hanging y) (fun _ => 0) g

/-- `update_inv_rho_cp_cell`, `source/ThermalOperatorDevice.templates.hh:860-893`: the mean of the values stored by `vmult`. -/
noncomputable def Cell.meanInvRhoCp (c : Cell ι) (h : Hanging ι) (y : ι → ℝ) : ℝ :=
  (∑ q, (c.coef q (c.value h y q)).invRhoCp) / c.nq

/-- One cell of the source loop, `source/ThermalPhysics.templates.hh:212-302` (the branch of lines 250-299 is never taken). -/
noncomputable def deviceSource (h : Hanging ι) (quad : (c : Cell ι) → SourceQuad c.n) (beams : List Beam) (y : ι → ℝ) (dst : ι → ℝ)
    (c : Cell ι) : ι → ℝ :=
  if c.fe = 0 then
    h.distribute c.dof (fun i => ∑ q, c.meanInvRhoCp h y *
      (beams.foldl (fun s b => s + b.scalar ((quad c).point q)) 0) * (quad c).shape i q * (quad c).jxw q) dst
  else dst

/-- The mass before inversion, `source/ThermalOperatorDevice.templates.hh:592-612` with `:20-88`. -/
def Mesh.deviceMass (m : Mesh ι) : ι → ℝ :=
  m.cells.foldl (fun dst c => if c.fe = 0 then m.hanging.distribute c.dof (fun i => ∑ q, 1 * c.mshape i q * c.mjxw q) dst else dst)
    fun _ => 0

/-- The inverse mass, `source/ThermalOperatorDevice.templates.hh:613-625`. -/
noncomputable def Mesh.deviceInvMass (m : Mesh ι) (g : ι) : ℝ :=
  if m.deviceMass g > 1e-15 then 1 / m.deviceMass g else 0

/-- The device branch of `evaluate_thermal_physics_impl`, `source/ThermalPhysics.templates.hh:138-330`; `none` is the exception
for boundary conditions that are not all adiabatic. -/
noncomputable def Mesh.deviceEvaluate (m : Mesh ι) (quad : (c : Cell ι) → SourceQuad c.n) (beams : ℝ → List Beam) (t : ℝ) (y : ι → ℝ) :
    Option (ι → ℝ) :=
  if adiabaticOnly m.types then
    some fun g => (m.deviceVmult y g + m.cells.foldl (deviceSource m.hanging quad (beams t) y) (fun _ => 0) g) * m.deviceInvMass g
  else none

/-! ## Specification -/

/-- The quadrature of the operator is the Gauss rule, as for the source. -/
def SameQuadrature (m : Mesh ι) (quad : (c : Cell ι) → SourceQuad c.n) : Prop :=
  ∀ c ∈ m.cells, c.fe = 0 → quad c = ⟨c.nq, c.shape, c.jxw, c.point⟩

/-- Density times specific heat is constant in every cell. -/
def CellwiseCapacity (m : Mesh ι) : Prop :=
  ∀ c ∈ m.cells, c.fe = 0 → 0 < c.nq ∧ ∃ r, ∀ q T, (c.coef q T).invRhoCp = r

/-- The vectorised and the scalar evaluation of a source agree. -/
def SameBeams (beams : List Beam) : Prop := ∀ b ∈ beams, ∀ p, b.scalar p = b.lanes p

/-! ## Proofs -/

theorem deviceFlux_eq (c : Cell ι) (h : Hanging ι) (y : ι → ℝ) (q : Fin c.nq) (d : Fin 3) : c.deviceFlux h y q d = c.flux h y q d := by
  unfold Cell.deviceFlux Cell.flux conductivityGrad
  fin_cases d <;> simp
  exact Or.inl (mul_comm _ _)

theorem deviceCellApply_eq (h : Hanging ι) (y dst : ι → ℝ) (c : Cell ι) (g : ι) :
    deviceCellApply h y dst c g = dst g + (if c.fe = 0 then ∑ i, h.coef (c.dof i) g *
      ∑ q, (∑ d, c.flux h y q d * c.grad i q d) * c.jxw q else 0) := by
  unfold deviceCellApply
  split_ifs <;> simp [Hanging.distribute, deviceFlux_eq]

theorem deviceSource_eq (h : Hanging ι) (quad : (c : Cell ι) → SourceQuad c.n) (beams : List Beam) (y dst : ι → ℝ) (c : Cell ι) (g : ι) :
    deviceSource h quad beams y dst c g = dst g + (if c.fe = 0 then ∑ i, h.coef (c.dof i) g *
      ∑ q, c.meanInvRhoCp h y * (beams.foldl (fun s b => s + b.scalar ((quad c).point q)) 0) * (quad c).shape i q *
        (quad c).jxw q else 0) := by
  unfold deviceSource
  split_ifs <;> simp [Hanging.distribute]

theorem deviceMass_eq (m : Mesh ι) (g : ι) :
    m.deviceMass g = (m.material.map fun c => ∑ q, c.mjxw q * c.mphi m.hanging g q).sum := by
  unfold Mesh.deviceMass
  rw [foldl_add _ (fun c g => if c.fe = 0 then ∑ i, m.hanging.coef (c.dof i) g * (∑ q, 1 * c.mshape i q * c.mjxw q) else 0)
    (by intro dst c g; split_ifs <;> simp [Hanging.distribute]), sum_filter_ite, zero_add]
  refine list_sum_congr _ _ _ fun c _ => ?_
  simp only [one_mul, Cell.mphi, Finset.mul_sum]
  rw [Finset.sum_comm]
  exact Finset.sum_congr rfl fun q _ => Finset.sum_congr rfl fun i _ => by ring

theorem deviceMass_constrained (m : Mesh ι) (g : ι) (hg : m.hanging.constrained g = true) : m.deviceMass g = 0 := by
  rw [deviceMass_eq]
  apply List.sum_eq_zero
  intro x hx
  obtain ⟨c, _, rfl⟩ := List.mem_map.1 hx
  exact Finset.sum_eq_zero fun q _ => by rw [mphi_constrained c _ g hg, mul_zero]

theorem deviceMass_free (m : Mesh ι) (hm : Consistent m) (g : ι) (hg : m.hanging.constrained g = false) : m.deviceMass g = m.mass g := by
  rw [deviceMass_eq, (C99_lumped_mass m hm).1 g hg]

theorem lanes_scalar (beams : List Beam) (hb : SameBeams beams) (p : Fin 3 → ℝ) :
    beams.foldl (fun s b => s + b.scalar p) 0 = power beams p := by
  rw [foldl_sum, zero_add]
  exact list_sum_congr _ _ _ fun b hb' => hb b hb' p

theorem meanInvRhoCp_eq (c : Cell ι) (h : Hanging ι) (y : ι → ℝ) (hq : 0 < c.nq) (r : ℝ) (hr : ∀ q T, (c.coef q T).invRhoCp = r) :
    c.meanInvRhoCp h y = r := by
  unfold Cell.meanInvRhoCp
  have : (c.nq : ℝ) ≠ 0 := by exact_mod_cast hq.ne'
  simp [hr, this]

/-- The right-hand side of the device for an unconstrained degree of freedom. -/
theorem device_numerator (m : Mesh ι) (quad : (c : Cell ι) → SourceQuad c.n) (hq : SameQuadrature m quad) (hcap : CellwiseCapacity m)
    (beams : List Beam) (hb : SameBeams beams) (hoff : OffIsZero beams) (ha : adiabaticOnly m.types = true) (y : ι → ℝ) (g : ι)
    (hg : m.hanging.constrained g = false) :
    m.deviceVmult y g + m.cells.foldl (deviceSource m.hanging quad beams y) (fun _ => 0) g = m.vmult beams y g := by
  unfold Mesh.deviceVmult Mesh.vmult Mesh.vmultAdd
  simp only [hg, ha, if_true, Bool.false_eq_true, if_false]
  rw [foldl_add _ _ (deviceCellApply_eq m.hanging y), foldl_add _ _ (deviceSource_eq m.hanging quad beams y),
    foldl_add _ _ (cellApply_add m.hanging beams y), zero_add, zero_add, zero_add, sum_filter_ite, sum_filter_ite, sum_filter_ite,
    ← list_sum_add]
  refine list_sum_congr _ _ _ fun c hc => ?_
  have hc' := (mem_material m c).1 hc
  obtain ⟨hpos, r, hr⟩ := hcap c hc'.1 hc'.2
  have hmean := meanInvRhoCp_eq c m.hanging y hpos r hr
  rw [← Finset.sum_add_distrib]
  refine Finset.sum_congr rfl fun i _ => ?_
  rw [← mul_add]
  congr 1
  rw [hq c hc'.1 hc'.2, hmean, ← Finset.sum_add_distrib]
  unfold Cell.entry
  have hsrc : ∀ q, c.source m.hanging beams y q = power beams (c.point q) * r := by
    intro q
    unfold Cell.source
    rw [foldl_sum, zero_add, hr]
    rfl
  by_cases hs : sourcesOn beams = true
  · rw [if_pos hs]
    refine Finset.sum_congr rfl fun q _ => ?_
    rw [hsrc, lanes_scalar beams hb]
    ring
  · rw [if_neg hs]
    refine Finset.sum_congr rfl fun q _ => ?_
    rw [lanes_scalar beams hb, power_off beams hoff (by simpa using hs)]
    ring

/-- **C107** (partial: all boundary conditions adiabatic, Gauss quadrature, heat capacity constant in every cell, masses above
1e-15).  The device computes the same time derivative as the host at every unconstrained degree of freedom, for every mesh,
temperature vector, set of sources and time. -/
theorem C107_rate_partial (m : Mesh ι) (hm : Consistent m) (quad : (c : Cell ι) → SourceQuad c.n) (hq : SameQuadrature m quad)
    (hcap : CellwiseCapacity m) (beams : ℝ → List Beam) (hb : ∀ t, SameBeams (beams t)) (hoff : ∀ t, OffIsZero (beams t))
    (ha : adiabaticOnly m.types = true) (t : ℝ) (y : ι → ℝ) :
    ∃ r, m.deviceEvaluate quad beams t y = some r ∧
      ∀ g, m.hanging.constrained g = false → 1e-15 < m.mass g → r g = m.evaluate beams t y g := by
  unfold Mesh.deviceEvaluate
  rw [if_pos ha]
  refine ⟨_, rfl, fun g hg hmass => ?_⟩
  rw [device_numerator m quad hq hcap (beams t) (hb t) (hoff t) ha y g hg]
  unfold Mesh.evaluate Mesh.deviceInvMass Mesh.invMass
  rw [deviceMass_free m hm g hg, if_pos hmass]
  rfl

/-- **C107, boundary conditions.**  The device refuses every simulation with a boundary that is not adiabatic. -/
theorem C107_boundary_partial (m : Mesh ι) (quad : (c : Cell ι) → SourceQuad c.n) (beams : ℝ → List Beam) (t : ℝ) (y : ι → ℝ) :
    m.deviceEvaluate quad beams t y = none ↔ adiabaticOnly m.types = false := by
  unfold Mesh.deviceEvaluate
  by_cases h : adiabaticOnly m.types = true <;> simp [h]

/-- The right-hand side as a function, for the time stepper. -/
noncomputable def Mesh.deviceRate (m : Mesh ι) (quad : (c : Cell ι) → SourceQuad c.n) (beams : ℝ → List Beam) (t : ℝ) (y : ι → ℝ) (g : ι) : ℝ :=
  ((m.deviceEvaluate quad beams t y).map fun r => r g).getD 0

omit [Fintype ι] [DecidableEq ι] in
theorem stepOf_same (h : Hanging ι) (f f' : ℝ → (ι → ℝ) → ι → ℝ)
    (hf : ∀ t y y', SameMasters h y y' → SameMasters h (f t y) (f' t y')) (t dt : ℝ) (meth : Method) (y y' : ι → ℝ)
    (hs : SameMasters h y y') : SameMasters h (stepOf f t dt y meth) (stepOf f' t dt y' meth) := by
  cases meth with
  | forwardEuler =>
    intro g hg
    simp only [stepOf]
    rw [hs g hg, hf t y y' hs g hg]
  | rk3 =>
    have k1 := hf t y y' hs
    have k2 := hf (t + dt / 2) _ _ (add_same _ _ _ _ _ (dt / 2) hs k1)
    have k3 := hf (t + dt) _ _ (add_same _ _ _ _ _ dt hs (sub_same _ _ _ _ _ k2 k1))
    intro g hg
    simp only [stepOf]
    rw [hs g hg, k1 g hg, k2 g hg, k3 g hg]
  | rk4 =>
    have k1 := hf t y y' hs
    have k2 := hf (t + dt / 2) _ _ (add_same _ _ _ _ _ (dt / 2) hs k1)
    have k3 := hf (t + dt / 2) _ _ (add_same _ _ _ _ _ (dt / 2) hs k2)
    have k4 := hf (t + dt) _ _ (add_same _ _ _ _ _ dt hs k3)
    intro g hg
    simp only [stepOf]
    rw [hs g hg, k1 g hg, k2 g hg, k3 g hg, k4 g hg]

omit [Fintype ι] [DecidableEq ι] in
theorem runOf_same (h : Hanging ι) (f f' : ℝ → (ι → ℝ) → ι → ℝ)
    (hf : ∀ t y y', SameMasters h y y' → SameMasters h (f t y) (f' t y')) (dt : ℝ) (meth : Method) (k : ℕ) :
    ∀ (t : ℝ) (y y' : ι → ℝ), SameMasters h y y' → SameMasters h (runOf f meth dt k t y) (runOf f' meth dt k t y') := by
  induction k with
  | zero => intro t y y' hs; exact hs
  | succ k ih => intro t y y' hs; exact ih _ _ _ (stepOf_same h f f' hf t dt meth y y' hs)

/-- **C107, whole runs** (partial as C107_rate_partial).  For every time stepping method, step size and number of steps, the host
and the device compute the same temperature field. -/
theorem C107_run_partial (m : Mesh ι) (hm : Consistent m) (quad : (c : Cell ι) → SourceQuad c.n) (hq : SameQuadrature m quad)
    (hcap : CellwiseCapacity m) (beams : ℝ → List Beam) (hb : ∀ t, SameBeams (beams t)) (hoff : ∀ t, OffIsZero (beams t))
    (ha : adiabaticOnly m.types = true) (hmass : ∀ g, m.hanging.constrained g = false → 1e-15 < m.mass g) (dt t : ℝ) (meth : Method)
    (k : ℕ) (y : ι → ℝ) :
    SameMasters m.hanging (runOf (m.deviceRate quad beams) meth dt k t y) (runOf (m.evaluate beams) meth dt k t y) ∧
    m.hanging.resolve (runOf (m.deviceRate quad beams) meth dt k t y) = m.hanging.resolve (runOf (m.evaluate beams) meth dt k t y) := by
  have hf : ∀ t y y', SameMasters m.hanging y y' →
      SameMasters m.hanging (m.deviceRate quad beams t y) (m.evaluate beams t y') := by
    intro t y y' hs g hg
    obtain ⟨r, hr, he⟩ := C107_rate_partial m hm quad hq hcap beams hb hoff ha t y
    unfold Mesh.deviceRate
    rw [hr, Option.map_some, Option.getD_some, he g hg (hmass g hg)]
    have := vmult_same m (beams t) y y' hs g hg
    unfold Mesh.evaluate
    unfold Mesh.vmult at this
    rw [this]
  have := runOf_same m.hanging _ _ hf dt meth k t y y fun _ _ => rfl
  exact ⟨this, resolve_same _ _ _ this⟩

theorem run_frozen (f : ℝ → (ι → ℝ) → ι → ℝ) (g : ι) (hf : ∀ t y, f t y g = 0) (dt : ℝ) (meth : Method) (k : ℕ) :
    ∀ (t : ℝ) (y : ι → ℝ), runOf f meth dt k t y g = y g := by
  induction k with
  | zero => intro t y; rfl
  | succ k ih =>
    intro t y
    rw [runOf, ih]
    cases meth <;> simp [stepOf, hf]

/-- A degree of freedom with mass at most 1e-15 does not change on the device. -/
theorem device_small (m : Mesh ι) (quad : (c : Cell ι) → SourceQuad c.n) (beams : ℝ → List Beam) (g : ι)
    (hg : m.deviceMass g ≤ 1e-15) (dt t : ℝ) (meth : Method) (k : ℕ) (y : ι → ℝ) :
    runOf (m.deviceRate quad beams) meth dt k t y g = y g := by
  refine run_frozen _ g (fun t y => ?_) dt meth k t y
  unfold Mesh.deviceRate Mesh.deviceEvaluate Mesh.deviceInvMass
  have h0 : ¬ m.deviceMass g > 1e-15 := not_lt.2 hg
  by_cases h : adiabaticOnly m.types = true
  · rw [if_pos h, Option.map_some, Option.getD_some]
    dsimp only
    rw [if_neg h0, mul_zero]
  · rw [if_neg h]; rfl

/-- **C107, hanging nodes.**  On the device the entry of a hanging node never changes, for every mesh and number of steps (on the host
it grows by `growth`, C97). -/
theorem C107_hanging_partial (m : Mesh ι) (quad : (c : Cell ι) → SourceQuad c.n) (beams : ℝ → List Beam) (g : ι)
    (hg : m.hanging.constrained g = true) (dt t : ℝ) (meth : Method) (k : ℕ) (y : ι → ℝ) :
    runOf (m.deviceRate quad beams) meth dt k t y g = y g :=
  device_small m quad beams g (by rw [deviceMass_constrained m g hg]; norm_num) dt t meth k y

/-! ## Refutations -/

/-- A rod of length `L` and cross-section `A` with `1/(ρ c_p) = r`, unit conductivity, two degrees of freedom. -/
noncomputable def rodCell (L A r : ℝ) : Cell (Fin 2) where
  fe := 0
  n := 2
  nq := 1
  dof := id
  shape := fun _ _ => 1 / 2
  grad := fun i _ d => if d = 0 then (if i = 0 then -1 / L else 1 / L) else 0
  jxw := fun _ => A * L
  point := fun _ => 0
  cos := fun _ => 1
  sin := fun _ => 0
  coef := fun _ _ => ⟨r, 1, 1, 1⟩
  mq := 2
  mshape := fun i q => if i = q then 1 else 0
  mjxw := fun _ => A * L / 2

/-- The insulated rod. -/
noncomputable def rod (L A r : ℝ) : Mesh (Fin 2) := ⟨noHanging _, [rodCell L A r], [], [1, 1]⟩

/-- The Gauss rule of a cell. -/
def ownQuad (c : Cell ι) : SourceQuad c.n := ⟨c.nq, c.shape, c.jxw, c.point⟩

theorem rod_consistent (L A r : ℝ) : Consistent (rod L A r) := by
  have hc : ∀ c ∈ (rod L A r).cells, c = rodCell L A r := by
    intro c hc
    simpa [rod] using hc
  refine ⟨?_, ?_, ?_, ?_, ?_⟩
  · intro g'
    simp [rod, noHanging, Hanging.coef]
  · intro c h _
    cases hc c h
    intro q
    change (∑ _i : Fin 2, (1 / 2 : ℝ)) = 1
    norm_num
  · intro c h _
    cases hc c h
    intro q d
    change (∑ i : Fin 2, if d = 0 then (if i = 0 then -1 / L else 1 / L) else 0) = 0
    rw [Fin.sum_univ_two]
    by_cases h : d = 0
    · simp [h]; ring
    · simp [h]
  · intro c h _
    cases hc c h
    intro q
    change Fin 2 at q
    change (∑ i : Fin 2, if i = q then (1 : ℝ) else 0) = 1
    rw [Finset.sum_ite_eq']
    exact if_pos (Finset.mem_univ _)
  · intro f hf
    simp [rod] at hf

theorem rod_mass (L A r : ℝ) (g : Fin 2) : (rod L A r).mass g = A * L / 2 := by
  rw [(C99_lumped_mass _ (rod_consistent L A r)).1 g rfl]
  change ([rodCell L A r].map fun c => ∑ q, c.mjxw q * c.mphi (noHanging (Fin 2)) g q).sum = _
  simp only [List.map_cons, List.map_nil, List.sum_cons, List.sum_nil, add_zero]
  change (∑ q : Fin 2, (A * L / 2 : ℝ) * ∑ i : Fin 2, (noHanging (Fin 2)).coef i g * (if i = q then 1 else 0)) = _
  simp only [Fin.sum_univ_two, noHanging, Hanging.coef]
  fin_cases g <;> simp

/-- The rate of the host at the cold end of the rod. -/
theorem rod_rate (L A r t : ℝ) (hL : 0 < L) (hA : 0 < A) :
    (rod L A r).evaluate (fun _ => []) t ![0, 1] 0 = 2 * r / L ^ 2 := by
  have hp : adiabaticOnly (rod L A r).types = true := (by decide : adiabaticOnly [1, 1] = true)
  unfold Mesh.evaluate Mesh.vmultAdd Mesh.invMass
  rw [rod_mass]
  simp only [hp, if_true]
  have hc : (rod L A r).cells = [rodCell L A r] := rfl
  have hh : (rod L A r).hanging = noHanging _ := rfl
  rw [hc, hh]
  simp only [List.foldl_cons, List.foldl_nil, cellApply_add]
  have hgrad : (rodCell L A r).gradient (noHanging (Fin 2)) ![0, 1] (0 : Fin 1) = ![1 / L, 0, 0] := by
    funext d
    unfold Cell.gradient
    change (∑ i : Fin 2, (if d = 0 then (if i = 0 then -1 / L else 1 / L) else 0) * (noHanging (Fin 2)).resolve ![0, 1] i) = _
    simp only [Fin.sum_univ_two, Hanging.resolve, Hanging.coef, noHanging]
    fin_cases d <;> simp
  have hentry : ∀ i : Fin 2, (rodCell L A r).entry (noHanging (Fin 2)) [] ![0, 1] i = if i = 0 then r * A / L else -(r * A / L) := by
    intro i
    unfold Cell.entry
    rw [if_neg (by decide)]
    change (∑ q : Fin 1, (∑ d, (rodCell L A r).flux (noHanging (Fin 2)) ![0, 1] q d *
      (if d = 0 then (if i = 0 then -1 / L else 1 / L) else 0)) * (A * L)) = _
    rw [Fin.sum_univ_one, Fin.sum_univ_three]
    unfold Cell.flux
    rw [hgrad]
    change (-r * conductivityGrad 1 1 1 1 0 ![1 / L, 0, 0] 0 * _ + _ * _ + _ * _) * _ = _
    simp only [conductivityGrad]
    have := hL.ne'
    fin_cases i <;> simp <;> field_simp
  have hsum : (∑ i, (noHanging (Fin 2)).coef ((rodCell L A r).dof i) 0 * (rodCell L A r).entry (noHanging (Fin 2)) [] ![0, 1] i) =
      r * A / L := by
    change (∑ i : Fin 2, (noHanging (Fin 2)).coef i 0 * (rodCell L A r).entry (noHanging (Fin 2)) [] ![0, 1] i) = _
    rw [Fin.sum_univ_two, hentry, hentry]
    simp [noHanging, Hanging.coef]
  have h1 := hL.ne'
  have h2 := hA.ne'
  rw [if_pos (show (rodCell L A r).fe = 0 from rfl), hsum, if_neg (by simp [noHanging])]
  field_simp
  ring

/-- **C107 fails for small cells.**  In a rod of length `L` and cross-section `A` with volume at most 2e-15 (a cube of 10 µm has
1e-15), the temperatures never change on the device, whatever the sources, the method and the number of steps, although on the host
the cold end warms at the rate `2 r / L²`. -/
theorem C107_small_cells_refuted (L A r : ℝ) (hL : 0 < L) (hA : 0 < A) (hr : 0 < r) (hV : A * L ≤ 2e-15) :
    (∀ beams dt t meth k y, runOf ((rod L A r).deviceRate ownQuad beams) meth dt k t y = y) ∧
    (∀ t, (rod L A r).evaluate (fun _ => []) t ![0, 1] 0 = 2 * r / L ^ 2) ∧ 0 < 2 * r / L ^ 2 ∧
    Consistent (rod L A r) ∧ SameQuadrature (rod L A r) ownQuad ∧ CellwiseCapacity (rod L A r) := by
  refine ⟨fun beams dt t meth k y => ?_, fun t => rod_rate L A r t hL hA, by positivity, rod_consistent L A r, fun _ _ _ => rfl, ?_⟩
  · funext g
    refine device_small _ _ beams g ?_ dt t meth k y
    rw [deviceMass_free _ (rod_consistent L A r) g rfl, rod_mass]
    norm_num at hV ⊢
    linarith
  · intro c hc _
    have : c = rodCell L A r := by simpa [rod] using hc
    subst this
    exact ⟨Nat.one_pos, r, fun _ _ => rfl⟩

/-- The hypotheses of `C107_run_partial` hold for a rod of unit size with a source that is on, and of the refutation for a cube
of 10 µm. -/
example : (∀ g, (rod 1 1 2).hanging.constrained g = false → 1e-15 < (rod 1 1 2).mass g) ∧ SameBeams [cubeBeam0] ∧
    OffIsZero [cubeBeam0] ∧ adiabaticOnly (rod 1 1 2).types = true ∧ ((1e-5) ^ 2 * 1e-5 : ℝ) ≤ 2e-15 := by
  refine ⟨fun g _ => ?_, ?_, ?_, (by decide : adiabaticOnly [1, 1] = true), by norm_num⟩
  · rw [rod_mass]; norm_num
  · intro b hb p
    simp only [List.mem_cons, List.not_mem_nil, or_false] at hb
    subst hb; rfl
  · intro b hb h
    simp only [List.mem_cons, List.not_mem_nil, or_false] at hb
    subst hb
    simp [cubeBeam0] at h

/-- A cell with one degree of freedom and two quadrature points of weight 1/2 with `1/(ρ c_p)` equal to `a` and `b`. -/
noncomputable def mixedCell (a b : ℝ) : Cell (Fin 1) where
  fe := 0
  n := 1
  nq := 2
  dof := id
  shape := fun _ _ => 1
  grad := fun _ _ _ => 0
  jxw := fun _ => 1 / 2
  point := fun q => fun _ => if q = 0 then 0 else 1
  cos := fun _ => 1
  sin := fun _ => 0
  coef := fun q _ => ⟨if q = 0 then a else b, 1, 1, 1⟩
  mq := 1
  mshape := fun _ _ => 1
  mjxw := fun _ => 1

/-- The mesh of that cell. -/
noncomputable def mixed (a b : ℝ) : Mesh (Fin 1) := ⟨noHanging _, [mixedCell a b], [], [1, 1]⟩

/-- A source of unit power density at the first quadrature point only. -/
noncomputable def spot : Beam := ⟨true, fun p => if p 0 = 0 then 1 else 0, fun p => if p 0 = 0 then 1 else 0⟩

theorem mixed_consistent (a b : ℝ) : Consistent (mixed a b) := by
  have hc : ∀ c ∈ (mixed a b).cells, c = mixedCell a b := by
    intro c hc
    simpa [mixed] using hc
  refine ⟨?_, ?_, ?_, ?_, ?_⟩
  · intro g'
    simp [mixed, noHanging, Hanging.coef, Subsingleton.elim g' 0]
  · intro c h _
    cases hc c h
    intro q
    change (∑ _i : Fin 1, (1 : ℝ)) = 1
    simp
  · intro c h _
    cases hc c h
    intro q d
    change (∑ _i : Fin 1, (0 : ℝ)) = 0
    simp
  · intro c h _
    cases hc c h
    intro q
    change (∑ _i : Fin 1, (1 : ℝ)) = 1
    simp
  · intro f hf
    simp [mixed] at hf

theorem mixed_mass (a b : ℝ) (g : Fin 1) : (mixed a b).mass g = 1 := by
  rw [(C99_lumped_mass _ (mixed_consistent a b)).1 g rfl]
  change ([mixedCell a b].map fun c => ∑ q, c.mjxw q * c.mphi (noHanging (Fin 1)) g q).sum = _
  simp only [List.map_cons, List.map_nil, List.sum_cons, List.sum_nil, add_zero]
  change (∑ q : Fin 1, (1 : ℝ) * ∑ i : Fin 1, (noHanging (Fin 1)).coef i g * 1) = _
  simp only [Fin.sum_univ_one, noHanging, Hanging.coef]
  fin_cases g
  simp

/-- **C107 fails where the heat capacity varies in a cell.**  With `1/(ρ c_p)` equal to `a` at the heated point and `b` at the other
one, the host warms the cell at the rate `a / 2`, the device at the rate `(a + b) / 4`. -/
theorem C107_capacity_refuted (a b t : ℝ) (y : Fin 1 → ℝ) :
    (mixed a b).evaluate (fun _ => [spot]) t y 0 = a / 2 ∧
    (mixed a b).deviceEvaluate ownQuad (fun _ => [spot]) t y = some fun _ => (a + b) / 4 := by
  have hp : adiabaticOnly (mixed a b).types = true := (by decide : adiabaticOnly [1, 1] = true)
  have hc : (mixed a b).cells = [mixedCell a b] := rfl
  have hh : (mixed a b).hanging = noHanging _ := rfl
  have hon : sourcesOn [spot] = true := by decide
  have hs0 : ∀ x : Fin 3 → ℝ, spot.lanes x = if x 0 = 0 then 1 else 0 := fun _ => rfl
  constructor
  · unfold Mesh.evaluate Mesh.vmultAdd Mesh.invMass
    rw [mixed_mass]
    simp only [hp, if_true]
    rw [hc, hh]
    simp only [List.foldl_cons, List.foldl_nil, cellApply_add]
    rw [if_pos (show (mixedCell a b).fe = 0 from rfl), if_neg (by simp [noHanging])]
    change (0 + ∑ i : Fin 1, (noHanging (Fin 1)).coef i 0 * (mixedCell a b).entry (noHanging (Fin 1)) [spot] y i) * (1 / 1) = _
    rw [Fin.sum_univ_one]
    unfold Cell.entry
    rw [if_pos hon]
    change (0 + _ * ∑ q : Fin 2, ((mixedCell a b).source (noHanging (Fin 1)) [spot] y q * 1 +
      ∑ d, (mixedCell a b).flux (noHanging (Fin 1)) y q d * 0) * (1 / 2)) * (1 / 1) = _
    rw [Fin.sum_univ_two]
    unfold Cell.source
    simp only [List.foldl_cons, List.foldl_nil, hs0]
    change (0 + (noHanging (Fin 1)).coef 0 0 * ((((0 + if (if (0 : Fin 2) = 0 then (0 : ℝ) else 1) = 0 then 1 else 0) *
      (if (0 : Fin 2) = 0 then a else b) * 1 + _) * (1 / 2)) +
      ((0 + if (if (1 : Fin 2) = 0 then (0 : ℝ) else 1) = 0 then 1 else 0) * (if (1 : Fin 2) = 0 then a else b) * 1 + _) * (1 / 2))) *
      (1 / 1) = _
    simp [noHanging, Hanging.coef]
    ring
  · unfold Mesh.deviceEvaluate
    rw [if_pos hp]
    congr 1
    funext g
    have hg : g = 0 := Subsingleton.elim _ _
    subst hg
    have hflux : (mixed a b).deviceVmult y 0 = 0 := by
      unfold Mesh.deviceVmult
      rw [hc, hh, if_neg (by simp [noHanging])]
      simp only [List.foldl_cons, List.foldl_nil, deviceCellApply_eq]
      rw [if_pos (show (mixedCell a b).fe = 0 from rfl), zero_add]
      refine Finset.sum_eq_zero fun i _ => ?_
      rw [mul_eq_zero]
      right
      refine Finset.sum_eq_zero fun q _ => ?_
      rw [mul_eq_zero]
      left
      exact Finset.sum_eq_zero fun d _ => mul_zero _
    have hmean : (mixedCell a b).meanInvRhoCp (noHanging (Fin 1)) y = (a + b) / 2 := by
      unfold Cell.meanInvRhoCp
      change (∑ q : Fin 2, if q = 0 then a else b) / ((2 : ℕ) : ℝ) = _
      rw [Fin.sum_univ_two]
      simp
    have hinv : (mixed a b).deviceInvMass 0 = 1 := by
      unfold Mesh.deviceInvMass
      rw [deviceMass_free _ (mixed_consistent a b) 0 rfl, mixed_mass, if_pos (by norm_num)]
      norm_num
    rw [hflux, hinv, hc, hh]
    simp only [List.foldl_cons, List.foldl_nil, deviceSource_eq]
    rw [if_pos (show (mixedCell a b).fe = 0 from rfl), hmean]
    change (0 + (0 + ∑ i : Fin 1, (noHanging (Fin 1)).coef i 0 * ∑ q : Fin 2, (a + b) / 2 *
      (0 + if (if q = 0 then (0 : ℝ) else 1) = 0 then 1 else 0) * 1 * (1 / 2))) * 1 = _
    simp [noHanging, Hanging.coef, Fin.sum_univ_two]
    ring

end Verif.Assembly
