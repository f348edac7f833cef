import Verif.Material.Heat
import Verif.Input.Boundary
import Verif.Thermal.Physics
import Mathlib.Data.Fintype.BigOperators

/-!
# The host `ThermalOperator`: matrix-free assembly (C93-C99), model

Modelled: `source/ThermalOperator.templates.hh` (`vmult`, `vmult_add`, `cell_local_apply`, `face_local_apply`, `cell_local_mass`,
`compute_inverse_mass_matrix`, the face part of `get_state_from_material_properties`), `source/ThermalOperator.hh` (`set_time`) and
`evaluate_thermal_physics_impl` of `source/ThermalPhysics.templates.hh` with its printed heat input.

Simplifications.  Numbers are real.  One SIMD lane is one cell (the lanes are independent except for the powder ratios, C38).  The
coefficients of a quadrature point are functions of the temperature for the phase state at the time of the call; the update of the
state inside the call is the subject of C30-C32.  deal.II is modelled by its documented contract: `read_dof_values` resolves the
hanging-node constraints, `distribute_local_to_global` applies the transpose, `integrate` sums over the quadrature points with the
weights `JxW`.  A two-dimensional mesh is embedded with a zero second gradient component, `cos = 1`, `sin = 0`.
-/

namespace Verif.Assembly

open Verif.Material Verif.Input
open Verif.Thermal (Operator)

variable {ι : Type*} [Fintype ι] [DecidableEq ι]

/-- The hanging-node constraints (`dealii::AffineConstraints` after `close()`, built in
`source/ThermalPhysics.templates.hh:498-541` by `make_hanging_node_constraints`): a constrained value is the weighted sum of
unconstrained ones. -/
structure Hanging (ι : Type*) where
  constrained : ι → Bool
  weight : ι → ι → ℝ

/-- The value of degree of freedom `g'` when only the unconstrained `g` is one. -/
def Hanging.coef (h : Hanging ι) (g' g : ι) : ℝ :=
  if h.constrained g' then (if h.constrained g then 0 else h.weight g' g) else if g' = g then 1 else 0

/-- `FEEvaluation::read_dof_values`: the values of the constrained degrees of freedom are computed from the unconstrained ones,
whatever is stored. -/
def Hanging.resolve (h : Hanging ι) (y : ι → ℝ) (g' : ι) : ℝ := ∑ g, h.coef g' g * y g

/-- `FEEvaluation::distribute_local_to_global`: add the local entries to the global vector, the entry of a constrained degree of
freedom going to the ones it is interpolated from. -/
def Hanging.distribute {n : ℕ} (h : Hanging ι) (dof : Fin n → ι) (entry : Fin n → ℝ) (dst : ι → ℝ) (g : ι) : ℝ :=
  dst g + ∑ i, h.coef (dof i) g * entry i

/-- Material coefficients of a quadrature point: `get_inv_rho_cp` (lines 415-477) and the three conductivities. -/
structure Coef where
  invRhoCp : ℝ
  kx : ℝ
  ky : ℝ
  kz : ℝ

/-- A locally owned cell: `fe` is its active finite-element index (0: material, 1: no material), `dof` its degrees of freedom,
`shape`, `grad`, `jxw`, `point` the data of the quadrature of the operator, `cos`, `sin` the deposition orientation, `coef` the
material coefficients at a temperature; `mshape`, `mjxw` belong to the Gauss-Lobatto quadrature of the mass matrix. -/
structure Cell (ι : Type*) where
  fe : ℕ
  n : ℕ
  nq : ℕ
  dof : Fin n → ι
  shape : Fin n → Fin nq → ℝ
  grad : Fin n → Fin nq → Fin 3 → ℝ
  jxw : Fin nq → ℝ
  point : Fin nq → (Fin 3 → ℝ)
  cos : Fin nq → ℝ
  sin : Fin nq → ℝ
  coef : Fin nq → ℝ → Coef
  mq : ℕ
  mshape : Fin n → Fin mq → ℝ
  mjxw : Fin mq → ℝ

/-- `FEEvaluation::get_value` after `evaluate`. -/
def Cell.value (c : Cell ι) (h : Hanging ι) (y : ι → ℝ) (q : Fin c.nq) : ℝ := ∑ i, c.shape i q * h.resolve y (c.dof i)

/-- `FEEvaluation::get_gradient` after `evaluate`. -/
def Cell.gradient (c : Cell ι) (h : Hanging ι) (y : ι → ℝ) (q : Fin c.nq) (d : Fin 3) : ℝ :=
  ∑ i, c.grad i q d * h.resolve y (c.dof i)

/-- A heat source at the time it was last set to: `is_source_on()` and the vectorised and scalar `value()`. -/
structure Beam where
  on : Bool
  lanes : (Fin 3 → ℝ) → ℝ
  scalar : (Fin 3 → ℝ) → ℝ

/-- `ThermalOperator::set_time`, `source/ThermalOperator.hh:296-307`: the flag `_heat_sources_on`. -/
def sourcesOn (beams : List Beam) : Bool := beams.foldl (fun on b => if b.on then true else on) false

/-- The gradient submitted at a quadrature point, lines 535-596. -/
noncomputable def Cell.flux (c : Cell ι) (h : Hanging ι) (y : ι → ℝ) (q : Fin c.nq) (d : Fin 3) : ℝ :=
  let k := c.coef q (c.value h y q);
  -k.invRhoCp * conductivityGrad k.kx k.ky k.kz (c.cos q) (c.sin q) (c.gradient h y q) d

/-- The value submitted at a quadrature point, lines 598-612. -/
def Cell.source (c : Cell ι) (h : Hanging ι) (beams : List Beam) (y : ι → ℝ) (q : Fin c.nq) : ℝ :=
  (beams.foldl (fun s b => s + b.lanes (c.point q)) 0) * (c.coef q (c.value h y q)).invRhoCp

/-- `FEEvaluation::integrate`, line 615, with the flags of lines 489-492: without heat sources only the gradients are
integrated. -/
noncomputable def Cell.entry (c : Cell ι) (h : Hanging ι) (beams : List Beam) (y : ι → ℝ) (i : Fin c.n) : ℝ :=
  if sourcesOn beams then
    ∑ q, (c.source h beams y q * c.shape i q + ∑ d, c.flux h y q d * c.grad i q d) * c.jxw q
  else ∑ q, (∑ d, c.flux h y q d * c.grad i q d) * c.jxw q

/-- `cell_local_apply`, lines 479-618: the cells of finite-element index 0 (`create_cell_subrange_hp_by_index`, lines 486-487). -/
noncomputable def cellApply (h : Hanging ι) (beams : List Beam) (y : ι → ℝ) (dst : ι → ℝ) (c : Cell ι) : ι → ℝ :=
  if c.fe = 0 then h.distribute c.dof (c.entry h beams y) dst else dst

/-- Material coefficients of a face: `1/(ρ c_p)`, convection coefficient and temperature, emissivity and radiation temperature. -/
structure FaceCoef where
  invRhoCp : ℝ
  conv : ℝ
  convTinf : ℝ
  emissivity : ℝ
  radTinf : ℝ

/-- One side of a face: the degrees of freedom of the adjacent cell and its shape functions on the face. -/
structure Side (ι : Type*) (nq : ℕ) where
  n : ℕ
  dof : Fin n → ι
  shape : Fin n → Fin nq → ℝ

/-- A face: finite-element indices of the two adjacent cells (`none`: the face is on the boundary of the mesh; lines 628-643),
`id` is `boundary_id()`, `coef` the coefficients at a temperature from the stored face state. -/
structure Face (ι : Type*) where
  fe1 : ℕ
  fe2 : Option ℕ
  id : ℕ
  nq : ℕ
  jxw : Fin nq → ℝ
  side1 : Side ι nq
  side2 : Side ι nq
  coef : Fin nq → ℝ → FaceCoef

/-- The side `FEFaceEvaluation` is set to, lines 653-656. -/
def Face.side (f : Face ι) : Side ι f.nq := if f.fe1 = 0 then f.side1 else f.side2

/-- `get_value` on the face. -/
def Face.value (f : Face ι) (h : Hanging ι) (y : ι → ℝ) (q : Fin f.nq) : ℝ :=
  ∑ i, f.side.shape i q * h.resolve y (f.side.dof i)

/-- The value submitted on a face, lines 676-751. -/
noncomputable def Face.submitted (f : Face ι) (types : List ℕ) (h : Hanging ι) (y : ι → ℝ) (q : Fin f.nq) : ℝ :=
  let T := f.value h y q;
  let k := f.coef q T;
  boundaryValue (decide (Has (getType types f.id) .convective)) (decide (Has (getType types f.id) .radiative))
    k.invRhoCp k.conv k.convTinf k.emissivity k.radTinf T

/-- `face_local_apply`, lines 620-757, for one face. -/
noncomputable def faceApply (types : List ℕ) (h : Hanging ι) (y : ι → ℝ) (dst : ι → ℝ) (f : Face ι) : ι → ℝ :=
  if some f.fe1 = f.fe2 then dst
  else if f.fe1 ≠ 0 ∧ f.fe2 ≠ some 0 then dst
  else h.distribute f.side.dof (fun i => ∑ q, f.submitted types h y q * f.side.shape i q * f.jxw q) dst

/-- `_adiabatic_only_bc`, lines 41-43. -/
def adiabaticOnly (types : List ℕ) : Bool := decide ((getIds types .adiabatic).length = nIds types)

/-- The mesh as the operator sees it. -/
structure Mesh (ι : Type*) where
  hanging : Hanging ι
  cells : List (Cell ι)
  faces : List (Face ι)
  types : List ℕ

/-- `vmult_add`, lines 186-223. -/
noncomputable def Mesh.vmultAdd (m : Mesh ι) (beams : List Beam) (dst y : ι → ℝ) (g : ι) : ℝ :=
  let dst1 := m.cells.foldl (cellApply m.hanging beams y) dst;
  let dst2 := if adiabaticOnly m.types then dst1 else m.faces.foldl (faceApply m.types m.hanging y) dst1;
  if m.hanging.constrained g then dst2 g + 1 * y g else dst2 g

/-- `vmult`, lines 173-183. -/
noncomputable def Mesh.vmult (m : Mesh ι) (beams : List Beam) (y : ι → ℝ) : ι → ℝ := m.vmultAdd beams (fun _ => 0) y

/-- `cell_local_mass`, lines 85-120. -/
def massApply (h : Hanging ι) (src : ι → ℝ) (dst : ι → ℝ) (c : Cell ι) : ι → ℝ :=
  if c.fe = 0 then
    h.distribute c.dof
      (fun i => ∑ q, (∑ j, c.mshape j q * h.resolve src (c.dof j)) * c.mshape i q * c.mjxw q) dst
  else dst

/-- The lumped mass, lines 123-162: the mass matrix applied to the vector of ones, plus one on the constrained entries. -/
def Mesh.mass (m : Mesh ι) (g : ι) : ℝ :=
  let v := m.cells.foldl (massApply m.hanging fun _ => 1) fun _ => 0;
  if m.hanging.constrained g then v g + 1 else v g

/-- `compute_inverse_mass_matrix`, lines 122-170. -/
noncomputable def Mesh.invMass (m : Mesh ι) (g : ι) : ℝ := 1 / m.mass g

/-- The operator as the time stepper sees it (`Operator` of C40): `beams t` are the sources after `update_time(t)`. `apply` is the
result without sources, `heat` what the sources add. -/
noncomputable def Mesh.operator (m : Mesh ι) (beams : ℝ → List Beam) (time : ℝ) : Operator ι where
  apply := m.vmult []
  heat t y g := m.vmult (beams t) y g - m.vmult [] y g
  invMass := m.invMass
  time := time

/-- `evaluate_thermal_physics_impl`, `source/ThermalPhysics.templates.hh:48-124`, for the assembled operator. -/
noncomputable def Mesh.evaluate (m : Mesh ι) (beams : ℝ → List Beam) (t : ℝ) (y : ι → ℝ) (g : ι) : ℝ :=
  m.vmultAdd (beams t) (fun _ => 0) y g * m.invMass g

/-- The quadrature of a cell with material used for the printed heat input (Gauss quadrature whatever the quadrature of the
operator, lines 70-76). -/
structure PrintQuad where
  n : ℕ
  nq : ℕ
  shape : Fin n → Fin nq → ℝ
  jxw : Fin nq → ℝ
  point : Fin nq → (Fin 3 → ℝ)

/-- The printed heat input, `source/ThermalPhysics.templates.hh:68-114`: `cells` are the cells with material of all processes. -/
def printedHeat (beams : List Beam) (cells : List PrintQuad) : ℝ :=
  cells.foldl (fun acc c => acc + ∑ i, ∑ q,
    (beams.foldl (fun s b => s + b.scalar (c.point q)) 0) * c.shape i q * c.jxw q) 0

/-! ### State of a face -/

/-- A cell next to a face: finite-element index, owner, material id and powder ratio. -/
structure FaceCell where
  fe : ℕ
  owner : ℕ
  materialId : ℕ
  powder : ℝ

/-- The state stored for a face, `source/ThermalOperator.templates.hh:806-905`, on process `rank`: `none` means the face is
skipped (`continue`) and its entries stay zero; `reinit` has set everything to zero before. -/
def faceState (rank : ℕ) (c1 : FaceCell) (c2 : Option FaceCell) : ℕ × ℝ :=
  match c2 with
  | some c2 =>
    if c1.fe = c2.fe then (0, 0)
    else
      let c := if c1.fe = 0 then c1 else c2
      if c.owner = rank then (c.materialId, c.powder) else (0, 0)
  | none => if c1.fe = 1 then (0, 0) else if c1.owner = rank then (c1.materialId, c1.powder) else (0, 0)

end Verif.Assembly
