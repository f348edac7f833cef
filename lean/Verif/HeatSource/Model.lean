import Verif.ScanPath.Spec
import Mathlib.Analysis.SpecialFunctions.Log.Basic
import Mathlib.Analysis.SpecialFunctions.Pow.Real
import Mathlib.Algebra.BigOperators.Fin

/-!
# Model of the beam heat sources

`source/GoldakHeatSource.cc`, `source/ElectronBeamHeatSource.cc`, `source/HeatSource.hh`,
`source/BeamHeatSourceProperties.hh`.  The two classes have the same text except for the coefficient `_alpha` and the
profile; the model has one definition with the class (`Kind`) as parameter.

Simplifications: `double` is `ℝ`; a NaN (from a NaN beam position or an invalid quaternion) is `none`; the sentinel
position `lowest()` after the end of the path gives `xpy_squared = ∞ > 5 r²`, hence the value `0`.  `VectorizedArray` is
a function from lanes.  A division by a zero radius or depth is not modelled (theorems assume both positive).
-/

namespace Verif.HeatSource

open Verif.Quat Verif.ScanPath

/-- `BeamHeatSourceProperties`, `BeamHeatSourceProperties.hh:71-93`. -/
structure BeamProps where
  depth : ℝ
  absorption : ℝ
  radius : ℝ
  radiusSq : ℝ
  maxPower : ℝ

/-- `BeamHeatSourceProperties::set_from_database`, `BeamHeatSourceProperties.hh:54-65`. -/
noncomputable def BeamProps.ofDatabase (dimScaling powerScaling depth absorption diameter maxPower : ℝ) :
    BeamProps where
  depth := depth * dimScaling
  absorption := absorption
  radius := diameter * dimScaling / 2
  radiusSq := (diameter * dimScaling / 2) ^ 2
  maxPower := maxPower * powerScaling

/-- The two beam classes. -/
inductive Kind
  | goldak
  | electronBeam
  deriving DecidableEq

/-- A beam heat source object: `HeatSource.hh:104-116` and the private members
(`GoldakHeatSource.hh:63-76`, `ElectronBeamHeatSource.hh:63-76`). -/
structure Source where
  kind : Kind
  props : BeamProps
  path : Path
  /-- `bool const _five_axis`, read once at construction -/
  fiveAxis : Bool
  sourceOn : Bool
  center : Answer (Pt3 ℝ)
  quat : Answer (Q ℝ)
  alpha : ℝ
  depth : ℝ
  radiusSq : ℝ

/-- `_alpha`, `GoldakHeatSource.cc:40-42` and `ElectronBeamHeatSource.cc:38-41`. -/
noncomputable def coefficient (k : Kind) (b : BeamProps) (m : ℝ) : ℝ :=
  match k with
  | .goldak => 2 * b.absorption * b.maxPower * m / (b.radiusSq * b.depth * (Real.pi / 3) ^ (3 / 2 : ℝ))
  | .electronBeam => -b.absorption * b.maxPower * m * Real.log (1 / 10) / (Real.pi * b.radiusSq * b.depth)

open Classical in
/-- `update_time`, `GoldakHeatSource.cc:25-45`, `ElectronBeamHeatSource.cc:25-46`.  `none`: the scan path is empty or is
read outside its list (undefined behaviour). -/
noncomputable def Source.updateTime (s : Source) (t : ℝ) : Option Source :=
  match powerModifier s.path t with
  | (.value m, path1) =>
    let path2 := (ScanPath.value path1 t true).2
    some { s with
      path := path2
      sourceOn := decide (m > 0)
      center := (ScanPath.value path1 t true).1
      quat := quaternion path2 t
      alpha := coefficient s.kind s.props m
      depth := s.props.depth
      radiusSq := s.props.radiusSq }
  | _ => none

/-- `set_beam_properties`, `HeatSource.hh:136-141`: only the properties change until the next `update_time`. -/
def Source.setBeamProperties (s : Source) (b : BeamProps) : Source := { s with props := b }

/-- The constructor, `GoldakHeatSource.cc:15-22`, `ElectronBeamHeatSource.cc:13-23`, `HeatSource.hh:54-64`.  The members
not initialised in the code are arbitrary until `update_time` (here: zero). -/
noncomputable def Source.new (k : Kind) (b : BeamProps) (p : Path) : Source :=
  ⟨k, b, p, p.fiveAxis, false, .nan, .nan, 0, 0, 0⟩

/-! ## Values -/

/-- The exponential/polynomial part, `GoldakHeatSource.cc:81-85` and `ElectronBeamHeatSource.cc:68-70, 86-89`
(scalar), `GoldakHeatSource.cc:140-146` and `ElectronBeamHeatSource.cc:141-154` (vectorised; the same expression up to
the order of the operations).  `rho2` is `xpy_squared`, `z` the height relative to the beam. -/
noncomputable def profile (k : Kind) (radiusSq depth rho2 z : ℝ) : ℝ :=
  match k with
  | .goldak => Real.exp (-3 * rho2 * (1 / radiusSq) + -3 * z ^ 2 * (1 / depth ^ 2))
  | .electronBeam =>
    Real.exp (Real.log (1 / 10) * rho2 * (1 / radiusSq)) *
      (-3 * (z * (1 / depth)) ^ 2 - 2 * (z * (1 / depth)) + 1)

/-- The squared radius the scalar cut-off compares with: `this->_beam.radius_squared` (`GoldakHeatSource.cc:75`) or the
member set by `update_time` (`ElectronBeamHeatSource.cc:80`). -/
def Source.cutoffRadiusSq (s : Source) : ℝ :=
  match s.kind with
  | .goldak => s.props.radiusSq
  | .electronBeam => s.radiusSq

open Classical in
/-- Scalar `value` as a function of the relative position, `GoldakHeatSource.cc:59-88`,
`ElectronBeamHeatSource.cc:60-94`. -/
noncomputable def Source.scalarAt (s : Source) (rho2 z : ℝ) : ℝ :=
  if z + s.depth < 0 then 0
  else if rho2 > 5 * s.cutoffRadiusSq then 0
  else s.alpha * profile s.kind s.radiusSq s.depth rho2 z

open Classical in
/-- A mask lane: `x < 0 ? 0. : 1.`, `GoldakHeatSource.cc:108-111, 131-134`. -/
noncomputable def mask (x : ℝ) : ℝ := if x < 0 then 0 else 1

open Classical in
/-- Vectorised `value` as a function of the relative positions of the lanes, `GoldakHeatSource.cc:105-147`,
`ElectronBeamHeatSource.cc:109-155`.  `xpy_mask` is used for the early return only. -/
noncomputable def Source.lanesAt {n : ℕ} (s : Source) (rho2 z : Fin n → ℝ) : Fin n → ℝ :=
  let depthMask := fun i : Fin n => mask (z i + s.depth)
  if ∑ i, depthMask i = 0 then depthMask
  else
    let xpyMask := fun i : Fin n => mask (5 * s.radiusSq - rho2 i)
    if ∑ i, xpyMask i = 0 then xpyMask
    else fun i => depthMask i * (s.alpha * profile s.kind s.radiusSq s.depth (rho2 i) (z i))

/-- The point in the frame of the beam, `GoldakHeatSource.cc:49-57, 95-103`: rotated if the path is five-axis. -/
noncomputable def Source.inFrame (s : Source) (p : Pt3 ℝ) : Option (Pt3 ℝ) :=
  if s.fiveAxis then
    match s.quat with
    | .value q => some (q.rotate p)
    | _ => none
  else some p

/-- `xpy_squared` in 3D, `GoldakHeatSource.cc:66-71`. -/
noncomputable def rho2In3D (c p : Pt3 ℝ) : ℝ := (p.x - c.x) ^ 2 + (p.y - c.y) ^ 2

/-- `value(Point<3>)`: `GoldakHeatSource.cc:47-88`, `ElectronBeamHeatSource.cc:48-95`. -/
noncomputable def Source.value3 (s : Source) (p : Pt3 ℝ) : Option ℝ :=
  match s.inFrame p with
  | none => none
  | some r =>
    match s.center with
    | .value c => some (s.scalarAt (rho2In3D c r) (r.z - c.z))
    | .outOfDomain => some 0
    | _ => none

/-- `value(Point<2>)` for the point `(x, z)`.  The height of the beam is `_beam_center[axis<2>::z]`, i.e. the **second**
component of the scan path position (`types.hh:171-178`). -/
noncomputable def Source.value2 (s : Source) (x z : ℝ) : Option ℝ :=
  match s.center with
  | .value c => some (s.scalarAt ((x - c.x) ^ 2) (z - c.y))
  | .outOfDomain => some 0
  | _ => none

/-- Vectorised `value(Point<3, VectorizedArray>)`. -/
noncomputable def Source.vector3 {n : ℕ} (s : Source) (p : Fin n → Pt3 ℝ) : Option (Fin n → ℝ) :=
  match s.center with
  | .value c =>
    if s.fiveAxis then
      match s.quat with
      | .value q =>
        some (s.lanesAt (fun i => rho2In3D c (q.rotate (p i))) fun i => (q.rotate (p i)).z - c.z)
      | _ => none
    else some (s.lanesAt (fun i => rho2In3D c (p i)) fun i => (p i).z - c.z)
  | .outOfDomain =>
    if s.fiveAxis then
      match s.quat with
      | .value _ => some fun _ => 0
      | _ => none
    else some fun _ => 0
  | _ => none

/-- Vectorised `value(Point<2, VectorizedArray>)`. -/
noncomputable def Source.vector2 {n : ℕ} (s : Source) (x z : Fin n → ℝ) : Option (Fin n → ℝ) :=
  match s.center with
  | .value c => some (s.lanesAt (fun i => (x i - c.x) ^ 2) fun i => z i - c.y)
  | .outOfDomain => some fun _ => 0
  | _ => none

/-! ## Bounding boxes -/

/-- `dealii::BoundingBox<3>`. -/
structure Box3 where
  lo : Pt3 ℝ
  hi : Pt3 ℝ

/-- `get_bounding_box` in 3D without the rotation, `GoldakHeatSource.cc:163-172`,
`ElectronBeamHeatSource.cc:171-182`. -/
noncomputable def boxAround (b : BeamProps) (c : Pt3 ℝ) (scaling : ℝ) : Box3 where
  lo := ⟨c.x - scaling * b.radius, c.y - scaling * b.radius, c.z - scaling * b.depth⟩
  hi := ⟨c.x + scaling * b.radius, c.y + scaling * b.radius, c.z⟩

/-- Componentwise minimum and maximum of two corners, `GoldakHeatSource.cc:181-191`. -/
noncomputable def sortCorners (a b : Pt3 ℝ) : Box3 where
  lo := ⟨min a.x b.x, min a.y b.y, min a.z b.z⟩
  hi := ⟨max a.x b.x, max a.y b.y, max a.z b.z⟩

/-- `get_bounding_box` in 3D, `GoldakHeatSource.cc:150-199`, `ElectronBeamHeatSource.cc:158-209`; `none` if the position
is not a number or the sentinel. -/
noncomputable def Source.boundingBox3 (s : Source) (t scaling : ℝ) : Option Box3 :=
  match (ScanPath.value s.path t false).1 with
  | .value c =>
    let b := boxAround s.props c scaling
    if s.path.fiveAxis then
      match rotatePoint s.path t b.hi, rotatePoint s.path t b.lo with
      | .value h, .value l => some (sortCorners h l)
      | _, _ => none
    else some b
  | _ => none

/-- `get_bounding_box` in 2D: `((xmin, zmin), (xmax, zmax))`, `GoldakHeatSource.cc:154-161`. -/
noncomputable def Source.boundingBox2 (s : Source) (t scaling : ℝ) : Option ((ℝ × ℝ) × (ℝ × ℝ)) :=
  match (ScanPath.value s.path t false).1 with
  | .value c =>
    some ((c.x - scaling * s.props.radius, c.y - scaling * s.props.depth), (c.x + scaling * s.props.radius, c.y))
  | _ => none

end Verif.HeatSource
