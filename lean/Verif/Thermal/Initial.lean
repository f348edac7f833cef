import Verif.Thermal.Physics
import Verif.Input.Geometry

/-!
# C109, C110: the mesh and the material at the start

`source/ThermalPhysics.templates.hh:472-492` (which cells hold material), `source/Geometry.cc:104-198, 251-258`
(import of the mesh, unit of the coordinates, material ids) and `source/Geometry.cc:317-353` (solid or powder).
Simplifications: the reader of the mesh file is a function from the format to the cells of the file (deal.II
`GridIn::read`); of a cell the model keeps its number, its owner, the height of its centre and its material id.
`GridTools::scale` multiplies every vertex, hence the centre, by the factor.
-/

namespace Verif.Thermal.Initial

open Verif.Refinement Verif.Input

/-- A cell of the mesh of one rank before `set_active_fe_index`. -/
structure MeshCell where
  id : ℕ
  owned : Bool
  z : ℝ
  materialId : ℕ

open Classical in
/-- The loop of `ThermalPhysics.templates.hh:475-491`: the cells with their finite element, and the three arrays in the
order of `push_back`.  The finite element of a cell of another rank is deal.II's default 0 until the exchange in
`distribute_dofs`. -/
noncomputable def activate (height : ℝ) : List MeshCell → List Cell × List ℝ × List ℝ × List Bool
  | [] => ([], [], [], [])
  | c :: cs =>
    let r := activate height cs;
    if c.owned then
      if c.z < height then
        (⟨c.id, true, 0⟩ :: r.1, 1 :: r.2.1, 0 :: r.2.2.1, false :: r.2.2.2)
      else (⟨c.id, true, 1⟩ :: r.1, r.2)
    else (⟨c.id, false, 0⟩ :: r.1, r.2)

/-- `database.get("geometry.material_height", 1e9)`, line 474. -/
noncomputable def materialHeight (entry : Option ℝ) : ℝ := entry.getD 1000000000

/-- The number of material states decides the pure state vector of a cell (`set_initial_state`, C64, C105). -/
noncomputable def pureState (nStates : ℕ) (usePowder : Bool) (height layer z : ℝ) : List ℝ :=
  (List.range nStates).map fun s => if s = userIndex usePowder height layer z then 1 else 0

/-- What the arrays of a rank are after the constructors: the states of the owned cells in order (C105), and the arrays
of `activate`. -/
noncomputable def start (nStates : ℕ) (usePowder : Bool) (height layer : ℝ) (cells : List MeshCell) :
    List Cell × Arrays :=
  let r := activate height cells;
  (r.1, ⟨(cells.filter (·.owned)).map fun c => pureState nStates usePowder height layer c.z, r.2.1, r.2.2.1, r.2.2.2⟩)

/-! ## The mesh -/

/-- `dealii::GridIn::Format`. -/
inductive Format
  | abaqus | assimp | unv | ucd | dbmesh | msh | tecplot | xda | vtk | vtu | exodusii | guess
  deriving DecidableEq

/-- `Geometry.cc:114-161`. -/
def meshFormat (s : String) : Format :=
  if s = "abaqus" then .abaqus
  else if s = "assimp" then .assimp
  else if s = "unv" then .unv
  else if s = "ucd" then .ucd
  else if s = "dbmesh" then .dbmesh
  else if s = "gmsh" then .msh
  else if s = "tecplot" then .tecplot
  else if s = "xda" then .xda
  else if s = "vtk" then .vtk
  else if s = "vtu" then .vtu
  else if s = "exodusii" then .exodusii
  else .guess

/-- Import of a mesh, `Geometry.cc:104-185`; `none`: the reader fails.  `unit` is the factor of `units.mesh`. -/
noncomputable def importMesh (reader : Format → Option (List MeshCell)) (format : String) (unit : ℝ)
    (resetMaterialId : Bool) : Option (List MeshCell) :=
  (reader (meshFormat format)).map fun cells =>
    let scaled := cells.map fun c => { c with z := unit * c.z }
    if resetMaterialId then scaled.map fun c => { c with materialId := 0 } else scaled

/-- The material ids of a generated mesh, `Geometry.cc:251-258`. -/
def generateMesh (cells : List MeshCell) : List MeshCell := cells.map fun c => { c with materialId := 0 }

/-- `_properties(material_id, property)`, `MaterialProperty.templates.hh:160-177`: a table with one row per material; a
row that does not exist is read out of bounds (`none`). -/
def property (table : List (List ℝ)) (c : MeshCell) (p : ℕ) : Option ℝ :=
  (table[c.materialId]?).bind fun row => row[p]?

/-! ## Proofs -/

theorem activate_cells (height : ℝ) (cells : List MeshCell) :
    (activate height cells).1.map Cell.id = cells.map MeshCell.id ∧
      (activate height cells).1.map Cell.owned = cells.map MeshCell.owned := by
  induction cells with
  | nil => exact ⟨rfl, rfl⟩
  | cons c cs ih =>
    unfold activate
    by_cases h1 : c.owned = true
    · by_cases h2 : c.z < height <;> simp [h1, h2, ih]
    · simp [h1, ih]

theorem activate_fe (height : ℝ) (cells : List MeshCell) (i : ℕ) (c : MeshCell) (d : Cell)
    (hc : cells[i]? = some c) (hd : (activate height cells).1[i]? = some d) (ho : c.owned = true) :
    d.feIndex = if c.z < height then 0 else 1 := by
  classical
  induction cells generalizing i with
  | nil => simp at hc
  | cons a cs ih =>
    cases i with
    | zero =>
      simp only [List.getElem?_cons_zero, Option.some.injEq] at hc
      subst hc
      unfold activate at hd
      by_cases h2 : a.z < height
      · simp only [ho, h2, if_true, List.getElem?_cons_zero, Option.some.injEq] at hd ⊢
        rw [← hd]
      · simp only [ho, h2, if_true, if_false, List.getElem?_cons_zero, Option.some.injEq] at hd ⊢
        rw [← hd]
    | succ i =>
      refine ih i hc ?_
      unfold activate at hd
      by_cases h1 : a.owned = true
      · by_cases h2 : a.z < height <;> simpa [h1, h2] using hd
      · simpa [h1] using hd

theorem activate_arrays (height : ℝ) (cells : List MeshCell) :
    let n := (cells.filter fun c => c.owned && decide (c.z < height)).length
    (activate height cells).2 = (List.replicate n 1, List.replicate n 0, List.replicate n false) := by
  classical
  induction cells with
  | nil => rfl
  | cons c cs ih =>
    unfold activate
    dsimp only at ih ⊢
    by_cases h1 : c.owned = true
    · by_cases h2 : c.z < height
      · simp [h1, h2, ih, List.replicate_succ]
      · simp [h1, h2, ih]
    · simp [h1, ih]

theorem activate_filter (height : ℝ) (cells : List MeshCell) :
    ((activate height cells).1.filter fun c => c.owned && c.feIndex == 0).map Cell.id =
      (cells.filter fun c => c.owned && decide (c.z < height)).map MeshCell.id := by
  classical
  induction cells with
  | nil => rfl
  | cons c cs ih =>
    unfold activate
    by_cases h1 : c.owned = true
    · by_cases h2 : c.z < height
      · simp [h1, h2, ih]
      · simp [h1, h2, ih]
    · simp [h1, ih]

/-- **C109**. At the start the owned cells whose centre is below the material height hold material, all others hold
none; the cells keep their numbers and owners. -/
theorem C109_material (nStates : ℕ) (usePowder : Bool) (height layer : ℝ) (cells : List MeshCell) :
    (start nStates usePowder height layer cells).1.map (fun c => (c.id, c.owned)) =
        cells.map (fun c => (c.id, c.owned)) ∧
      ∀ (i : ℕ) (c : MeshCell) (d : Cell), cells[i]? = some c →
        (start nStates usePowder height layer cells).1[i]? = some d → c.owned = true →
        (d.feIndex = 0 ↔ c.z < height) ∧ (d.feIndex = 1 ↔ height ≤ c.z) := by
  constructor
  · obtain ⟨h1, h2⟩ := activate_cells height cells
    have : ∀ (l : List Cell) (m : List MeshCell), l.map Cell.id = m.map MeshCell.id →
        l.map Cell.owned = m.map MeshCell.owned →
        l.map (fun c => (c.id, c.owned)) = m.map (fun c => (c.id, c.owned)) := by
      intro l
      induction l with
      | nil => intro m hm _; cases m <;> simp_all
      | cons a l ih =>
        intro m hm ho
        cases m with
        | nil => simp at hm
        | cons b m =>
          simp only [List.map_cons, List.cons.injEq] at hm ho ⊢
          exact ⟨Prod.ext hm.1 ho.1, ih m hm.2 ho.2⟩
    exact this _ _ h1 h2
  · intro i c d hc hd ho
    have := activate_fe height cells i c d hc hd ho
    by_cases h : c.z < height
    · rw [if_pos h] at this
      rw [this]
      simp [h]
    · rw [if_neg h] at this
      rw [this]
      simp [h, not_lt.1 h]

/-- **C109**. The arrays of the start are aligned with the cells: the owned cell number `k` in the order of the mesh is
solid or powder as the powder layer says, every cell with material has the orientation `(1, 0)` and has not melted, and
there is no further entry. -/
theorem C109_arrays (nStates : ℕ) (usePowder : Bool) (height layer : ℝ) (cells : List MeshCell)
    (g : ℕ → Material)
    (hg : ∀ c ∈ cells, g c.id =
      ⟨pureState nStates usePowder height layer c.z, 1, 0, false⟩) :
    Holds nStates (start nStates usePowder height layer cells).1 (start nStates usePowder height layer cells).2 g := by
  classical
  have hlen : ∀ (x : ℝ) (f : Material → ℝ) , (∀ c ∈ cells, f (g c.id) = x) →
      List.replicate ((cells.filter fun c => c.owned && decide (c.z < height)).length) x =
        ((activate height cells).1.filter fun c => c.owned && c.feIndex == 0).map (fun c => f (g c.id)) := by
    intro x f hf
    have h1 : ((activate height cells).1.filter fun c => c.owned && c.feIndex == 0).map (fun c => f (g c.id)) =
        (((activate height cells).1.filter fun c => c.owned && c.feIndex == 0).map Cell.id).map
          (fun k => f (g k)) := by simp
    rw [h1, activate_filter, List.map_map]
    symm
    rw [List.eq_replicate_iff]
    refine ⟨by simp, ?_⟩
    intro b hb
    obtain ⟨c, hc, rfl⟩ := List.mem_map.1 hb
    exact hf c (List.mem_filter.1 hc).1
  have harr := activate_arrays height cells
  refine ⟨?_, ?_, ?_, ?_, ?_⟩
  · have hst : ∀ (l : List MeshCell), (∀ c ∈ l, c ∈ cells) →
        ((l.filter (·.owned)).map fun c => pureState nStates usePowder height layer c.z) =
          ((activate height l).1.filter (·.owned)).map fun c => (g c.id).ratios := by
      intro l
      induction l with
      | nil => intro _; rfl
      | cons c l ih =>
        intro hl
        have hc := hg c (hl c (by simp))
        have hi := ih (fun x hx => hl x (List.mem_cons_of_mem _ hx))
        by_cases h1 : c.owned = true
        · by_cases h2 : c.z < height
          · simp only [activate, h1, h2, if_true, List.filter_cons, List.map_cons, hc]
            rw [hi]
          · simp only [activate, h1, h2, if_true, if_false, List.filter_cons, List.map_cons, hc]
            rw [hi]
        · simp only [activate, h1, Bool.false_eq_true, if_false, List.filter_cons]
          rw [hi]
    exact hst cells (fun _ h => h)
  · show (activate height cells).2.1 = _
    rw [harr]
    exact hlen 1 Material.cos (fun c hc => by rw [hg c hc])
  · show (activate height cells).2.2.1 = _
    rw [harr]
    exact hlen 0 Material.sin (fun c hc => by rw [hg c hc])
  · show (activate height cells).2.2.2 = _
    rw [harr]
    have h1 : ((activate height cells).1.filter fun c => c.owned && c.feIndex == 0).map (fun c => (g c.id).melted) =
        (((activate height cells).1.filter fun c => c.owned && c.feIndex == 0).map Cell.id).map
          (fun k => (g k).melted) := by simp
    show List.replicate _ false = ((activate height cells).1.filter fun c => c.owned && c.feIndex == 0).map _
    rw [h1, activate_filter, List.map_map]
    symm
    rw [List.eq_replicate_iff]
    refine ⟨by simp, ?_⟩
    intro b hb
    obtain ⟨c, hc, rfl⟩ := List.mem_map.1 hb
    simp [hg c (List.mem_filter.1 hc).1]
  · intro d hd ho
    have hid : d.id ∈ (activate height cells).1.map Cell.id := List.mem_map_of_mem hd
    rw [(activate_cells height cells).1] at hid
    obtain ⟨c, hc, hcd⟩ := List.mem_map.1 hid
    rw [← hcd, hg c hc]
    simp [pureState]

/-- **C109**. Such a field exists: the numbers of the cells are distinct. -/
theorem C109_field (nStates : ℕ) (usePowder : Bool) (height layer : ℝ) (cells : List MeshCell)
    (hnd : (cells.map MeshCell.id).Nodup) :
    ∃ g : ℕ → Material, ∀ c ∈ cells, g c.id = ⟨pureState nStates usePowder height layer c.z, 1, 0, false⟩ := by
  classical
  refine ⟨fun k => match cells.find? (fun c => c.id == k) with
    | some c => ⟨pureState nStates usePowder height layer c.z, 1, 0, false⟩
    | none => ⟨[], 0, 0, false⟩, ?_⟩
  intro c hc
  have : cells.find? (fun d => d.id == c.id) = some c := by
    induction cells with
    | nil => simp at hc
    | cons a cs ih =>
      rw [List.map_cons, List.nodup_cons] at hnd
      rcases List.mem_cons.1 hc with rfl | h
      · simp
      · have : a.id ≠ c.id := fun h' => hnd.1 (h' ▸ List.mem_map_of_mem h)
        rw [List.find?_cons_of_neg (by simpa using this)]
        exact ih hnd.2 h
  simp only [this]

/-- **C109**. Without the entry every cell below 10⁹ m holds material, and a larger height gives more of it. -/
theorem C109_height (c : MeshCell) (h h' : ℝ) (hh : h ≤ h') :
    (c.z < 1000000000 → c.z < materialHeight none) ∧
      (c.z < materialHeight (some h) → c.z < materialHeight (some h')) := by
  refine ⟨fun hz => hz, fun hz => lt_of_lt_of_le hz hh⟩

/-- **C109**. A cell without material at the start is powder if a (non-negative) powder layer is asked for and solid
otherwise: that is the state material deposited in it later begins with. -/
theorem C109_deposited_state (usePowder : Bool) (height layer : ℝ) (hl : 0 ≤ layer) (c : MeshCell)
    (hz : height ≤ c.z) :
    pureState 3 usePowder height layer c.z = if usePowder then [0, 0, 1] else [1, 0, 0] := by
  have : ¬ c.z < height - layer := by linarith
  cases usePowder <;> simp [pureState, userIndex, this, solidIndex, powderIndex, List.range_succ]

/-- **C110**. Every documented name selects the format of that name; other names let deal.II guess from the file name. -/
theorem C110_format :
    (["abaqus", "assimp", "unv", "ucd", "dbmesh", "gmsh", "tecplot", "xda", "vtk", "vtu", "exodusii"].map meshFormat =
      [.abaqus, .assimp, .unv, .ucd, .dbmesh, .msh, .tecplot, .xda, .vtk, .vtu, .exodusii]) ∧
      ∀ s, s ∉ ["abaqus", "assimp", "unv", "ucd", "dbmesh", "gmsh", "tecplot", "xda", "vtk", "vtu", "exodusii"] →
        meshFormat s = .guess := by
  refine ⟨by decide +kernel, ?_⟩
  intro s hs
  simp only [List.mem_cons, List.not_mem_nil, or_false, not_or] at hs
  simp [meshFormat, hs]

/-- **C110**. An imported mesh has the cells of the file, in metres: the coordinates are those of the file times the
factor of its unit; the material ids are the file's, or zero on request. -/
theorem C110_import (reader : Format → Option (List MeshCell)) (format : String) (unit : ℝ) (reset : Bool)
    (cells mesh : List MeshCell) (hr : reader (meshFormat format) = some cells)
    (hm : importMesh reader format unit reset = some mesh) :
    mesh.length = cells.length ∧ ∀ (i : ℕ) (c d : MeshCell), cells[i]? = some c → mesh[i]? = some d →
      d.z = c.z * unit ∧ d.id = c.id ∧ d.owned = c.owned ∧ d.materialId = if reset then 0 else c.materialId := by
  unfold importMesh at hm
  rw [hr] at hm
  cases reset
  · simp only [Option.map_some, Option.some.injEq, Bool.false_eq_true, if_false] at hm
    subst hm
    refine ⟨by simp, fun i c d hc hd => ?_⟩
    rw [List.getElem?_map, hc] at hd
    simp only [Option.map_some, Option.some.injEq] at hd
    subst hd
    exact ⟨mul_comm _ _, rfl, rfl, rfl⟩
  · simp only [Option.map_some, Option.some.injEq, if_true] at hm
    subst hm
    refine ⟨by simp, fun i c d hc hd => ?_⟩
    rw [List.getElem?_map, List.getElem?_map, hc] at hd
    simp only [Option.map_some, Option.some.injEq] at hd
    subst hd
    exact ⟨mul_comm _ _, rfl, rfl, rfl⟩

/-- **C110** with C109: the material height is *not* converted: of a mesh file in millimetres the cells whose height in
metres is below the number given are filled. -/
theorem C110_height_in_metres (reader : Format → Option (List MeshCell)) (format : String) (unit height layer : ℝ)
    (reset usePowder : Bool) (cells mesh : List MeshCell) (hr : reader (meshFormat format) = some cells)
    (hm : importMesh reader format unit reset = some mesh) (i : ℕ) (c : MeshCell) (d : Cell)
    (hc : cells[i]? = some c) (ho : c.owned = true) (hd : (start 3 usePowder height layer mesh).1[i]? = some d) :
    d.feIndex = 0 ↔ c.z * unit < height := by
  obtain ⟨hl, hspec⟩ := C110_import reader format unit reset cells mesh hr hm
  obtain ⟨hlt, -⟩ := List.getElem?_eq_some_iff.1 hc
  have hmi : mesh[i]? = some (mesh[i]'(hl ▸ hlt)) := List.getElem?_eq_getElem _
  obtain ⟨h1, -, h3, -⟩ := hspec i c _ hc hmi
  rw [← h1]
  exact ((C109_material 3 usePowder height layer mesh).2 i _ d hmi hd (h3.trans ho)).1

/-- **C110**. Every cell of a generated mesh, or of an imported one with the ids reset, has the properties of
material 0. -/
theorem C110_material_zero (table : List (List ℝ)) (cells mesh : List MeshCell)
    (hm : mesh = generateMesh cells ∨
      ∃ (reader : Format → Option (List MeshCell)) (f : String) (u : ℝ), importMesh reader f u true = some mesh)
    (c : MeshCell) (hc : c ∈ mesh) (p : ℕ) :
    property table c p = (table[0]?).bind fun row => row[p]? := by
  have : c.materialId = 0 := by
    rcases hm with rfl | ⟨reader, f, u, h⟩
    · obtain ⟨d, -, rfl⟩ := List.mem_map.1 hc
      rfl
    · unfold importMesh at h
      cases hr : reader (meshFormat f) with
      | none => rw [hr] at h; simp at h
      | some l =>
        rw [hr] at h
        simp only [Option.map_some, Option.some.injEq, if_true] at h
        subst h
        obtain ⟨d, -, rfl⟩ := List.mem_map.1 hc
        rfl
  rw [property, this]

/-- **C110**. An imported mesh keeps the file's material ids and nothing compares them with the number of materials: an
id that is too large is accepted, and the properties of that cell are read out of bounds. -/
theorem C110_unknown_material_refuted (table : List (List ℝ)) (format : String) (unit : ℝ) (p : ℕ) :
    ∃ (reader : Format → Option (List MeshCell)) (mesh : List MeshCell) (c : MeshCell),
      importMesh reader format unit false = some mesh ∧ c ∈ mesh ∧ property table c p = none := by
  refine ⟨fun _ => some [⟨0, true, 0, table.length⟩], [⟨0, true, unit * 0, table.length⟩],
    ⟨0, true, unit * 0, table.length⟩, ?_, by simp, ?_⟩
  · simp [importMesh]
  · simp [property]

/-- A mesh of three cells of this rank and one of another: the third is above the material, the second in the powder. -/
example : start 3 true 2 1 [⟨7, true, 1 / 2, 0⟩, ⟨4, false, 1 / 2, 0⟩, ⟨5, true, 3 / 2, 0⟩, ⟨9, true, 5 / 2, 0⟩] =
    ([⟨7, true, 0⟩, ⟨4, false, 0⟩, ⟨5, true, 0⟩, ⟨9, true, 1⟩],
      ⟨[[1, 0, 0], [0, 0, 1], [0, 0, 1]], [1, 1], [0, 0], [false, false]⟩) := by
  norm_num [start, activate, pureState, userIndex, solidIndex, powderIndex, List.range_succ]

end Verif.Thermal.Initial
