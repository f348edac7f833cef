import Verif.Input.Boundary
import Mathlib.Data.Rat.Defs
import Mathlib.Algebra.Order.Ring.Rat
import Mathlib.Tactic.NormNum

/-
`validate_input_database` (source/validate_input_database.cc:16-551), section by section.

Numbers read with `get<double>` are rationals here: every decimal text denotes one; the
rounding to a double is not modelled.  The result `none` stands for an exception
(`ASSERT_THROW`, or a missing or unreadable entry in a `get`).
-/

namespace Verif.Input

/-- `ASSERT_THROW(condition, ...)`. -/
def require (b : Bool) : Option Unit := if b then some () else none

/-- `database.get<unsigned int>(path)`. -/
def getUInt (p : Parsers ℚ) (t : Tree) (path : List String) : Option ℕ := (t.str? path).bind p.uint

/-- `database.get<double>(path)`. -/
def getDbl (p : Parsers ℚ) (t : Tree) (path : List String) : Option ℚ := (t.str? path).bind p.dbl

/-- `database.get<bool>(path)`. -/
def getBool (p : Parsers ℚ) (t : Tree) (path : List String) : Option Bool :=
  (t.str? path).bind p.bool

/-- `database.get(path, default)` for truth values: a missing or unreadable entry gives the
default. -/
def getBoolD (p : Parsers ℚ) (t : Tree) (path : List String) (d : Bool) : Bool :=
  (getBool p t path).getD d

/-- `database.get_child(path).count(key) != 0`; a missing child throws, which has the same
effect as the failing assertion in which the expression is used. -/
def hasChild (t : Tree) (path : List String) (key : String) : Bool :=
  match t.get? path with
  | none => false
  | some c => decide (c.count key ≠ 0)

/-- physics (source/validate_input_database.cc:18-24). -/
def validatePhysics (p : Parsers ℚ) (t : Tree) : Option (Bool × Bool) := do
  let th ← getBool p t ["physics", "thermal"]
  let me ← getBool p t ["physics", "mechanical"]
  require (th || me)
  return (th, me)

/-- The variables of the lambda `parse_boundary_type`
(source/validate_input_database.cc:30-86): the type of the line, whether it has thermal and
mechanical conditions, and the type accumulated over all lines. -/
structure LineState where
  line : ℕ
  thermal : Bool
  mechanical : Bool
  glob : ℕ
  deriving DecidableEq

/-- The lambda `parse_boundary_type` (source/validate_input_database.cc:33-86). -/
def lineStep (st : LineState) (b : String) : Option LineState :=
  if b = "adiabatic" then do
    require (decide (¬ Has st.line .radiative) || decide (¬ Has st.line .convective))
    return { st with line := st.line ||| 0x1, thermal := true }
  else if b = "radiative" then do
    require (decide (¬ Has st.line .adiabatic))
    return { st with line := st.line ||| 0x2, glob := st.glob ||| 0x2, thermal := true }
  else if b = "convective" then do
    require (decide (¬ Has st.line .adiabatic))
    return { st with line := st.line ||| 0x4, glob := st.glob ||| 0x4, thermal := true }
  else if b = "clamped" then do
    require (decide (¬ Has st.line .tractionFree))
    return { st with line := st.line ||| 0x8, mechanical := true }
  else if b = "traction_free" then do
    require (decide (¬ Has st.line .clamped))
    return { st with line := st.line ||| 0x10, mechanical := true }
  else none

/-- One line: the names in order (source/validate_input_database.cc:107-115). -/
def lineFold : LineState → List String → Option LineState
  | st, [] => some st
  | st, b :: bs => (lineStep st b).bind (fun st' => lineFold st' bs)

/-- The names of one line, starting from an empty line and the given accumulated type. -/
def checkLine (glob : ℕ) (s : String) : Option LineState :=
  lineFold ⟨0, false, false, glob⟩ (pieces s)

/-- The loop over the children of `boundary` (source/validate_input_database.cc:89-128).
`clamped` is `clamped_boundary`.  (A child name containing a dot is treated as one name.) -/
def boundaryLoop (db : Tree) (th me : Bool) :
    List (String × Tree) → ℕ → Bool → Option (ℕ × Bool)
  | [], glob, clamped => some (glob, clamped)
  | c :: cs, glob, clamped => do
    let s ← (if c.1 = "type" then some c.2.data else db.str? [c.1, "type"])
    let st ← checkLine glob s
    require (!th || st.thermal)
    require (!me || st.mechanical)
    boundaryLoop db th me cs st.glob (clamped || decide (Has st.line .clamped))

/-- boundary (source/validate_input_database.cc:87-133); the result is the accumulated
`boundary_type`. -/
def validateBoundary (t : Tree) (th me : Bool) : Option ℕ := do
  let db ← t.get? ["boundary"]
  let r ← boundaryLoop db th me db.children 0 false
  require (!me || r.2)
  return r.1

/-- discretization.thermal (source/validate_input_database.cc:135-157). -/
def validateDiscretization (p : Parsers ℚ) (t : Tree) (th : Bool) : Option Unit :=
  if th then do
    let d ← getUInt p t ["discretization", "thermal", "fe_degree"]
    require (decide (0 < d) && decide (d < 6))
    match t.str? ["discretization", "thermal", "quadrature"] with
    | none => some ()
    | some q => require (iequals q "gauss" || iequals q "lobatto")
  else some ()

/-- The checks for material deposition (source/validate_input_database.cc:174-210).  The
count for the method "file" uses the undivided key `"geometry.material_deposition_file"` on
the root. -/
def validateDeposition (p : Parsers ℚ) (t : Tree) (dim : ℕ) : Option Unit :=
  if getBoolD p t ["geometry", "material_deposition"] false then do
    let m ← t.str? ["geometry", "material_deposition_method"]
    require (decide (m = "file") || decide (m = "scan_paths"))
    if m = "file" then
      require (decide (t.count "geometry.material_deposition_file" ≠ 0))
    else do
      require (hasChild t ["geometry"] "deposition_length")
      require (hasChild t ["geometry"] "deposition_height")
      require (!(decide (dim = 3)) || hasChild t ["geometry"] "deposition_width")
      require (hasChild t ["geometry"] "deposition_lead_time")
  else some ()

/-- The checks for the powder (source/validate_input_database.cc:163-169). -/
def validatePowder (p : Parsers ℚ) (t : Tree) : Option Unit :=
  if getBoolD p t ["geometry", "use_powder"] false then do
    let l ← getDbl p t ["geometry", "powder_layer"]
    require (decide (0 ≤ l))
  else some ()

/-- The checks for the mesh (source/validate_input_database.cc:212-233). -/
def validateMesh (p : Parsers ℚ) (t : Tree) (dim : ℕ) : Option Unit := do
  let imp ← getBool p t ["geometry", "import_mesh"]
  if imp then do
    require (hasChild t ["geometry"] "mesh_file")
    require (hasChild t ["geometry"] "mesh_format")
  else do
    require (hasChild t ["geometry"] "length")
    require (hasChild t ["geometry"] "height")
    require (!(decide (dim = 3)) || hasChild t ["geometry"] "width")

/-- geometry (source/validate_input_database.cc:159-233); the result is `dim`. -/
def validateGeometry (p : Parsers ℚ) (t : Tree) : Option ℕ := do
  let dim ← getUInt p t ["geometry", "dim"]
  require (decide (dim = 2) || decide (dim = 3))
  validatePowder p t
  validateDeposition p t dim
  validateMesh p t dim
  return dim

/-- `material_state_names` (source/types.hh:107-108). -/
def stateNames : List String := ["solid", "liquid", "powder"]

/-- The key of a material. -/
def materialKey (id : ℕ) : String := "material_" ++ toString id

/-- One state of one material (source/validate_input_database.cc:257-314). -/
def validateState (t : Tree) (dim bt : ℕ) (mat state : String) : Bool :=
  let h := fun k => hasChild t ["materials", mat, state] k
  h "density" && h "specific_heat" && h "thermal_conductivity_x" && h "thermal_conductivity_z"
    && (!(decide (dim = 3)) || h "thermal_conductivity_y")
    && (!(decide (Has bt .convective)) || h "convection_heat_transfer_coef")
    && (!(decide (Has bt .radiative)) || h "emissivity")

/-- One material (source/validate_input_database.cc:244-337). -/
def validateMaterial (t : Tree) (dim bt : ℕ) (id : ℕ) : Bool :=
  let mat := materialKey id
  hasChild t ["materials"] mat
    && stateNames.all (fun s => !(hasChild t ["materials", mat] s) || validateState t dim bt mat s)
    && stateNames.any (fun s => hasChild t ["materials", mat] s)
    && (!(decide (Has bt .convective))
        || hasChild t ["materials", mat] "convection_temperature_infty")
    && (!(decide (Has bt .radiative))
        || hasChild t ["materials", mat] "radiation_temperature_infty")

/-- materials (source/validate_input_database.cc:235-338). -/
def validateMaterials (p : Parsers ℚ) (t : Tree) (dim bt : ℕ) : Option Unit := do
  let n ← getUInt p t ["materials", "n_materials"]
  let f ← t.str? ["materials", "property_format"]
  require (decide (f = "table") || decide (f = "polynomial"))
  require ((List.range n).all (validateMaterial t dim bt))

/-- memory_space, post_processor and refinement
(source/validate_input_database.cc:340-360). -/
def validateMisc (t : Tree) : Option Unit := do
  match t.str? ["memory_space"] with
  | none => some ()
  | some m => require (decide (m = "device") || decide (m = "host"))
  require (hasChild t ["post_processor"] "filename_prefix")
  require (decide (t.count "refinement" ≠ 0))

/-- The key of a beam. -/
def beamKey (i : ℕ) : String := "beam_" ++ toString i

/-- One beam (source/validate_input_database.cc:364-400). -/
def validateBeam (p : Parsers ℚ) (t : Tree) (i : ℕ) : Option Unit := do
  let ty ← t.str? ["sources", beamKey i, "type"]
  require (iequals ty "goldak" || iequals ty "electron_beam" || iequals ty "cube")
  require (hasChild t ["sources", beamKey i] "scan_path_file")
  let f ← t.str? ["sources", beamKey i, "scan_path_file_format"]
  require (iequals f "segment" || iequals f "event_series")
  let d ← getDbl p t ["sources", beamKey i, "depth"]
  require (decide (0 ≤ d))
  let a ← getDbl p t ["sources", beamKey i, "absorption_efficiency"]
  require (decide (0 ≤ a) && decide (a ≤ 1))

/-- sources (source/validate_input_database.cc:362-400). -/
def validateSources (p : Parsers ℚ) (t : Tree) : Option Unit := do
  let n ← getUInt p t ["sources", "n_beams"]
  require ((List.range n).all (fun i => (validateBeam p t i).isSome))

/-- time_stepping (source/validate_input_database.cc:402-421).  The duration is only checked
if the entry `time.scan_path_for_duration` is true (not
`time_stepping.scan_path_for_duration`, which the simulation reads). -/
def validateTime (p : Parsers ℚ) (t : Tree) : Option Unit := do
  let m ← t.str? ["time_stepping", "method"]
  require (iequals m "forward_euler" || iequals m "rk_third_order" || iequals m "rk_fourth_order")
  if getBoolD p t ["time", "scan_path_for_duration"] false then do
    let d ← getDbl p t ["time_stepping", "duration"]
    require (decide (0 ≤ d))
  let s ← getDbl p t ["time_stepping", "time_step"]
  require (decide (0 ≤ s))

/-- experiment (source/validate_input_database.cc:423-470). -/
def validateExperiment (p : Parsers ℚ) (t : Tree) : Option Unit :=
  match t.get? ["experiment"] with
  | none => some ()
  | some _ =>
    if getBoolD p t ["experiment", "read_in_experimental_data"] false then do
      require (hasChild t ["experiment"] "file")
      require (hasChild t ["experiment"] "last_frame")
      let f ← t.str? ["experiment", "format"]
      require (iequals f "point_cloud" || iequals f "ray")
      let first := (getUInt p t ["experiment", "first_frame"]).getD 0
      let last ← getUInt p t ["experiment", "last_frame"]
      require (decide (first ≤ last))
      let firstC ← getUInt p t ["experiment", "first_camera_id"]
      let lastC ← getUInt p t ["experiment", "last_camera_id"]
      require (decide (firstC ≤ lastC))
      require (hasChild t ["experiment"] "log_filename")
    else some ()

/-- data_assimilation (source/validate_input_database.cc:475-495). -/
def validateAssimilation (p : Parsers ℚ) (t : Tree) : Option Unit := do
  match getDbl p t ["data_assimilation", "convergence_tolerance"] with
  | none => some ()
  | some c => require (decide (0 ≤ c))
  let f := (t.str? ["data_assimilation", "localization_cutoff_function"]).getD "none"
  require (iequals f "gaspari_cohn" || iequals f "step_function" || iequals f "none")

/-- A unit entry that must be one of the given names, in any letter case. -/
def unitOk (t : Tree) (path : List String) (names : List String) : Option Unit :=
  match t.str? path with
  | none => some ()
  | some u => require (names.any (fun n => iequals u n))

/-- The accepted length units (source/validate_input_database.cc:500-503, 530-533, 542-545). -/
def lengthUnits : List String := ["millimeter", "centimeter", "inch", "meter"]
/-- The accepted power units (source/validate_input_database.cc:512-513). -/
def powerUnits : List String := ["milliwatt", "watt"]
/-- The accepted velocity units (source/validate_input_database.cc:520-522). -/
def velocityUnits : List String := ["millimeter/second", "centimeter/second", "meter/second"]

/-- units (source/validate_input_database.cc:497-550). -/
def validateUnits (t : Tree) : Option Unit := do
  unitOk t ["units", "mesh"] lengthUnits
  unitOk t ["units", "heat_source", "power"] powerUnits
  unitOk t ["units", "heat_source", "velocity"] velocityUnits
  unitOk t ["units", "heat_source", "dimension"] lengthUnits
  unitOk t ["units", "heat_source", "scan_path"] lengthUnits

/-- `validate_input_database` (source/validate_input_database.cc:16-551). -/
def validate (p : Parsers ℚ) (t : Tree) : Option Unit := do
  let ph ← validatePhysics p t
  let bt ← validateBoundary t ph.1 ph.2
  validateDiscretization p t ph.1
  let dim ← validateGeometry p t
  validateMaterials p t dim bt
  validateMisc t
  validateSources p t
  validateTime p t
  validateExperiment p t
  validateAssimilation p t
  validateUnits t

/-- The input is accepted. -/
def Accepted (p : Parsers ℚ) (t : Tree) : Prop := validate p t = some ()

instance (p : Parsers ℚ) (t : Tree) : Decidable (Accepted p t) :=
  inferInstanceAs (Decidable (_ = _))

/-! ## Elementary facts -/

theorem require_some {b : Bool} {u : Unit} (h : require b = some u) : b = true := by
  unfold require at h
  split at h
  · assumption
  · cases h

/-- All sections of an accepted input passed their checks. -/
theorem Accepted.sections {p : Parsers ℚ} {t : Tree} (h : Accepted p t) :
    ∃ (th me : Bool) (bt dim : ℕ), validatePhysics p t = some (th, me)
      ∧ validateBoundary t th me = some bt ∧ validateDiscretization p t th = some ()
      ∧ validateGeometry p t = some dim ∧ validateMaterials p t dim bt = some ()
      ∧ validateMisc t = some () ∧ validateSources p t = some () ∧ validateTime p t = some ()
      ∧ validateExperiment p t = some () ∧ validateAssimilation p t = some ()
      ∧ validateUnits t = some () := by
  unfold Accepted validate at h
  simp only [Option.bind_eq_bind, Option.bind_eq_some_iff] at h
  obtain ⟨⟨th, me⟩, h1, bt, h2, _, h3, dim, h4, _, h5, _, h6, _, h7, _, h8, _, h9, _, h10, h11⟩ := h
  exact ⟨th, me, bt, dim, h1, h2, h3, h4, h5, h6, h7, h8, h9, h10, h11⟩

theorem validatePhysics_some {p : Parsers ℚ} {t : Tree} {th me : Bool}
    (h : validatePhysics p t = some (th, me)) :
    getBool p t ["physics", "thermal"] = some th ∧ getBool p t ["physics", "mechanical"] = some me
      ∧ (th = true ∨ me = true) := by
  unfold validatePhysics at h
  simp only [Option.bind_eq_bind, Option.bind_eq_some_iff] at h
  obtain ⟨a, ha, b, hb, _, hr, he⟩ := h
  simp at he
  obtain ⟨rfl, rfl⟩ := he
  have := require_some hr
  simp at this
  exact ⟨ha, hb, this⟩

/-! ## C61: inputs outside the documented ranges are rejected -/

/-- **C61 (physics).** -/
theorem C61_no_physics (p : Parsers ℚ) (t : Tree)
    (h1 : getBool p t ["physics", "thermal"] = some false)
    (h2 : getBool p t ["physics", "mechanical"] = some false) : ¬ Accepted p t := by
  intro h
  obtain ⟨th, me, bt, dim, hp, -⟩ := h.sections
  obtain ⟨a, b, c⟩ := validatePhysics_some hp
  rw [h1] at a; rw [h2] at b
  simp at a b
  simp [a, b] at c

/-- **C61 (dimension).** An accepted input has dimension 2 or 3. -/
theorem C61_dim (p : Parsers ℚ) (t : Tree) (h : Accepted p t) :
    getUInt p t ["geometry", "dim"] = some 2 ∨ getUInt p t ["geometry", "dim"] = some 3 := by
  obtain ⟨th, me, bt, dim, -, -, -, hg, -⟩ := h.sections
  unfold validateGeometry at hg
  simp only [Option.bind_eq_bind, Option.bind_eq_some_iff] at hg
  obtain ⟨d, hd, _, hr, -⟩ := hg
  have := require_some hr
  simp at this
  rcases this with rfl | rfl
  · exact Or.inl hd
  · exact Or.inr hd

/-- **C61 (element degree).** An accepted thermal input has an element degree between 1 and
5. -/
theorem C61_degree (p : Parsers ℚ) (t : Tree) (h : Accepted p t)
    (hth : getBool p t ["physics", "thermal"] = some true) :
    ∃ d : ℕ, getUInt p t ["discretization", "thermal", "fe_degree"] = some d ∧ 1 ≤ d ∧ d ≤ 5 := by
  obtain ⟨th, me, bt, dim, hp, -, hd, -⟩ := h.sections
  obtain ⟨a, -, -⟩ := validatePhysics_some hp
  rw [hth] at a
  simp at a
  subst a
  unfold validateDiscretization at hd
  simp only [if_true, Option.bind_eq_bind, Option.bind_eq_some_iff] at hd
  obtain ⟨d, hd, _, hr, -⟩ := hd
  have := require_some hr
  simp at this
  exact ⟨d, hd, by omega, by omega⟩

theorem sources_beam {p : Parsers ℚ} {t : Tree} (h : Accepted p t) {n i : ℕ}
    (hn : getUInt p t ["sources", "n_beams"] = some n) (hi : i < n) :
    validateBeam p t i = some () := by
  obtain ⟨th, me, bt, dim, -, -, -, -, -, -, hs, -⟩ := h.sections
  unfold validateSources at hs
  simp only [Option.bind_eq_bind, Option.bind_eq_some_iff] at hs
  obtain ⟨m, hm, hr⟩ := hs
  rw [hn] at hm
  simp at hm
  subst hm
  have := require_some hr
  rw [List.all_eq_true] at this
  have := this i (by simpa using hi)
  obtain ⟨u, hu⟩ := Option.isSome_iff_exists.1 this
  rw [hu]

theorem validateBeam_some {p : Parsers ℚ} {t : Tree} {i : ℕ} (h : validateBeam p t i = some ()) :
    (∃ ty, t.str? ["sources", beamKey i, "type"] = some ty
        ∧ (iequals ty "goldak" = true ∨ iequals ty "electron_beam" = true
            ∨ iequals ty "cube" = true))
    ∧ (∃ f, t.str? ["sources", beamKey i, "scan_path_file_format"] = some f
        ∧ (iequals f "segment" = true ∨ iequals f "event_series" = true))
    ∧ (∃ d, getDbl p t ["sources", beamKey i, "depth"] = some d ∧ 0 ≤ d)
    ∧ (∃ a, getDbl p t ["sources", beamKey i, "absorption_efficiency"] = some a
        ∧ 0 ≤ a ∧ a ≤ 1) := by
  unfold validateBeam at h
  simp only [Option.bind_eq_bind, Option.bind_eq_some_iff] at h
  obtain ⟨ty, hty, _, r1, _, _, f, hf, _, r2, d, hd, _, r3, a, ha, r4⟩ := h
  have r1 := require_some r1
  have r2 := require_some r2
  have r3 := require_some r3
  have r4 := require_some r4
  simp at r1 r2 r3 r4
  exact ⟨⟨ty, hty, by tauto⟩, ⟨f, hf, r2⟩, ⟨d, hd, r3⟩, ⟨a, ha, r4⟩⟩

/-- **C61 (absorption).** In an accepted input the absorption efficiency of every beam lies
between 0 and 1 and its depth is not negative. -/
theorem C61_absorption (p : Parsers ℚ) (t : Tree) (h : Accepted p t) (n i : ℕ)
    (hn : getUInt p t ["sources", "n_beams"] = some n) (hi : i < n) :
    (∃ a : ℚ, getDbl p t ["sources", "beam_" ++ toString i, "absorption_efficiency"] = some a
        ∧ 0 ≤ a ∧ a ≤ 1)
    ∧ ∃ d : ℚ, getDbl p t ["sources", "beam_" ++ toString i, "depth"] = some d ∧ 0 ≤ d := by
  have := validateBeam_some (sources_beam h hn hi)
  exact ⟨this.2.2.2, this.2.2.1⟩

/-- **C61 (frames).** If experimental data are read, an accepted input has a last frame and a
last camera that do not come before the first ones. -/
theorem C61_frames (p : Parsers ℚ) (t : Tree) (h : Accepted p t)
    (hr : getBool p t ["experiment", "read_in_experimental_data"] = some true) :
    (∃ last : ℕ, getUInt p t ["experiment", "last_frame"] = some last
      ∧ ∀ first : ℕ, getUInt p t ["experiment", "first_frame"] = some first → first ≤ last)
    ∧ ∃ first last : ℕ, getUInt p t ["experiment", "first_camera_id"] = some first
      ∧ getUInt p t ["experiment", "last_camera_id"] = some last ∧ first ≤ last := by
  obtain ⟨th, me, bt, dim, -, -, -, -, -, -, -, -, he, -⟩ := h.sections
  unfold validateExperiment at he
  have hb : getBoolD p t ["experiment", "read_in_experimental_data"] false = true := by
    simp [getBoolD, hr]
  split at he
  · rename_i hx
    exfalso
    have : t.str? ["experiment", "read_in_experimental_data"] = none := by
      simp only [Tree.str?, Tree.get?] at hx ⊢
      cases hc : t.child? "experiment" with
      | none => simp
      | some c => simp [hc] at hx
    simp [getBool, this] at hr
  · rw [if_pos hb] at he
    simp only [Option.bind_eq_bind, Option.bind_eq_some_iff] at he
    obtain ⟨_, -, _, -, f, -, _, -, last, hl, _, r1, fc, hfc, lc, hlc, _, r2, -⟩ := he
    have r1 := require_some r1
    have r2 := require_some r2
    simp at r1 r2
    refine ⟨⟨last, hl, fun first hf => ?_⟩, fc, lc, hfc, hlc, r2⟩
    rw [hf] at r1
    simpa using r1

/-! ### Clamped boundary -/

theorem lineStep_line {st st' : LineState} {b : String} (h : lineStep st b = some st') :
    ∃ bc : BC, b = bc.name ∧ st'.line = st.line ||| bc.bit
      ∧ st'.thermal = (st.thermal || decide (bc = .adiabatic ∨ bc = .radiative ∨ bc = .convective))
      ∧ st'.mechanical = (st.mechanical || decide (bc = .clamped ∨ bc = .tractionFree))
      ∧ (bc = .adiabatic → ¬ (Has st.line .radiative ∧ Has st.line .convective))
      ∧ (bc = .radiative ∨ bc = .convective → ¬ Has st.line .adiabatic)
      ∧ (bc = .clamped → ¬ Has st.line .tractionFree)
      ∧ (bc = .tractionFree → ¬ Has st.line .clamped)
      ∧ st'.glob = st.glob ||| (if bc = .radiative ∨ bc = .convective then bc.bit else 0) := by
  unfold lineStep at h
  split_ifs at h with h1 h2 h3 h4 h5
  · simp only [Option.bind_eq_bind, Option.bind_eq_some_iff] at h
    obtain ⟨_, r, h⟩ := h
    have r := require_some r
    simp at h r
    refine ⟨.adiabatic, h1, ?_⟩
    subst h
    simp [BC.bit]
    tauto
  · simp only [Option.bind_eq_bind, Option.bind_eq_some_iff] at h
    obtain ⟨_, r, h⟩ := h
    have r := require_some r
    simp at h r
    refine ⟨.radiative, h2, ?_⟩
    subst h
    simp [BC.bit, r]
  · simp only [Option.bind_eq_bind, Option.bind_eq_some_iff] at h
    obtain ⟨_, r, h⟩ := h
    have r := require_some r
    simp at h r
    refine ⟨.convective, h3, ?_⟩
    subst h
    simp [BC.bit, r]
  · simp only [Option.bind_eq_bind, Option.bind_eq_some_iff] at h
    obtain ⟨_, r, h⟩ := h
    have r := require_some r
    simp at h r
    refine ⟨.clamped, h4, ?_⟩
    subst h
    simp [BC.bit, r]
  · simp only [Option.bind_eq_bind, Option.bind_eq_some_iff] at h
    obtain ⟨_, r, h⟩ := h
    have r := require_some r
    simp at h r
    refine ⟨.tractionFree, h5, ?_⟩
    subst h
    simp [BC.bit, r]

/-- Conversely, a known name whose combination is allowed passes. -/
theorem lineStep_ok (st : LineState) (bc : BC)
    (h1 : bc = .adiabatic → ¬ (Has st.line .radiative ∧ Has st.line .convective))
    (h2 : bc = .radiative ∨ bc = .convective → ¬ Has st.line .adiabatic)
    (h3 : bc = .clamped → ¬ Has st.line .tractionFree)
    (h4 : bc = .tractionFree → ¬ Has st.line .clamped) :
    (lineStep st bc.name).isSome := by
  cases bc
  · simp only [BC.name, lineStep, if_true]
    have := h1 rfl
    have h : (decide (¬ Has st.line .radiative) || decide (¬ Has st.line .convective)) = true := by
      simp; tauto
    rw [h]
    rfl
  · have e : ("radiative" = "adiabatic") = False := by simp
    simp only [BC.name, lineStep, e, if_true, if_false]
    have := h2 (Or.inl rfl)
    simp [this, require]
  · have e : ("convective" = "adiabatic") = False := by simp
    have e' : ("convective" = "radiative") = False := by simp
    simp only [BC.name, lineStep, e, e', if_true, if_false]
    have := h2 (Or.inr rfl)
    simp [this, require]
  · have e : ("clamped" = "adiabatic") = False := by simp
    have e' : ("clamped" = "radiative") = False := by simp
    have e'' : ("clamped" = "convective") = False := by simp
    simp only [BC.name, lineStep, e, e', e'', if_true, if_false]
    have := h3 rfl
    simp [this, require]
  · have e : ("traction_free" = "adiabatic") = False := by simp
    have e' : ("traction_free" = "radiative") = False := by simp
    have e'' : ("traction_free" = "convective") = False := by simp
    have e3 : ("traction_free" = "clamped") = False := by simp
    simp only [BC.name, lineStep, e, e', e'', e3, if_true, if_false]
    have := h4 rfl
    simp [this, require]

theorem lineFold_orNames {st st' : LineState} {ns : List String} (h : lineFold st ns = some st') :
    orNames st.line ns = some st'.line := by
  induction ns generalizing st with
  | nil => simp [lineFold] at h; simp [orNames, h]
  | cons b bs ih =>
    simp only [lineFold, Option.bind_eq_some_iff] at h
    obtain ⟨s1, h1, h2⟩ := h
    obtain ⟨bc, rfl, hl, -⟩ := lineStep_line h1
    have := ih h2
    simp only [orNames, bcMap_name, Option.bind_some]
    rw [← hl]
    exact this

/-- A line accepted by the validator is read by `Boundary` as the same type. -/
theorem checkLine_parseLine {g : ℕ} {s : String} {st : LineState} (h : checkLine g s = some st) :
    parseLine s = some st.line := lineFold_orNames h

theorem boundaryLoop_clamped {db : Tree} {th me : Bool} {cs : List (String × Tree)} {g g' : ℕ}
    {c c' : Bool} (h : boundaryLoop db th me cs g c = some (g', c')) (hc : c' = true) :
    c = true ∨ ∃ k sub s, (k, sub) ∈ cs
      ∧ ((k = "type" ∧ s = sub.data) ∨ (k ≠ "type" ∧ db.str? [k, "type"] = some s))
      ∧ "clamped" ∈ pieces s := by
  induction cs generalizing g c with
  | nil => simp [boundaryLoop] at h; exact Or.inl (h.2.trans hc)
  | cons x xs ih =>
    simp only [boundaryLoop, Option.bind_eq_bind, Option.bind_eq_some_iff] at h
    obtain ⟨s, hs, st, hst, _, -, _, -, h⟩ := h
    rcases ih h with h | ⟨k, sub, s', hm, h1, h2⟩
    · simp at h
      rcases h with h | h
      · exact Or.inl h
      · right
        refine ⟨x.1, x.2, s, by simp, ?_, ?_⟩
        · by_cases hk : x.1 = "type"
          · rw [if_pos hk] at hs
            simp at hs
            exact Or.inl ⟨hk, hs.symm⟩
          · rw [if_neg hk] at hs
            exact Or.inr ⟨hk, hs⟩
        · exact (parseLine_has (checkLine_parseLine hst) .clamped).1 h
    · exact Or.inr ⟨k, sub, s', by simp [hm], h1, h2⟩

/-- **C61 (clamped boundary).** In an accepted mechanical input some line of the boundary
section (the default line or the line of a boundary) contains `clamped`. -/
theorem C61_clamped (p : Parsers ℚ) (t : Tree) (h : Accepted p t)
    (hme : getBool p t ["physics", "mechanical"] = some true) :
    ∃ db, t.get? ["boundary"] = some db ∧ ∃ k sub s, (k, sub) ∈ db.children
      ∧ ((k = "type" ∧ s = sub.data) ∨ (k ≠ "type" ∧ db.str? [k, "type"] = some s))
      ∧ "clamped" ∈ pieces s := by
  obtain ⟨th, me, bt, dim, hp, hb, -⟩ := h.sections
  obtain ⟨-, a, -⟩ := validatePhysics_some hp
  rw [hme] at a
  simp at a
  subst a
  unfold validateBoundary at hb
  simp only [Option.bind_eq_bind, Option.bind_eq_some_iff] at hb
  obtain ⟨db, hdb, ⟨g', c'⟩, hl, _, r, -⟩ := hb
  have r := require_some r
  simp at r
  refine ⟨db, hdb, ?_⟩
  rcases boundaryLoop_clamped hl r with h | h
  · simp at h
  · exact h

/-! ## C59: acceptance of boundary lines -/

/-- Every condition of an accepted line passes the check at its position. -/
theorem lineFold_isSome_of {st : LineState} {bs : List BC}
    (hmix : ¬ ((Has st.line .adiabatic ∨ BC.adiabatic ∈ bs)
      ∧ (Has st.line .radiative ∨ Has st.line .convective
          ∨ BC.radiative ∈ bs ∨ BC.convective ∈ bs)))
    (hmech : ¬ ((Has st.line .clamped ∨ BC.clamped ∈ bs)
      ∧ (Has st.line .tractionFree ∨ BC.tractionFree ∈ bs))) :
    (lineFold st (bs.map BC.name)).isSome := by
  induction bs generalizing st with
  | nil => simp [lineFold]
  | cons b bs ih =>
    simp only [List.map_cons, lineFold]
    have hs : (lineStep st b.name).isSome := by
      apply lineStep_ok
      · rintro rfl ⟨h1, -⟩; exact hmix ⟨Or.inr (by simp), Or.inl h1⟩
      · rintro (rfl | rfl) h1
        · exact hmix ⟨Or.inl h1, by simp⟩
        · exact hmix ⟨Or.inl h1, by simp⟩
      · rintro rfl h1; exact hmech ⟨Or.inr (by simp), Or.inl h1⟩
      · rintro rfl h1; exact hmech ⟨Or.inl h1, Or.inr (by simp)⟩
    obtain ⟨s1, h1⟩ := Option.isSome_iff_exists.1 hs
    obtain ⟨bc, hbc, hl, -⟩ := lineStep_line h1
    have hbc := BC.name_injective hbc
    subst hbc
    rw [h1, Option.bind_some]
    apply ih
    · rw [hl]
      simp only [has_or, has_bit]
      intro ⟨x, y⟩
      apply hmix
      simp only [List.mem_cons]
      refine ⟨?_, ?_⟩
      · rcases x with (x | x) | x
        · exact Or.inl x
        · exact Or.inr (Or.inl x.symm)
        · exact Or.inr (Or.inr x)
      · rcases y with (y | y) | (y | y) | y | y
        · exact Or.inl y
        · exact Or.inr (Or.inr (Or.inl (Or.inl y.symm)))
        · exact Or.inr (Or.inl y)
        · exact Or.inr (Or.inr (Or.inr (Or.inl y.symm)))
        · exact Or.inr (Or.inr (Or.inl (Or.inr y)))
        · exact Or.inr (Or.inr (Or.inr (Or.inr y)))
    · rw [hl]
      simp only [has_or, has_bit]
      intro ⟨x, y⟩
      apply hmech
      simp only [List.mem_cons]
      refine ⟨?_, ?_⟩
      · rcases x with (x | x) | x
        · exact Or.inl x
        · exact Or.inr (Or.inl x.symm)
        · exact Or.inr (Or.inr x)
      · rcases y with (y | y) | y
        · exact Or.inl y
        · exact Or.inr (Or.inl y.symm)
        · exact Or.inr (Or.inr y)

theorem lineFold_mech {st st' : LineState} {ns : List String} (h : lineFold st ns = some st')
    (h0 : ¬ (Has st.line .clamped ∧ Has st.line .tractionFree)) :
    ¬ (Has st'.line .clamped ∧ Has st'.line .tractionFree) := by
  induction ns generalizing st with
  | nil => simp [lineFold] at h; rw [← h]; exact h0
  | cons b bs ih =>
    simp only [lineFold, Option.bind_eq_some_iff] at h
    obtain ⟨s1, h1, h2⟩ := h
    refine ih h2 ?_
    obtain ⟨bc, rfl, hl, -, -, -, -, hc, ht, -⟩ := lineStep_line h1
    rw [hl]
    simp only [has_or, has_bit]
    rintro ⟨a | rfl, b | b⟩
    · exact h0 ⟨a, b⟩
    · exact ht b a
    · exact hc rfl b
    · cases b

theorem known_of_lineFold {st st' : LineState} {ns : List String} (h : lineFold st ns = some st') :
    ∀ n ∈ ns, ∃ bc : BC, n = bc.name := by
  have := lineFold_orNames h
  exact (orNames_isSome ns st.line).1 (by rw [this]; rfl)

/-- **C59 (acceptance, partial).** For a line that does not mix `adiabatic` with `radiative`
or `convective`, the validator accepts the line exactly if all names are known and the line
does not contain both `clamped` and `traction_free`: acceptance depends only on the set of
names.  (For mixed lines see `C59_order_refuted`.) -/
theorem C59_acceptance_partial (g : ℕ) (s : String) (names : List String) (hs : IsLine s names)
    (hne : names ≠ []) (hc : ∀ n ∈ names, ',' ∉ n.toList)
    (hmix : ¬ ("adiabatic" ∈ names ∧ ("radiative" ∈ names ∨ "convective" ∈ names))) :
    (checkLine g s).isSome ↔
      (∀ n ∈ names, ∃ bc : BC, n = bc.name)
        ∧ ¬ ("clamped" ∈ names ∧ "traction_free" ∈ names) := by
  unfold checkLine
  rw [pieces_of_isLine hs hne hc]
  constructor
  · intro h
    obtain ⟨st, hst⟩ := Option.isSome_iff_exists.1 h
    refine ⟨known_of_lineFold hst, ?_⟩
    rintro ⟨h1, h2⟩
    have ho := lineFold_orNames hst
    refine lineFold_mech hst (fun h => has_zero _ h.1) ⟨?_, ?_⟩
    · exact (orNames_has ho .clamped).2 (Or.inr h1)
    · exact (orNames_has ho .tractionFree).2 (Or.inr h2)
  · rintro ⟨hk, hm⟩
    have : ∃ bs : List BC, names = bs.map BC.name := by
      clear hs hne hc hmix hm
      induction names with
      | nil => exact ⟨[], rfl⟩
      | cons n ns ih =>
        obtain ⟨bs, hbs⟩ := ih (fun x hx => hk x (by simp [hx]))
        obtain ⟨b, hb⟩ := hk n (by simp)
        exact ⟨b :: bs, by simp [hb, hbs]⟩
    obtain ⟨bs, rfl⟩ := this
    have mem : ∀ bc : BC, bc ∈ bs → bc.name ∈ bs.map BC.name :=
      fun bc h => List.mem_map.2 ⟨bc, h, rfl⟩
    apply lineFold_isSome_of
    · rintro ⟨h1 | h1, h2⟩
      · exact absurd h1 (has_zero _)
      · rcases h2 with h2 | h2 | h2 | h2
        · exact absurd h2 (has_zero _)
        · exact absurd h2 (has_zero _)
        · exact hmix ⟨mem _ h1, Or.inl (mem _ h2)⟩
        · exact hmix ⟨mem _ h1, Or.inr (mem _ h2)⟩
    · rintro ⟨h1 | h1, h2 | h2⟩
      · exact absurd h1 (has_zero _)
      · exact absurd h1 (has_zero _)
      · exact absurd h2 (has_zero _)
      · exact hm ⟨mem _ h1, mem _ h2⟩

/-- **C59 (agreement).** A line accepted by the validator is interpreted by `Boundary`, with
the same set of conditions. -/
theorem C59_agreement (g : ℕ) (s : String) (st : LineState) (h : checkLine g s = some st) :
    ∃ ty, parseLine s = some ty ∧ ∀ bc : BC, Has ty bc ↔ Has st.line bc :=
  ⟨st.line, checkLine_parseLine h, fun _ => Iff.rfl⟩

/-- **C59 refuted.** Acceptance depends on the order: `radiative,adiabatic` is accepted and
`adiabatic,radiative` is rejected. -/
theorem C59_order_refuted :
    ¬ ∀ (g : ℕ) (s s' : String) (names names' : List String), IsLine s names → IsLine s' names' →
      (∀ n : String, n ∈ names ↔ n ∈ names') → (checkLine g s).isSome = (checkLine g s').isSome := by
  intro H
  have := H 0 "radiative,adiabatic" "adiabatic,radiative" ["radiative", "adiabatic"]
    ["adiabatic", "radiative"] (by unfold IsLine; decide) (by unfold IsLine; decide)
    (by intro n; simp [or_comm])
  exact absurd this (by decide)

/-- Non-vacuity of the acceptance theorem. -/
example : (checkLine 0 "radiative,clamped,convective").isSome = true
    ∧ (checkLine 0 "clamped,radiative,traction_free").isSome = false := by decide

end Verif.Input
