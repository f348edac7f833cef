import Verif.Input.Validate
import Mathlib.Tactic.Linarith
import Mathlib.Tactic.FieldSimp

/-
What the program does with an accepted input: the choice of the instantiation in `main`
(application/adamantine.cc) and the set-up of `run` (application/adamantine.hh:757-1016), as
far as the input options decide whether the set-up throws, nothing is run, a unit is scaled
by zero or a step count of zero is used as a divisor.

Not modelled: the existence and content of the files named in the input, the checks inside
`MaterialProperty`, the material deposition and the ensemble parameters (modelled elsewhere).
-/

namespace Verif.Input

/-! ## Units (C62) -/

/-- `g_unit_scaling_factor[unit]` (source/types.hh:29-34): the entry of the table, and, since
`operator[]` of a map inserts a missing key, 0 for every other text. -/
def unitScale (u : String) : ℚ :=
  if u = "millimeter" then 1 / 1000
  else if u = "centimeter" then 1 / 100
  else if u = "inch" then 254 / 10000
  else if u = "meter" then 1
  else if u = "milliwatt" then 1 / 1000
  else if u = "watt" then 1
  else if u = "millimeter/second" then 1 / 1000
  else if u = "centimer/second" then 1 / 100
  else if u = "meter/second" then 1
  else 0

/-- Specification: the SI value of one documented unit. -/
inductive SI : String → ℚ → Prop where
  | millimeter : SI "millimeter" (1 / 1000)
  | centimeter : SI "centimeter" (1 / 100)
  | inch : SI "inch" (254 / 10000)
  | meter : SI "meter" 1
  | milliwatt : SI "milliwatt" (1 / 1000)
  | watt : SI "watt" 1
  | mms : SI "millimeter/second" (1 / 1000)
  | cms : SI "centimeter/second" (1 / 100)
  | ms : SI "meter/second" 1

/-- **C62 (partial).** Every documented unit except `centimeter/second`, written in lower
case, is scaled by its SI value, which is positive. -/
theorem C62_scaling_partial (u : String) (x : ℚ) (h : SI u x) (hu : u ≠ "centimeter/second") :
    unitScale u = x ∧ 0 < x := by
  cases h <;> first
    | (exact absurd rfl hu)
    | decide +kernel

/-- The units of an accepted input are documented units up to letter case. -/
theorem unitOk_some {t : Tree} {path names : List String} (h : unitOk t path names = some ())
    {u : String} (hu : t.str? path = some u) : ∃ n ∈ names, lower u = lower n := by
  unfold unitOk at h
  rw [hu] at h
  have := require_some h
  rw [List.any_eq_true] at this
  obtain ⟨n, hn, hi⟩ := this
  exact ⟨n, hn, (iequals_iff u n).1 hi⟩

/-- The five unit entries, each with its accepted names. -/
def unitEntries : List (List String × List String) :=
  [(["units", "mesh"], lengthUnits),
   (["units", "heat_source", "power"], powerUnits),
   (["units", "heat_source", "velocity"], velocityUnits),
   (["units", "heat_source", "dimension"], lengthUnits),
   (["units", "heat_source", "scan_path"], lengthUnits)]

theorem Accepted.unit {p : Parsers ℚ} {t : Tree} (h : Accepted p t) {e : List String × List String}
    (he : e ∈ unitEntries) {u : String} (hu : t.str? e.1 = some u) :
    ∃ n ∈ e.2, lower u = lower n := by
  obtain ⟨th, me, bt, dim, -, -, -, -, -, -, -, -, -, -, hun⟩ := h.sections
  unfold validateUnits at hun
  simp only [Option.bind_eq_bind, Option.bind_eq_some_iff] at hun
  obtain ⟨_, h1, _, h2, _, h3, _, h4, h5⟩ := hun
  simp only [unitEntries, List.mem_cons, List.not_mem_nil, or_false] at he
  rcases he with rfl | rfl | rfl | rfl | rfl
  · exact unitOk_some h1 hu
  · exact unitOk_some h2 hu
  · exact unitOk_some h3 hu
  · exact unitOk_some h4 hu
  · exact unitOk_some h5 hu

theorem ofList_lower_eq {u n : String} (h : lower u = lower n) (hu : u.toList = lower u)
    (hn : n.toList = lower n) : u = n := by
  have : u.toList = n.toList := by rw [hu, hn, h]
  exact String.toList_injective this

/-- **C62 (accepted inputs, partial).** A unit of an accepted input that is written in lower
case and is not `centimeter/second` is scaled by its positive SI value. -/
theorem C62_accepted_partial (p : Parsers ℚ) (t : Tree) (h : Accepted p t)
    (e : List String × List String) (he : e ∈ unitEntries) (u : String)
    (hu : t.str? e.1 = some u) (hlow : u.toList.map Char.toLower = u.toList)
    (hcm : u ≠ "centimeter/second") : ∃ x : ℚ, SI u x ∧ unitScale u = x ∧ 0 < x := by
  obtain ⟨n, hn, hl⟩ := h.unit he hu
  have hsi : ∀ n : String, n ∈ e.2 → n.toList = lower n ∧ ∃ x, SI n x := by
    intro n hn
    simp only [unitEntries, List.mem_cons, List.not_mem_nil, or_false] at he
    rcases he with rfl | rfl | rfl | rfl | rfl <;>
      simp only [lengthUnits, powerUnits, velocityUnits, List.mem_cons, List.not_mem_nil,
        or_false] at hn
    all_goals
      rcases hn with rfl | rfl | rfl | rfl
      <;> first
        | exact ⟨by decide, _, SI.millimeter⟩
        | exact ⟨by decide, _, SI.centimeter⟩
        | exact ⟨by decide, _, SI.inch⟩
        | exact ⟨by decide, _, SI.meter⟩
        | exact ⟨by decide, _, SI.milliwatt⟩
        | exact ⟨by decide, _, SI.watt⟩
        | exact ⟨by decide, _, SI.mms⟩
        | exact ⟨by decide, _, SI.cms⟩
        | exact ⟨by decide, _, SI.ms⟩
  obtain ⟨hn', x, hx⟩ := hsi n hn
  have hun : u = n := ofList_lower_eq hl hlow.symm hn'
  subst hun
  have := C62_scaling_partial u x hx hcm
  exact ⟨x, hx, this⟩

/-! ## The set-up of a run -/

/-- `state_property_names` (source/types.hh:122-127). -/
def statePropertyNames : List String :=
  ["density", "specific_heat", "thermal_conductivity_x", "thermal_conductivity_y",
   "thermal_conductivity_z", "emissivity", "radiation_heat_transfer_coef",
   "convection_heat_transfer_coef", "lame_first_parameter", "lame_second_parameter",
   "thermal_expansion_coef", "density", "plastic_modulus", "isotropic_hardening",
   "elastic_limit"]

/-- The search for the material ids (application/adamantine.cc:172-180): ids are tried in
order until `n` have been found. -/
def scanIds (has : ℕ → Bool) (n : ℕ) : ℕ → ℕ → ℕ → List ℕ
  | 0, _, _ => []
  | fuel + 1, id, found =>
    let found' := if has id then found + 1 else found
    let rest := if found' = n then [] else scanIds has n fuel (id + 1) found'
    if has id then id :: rest else rest

/-- The texts of the properties of one state of one material. -/
def propertyTexts (md : Tree) (id : ℕ) (st : String) : List String :=
  statePropertyNames.filterMap (fun k => md.str? [materialKey id, st, k])

/-- The number of coefficients minus one (application/adamantine.cc:211-223); removing the
blanks does not change the number of commas. -/
def orderOf (s : String) : ℕ := (pieces s).length - 1

/-- `get_material_template_parameters` (application/adamantine.cc:156-241): number of
materials, polynomial order and number of states. -/
def materialParams (p : Parsers ℚ) (md : Tree) : Option (ℕ × ℕ × ℕ) := do
  let fmt ← md.str? ["property_format"]
  let n ← getUInt p md ["n_materials"]
  let ids := scanIds (fun id => decide (md.count (materialKey id) ≠ 0)) n (2 ^ 32 - 1) 0 0
  let used := ids.flatMap (fun id => (stateNames.zipIdx).map (fun s => (id, s)))
  let states := used.map (fun u => if propertyTexts md u.1 u.2.1 = [] then 0 else u.2.2 + 1)
  let nStates : ℕ := states.foldr max 0
  let orders := used.flatMap (fun u => (propertyTexts md u.1 u.2.1).map orderOf)
  let order : ℕ := if fmt = "table" then 0 else orders.foldr max 0
  require (decide (order < 5))
  require (decide (0 < nStates) && decide (nStates < 4))
  return (n, order, nStates)

/-- Lower case text (`std::transform` with `std::tolower`). -/
def toLower (s : String) : String := String.ofList (lower s)

/-- The quadrature chosen by `initialize_quadrature` (application/adamantine.hh:246-258);
`run` passes the text as it is (813-817), `run_ensemble` in lower case (1539-1544). -/
def quadratureStart (t : Tree) (ens : Bool) : Option Unit :=
  let q := (t.str? ["discretization", "thermal", "quadrature"]).getD "gauss"
  let q' := if ens then toLower q else q
  require (decide (q' = "gauss") || decide (q' = "lobatto"))

/-- `initialize_thermal_physics` (application/adamantine.hh:260-311): the degree. -/
def degreeStart (p : Parsers ℚ) (t : Tree) : Option Unit := do
  let d ← getUInt p t ["discretization", "thermal", "fe_degree"]
  require (decide (d = 1) || decide (d = 2) || decide (d = 3) || decide (d = 4) || decide (d = 5))

/-- The entries read by the constructors of the beams: BeamHeatSourceProperties.hh:57-69,
ScanPath.cc:34 (the format), CubeHeatSource.cc:32-45; a missing number throws. -/
def numbersRead (p : Parsers ℚ) (t : Tree) (i : ℕ) (keys : List String) : Option Unit :=
  require (keys.all (fun k => (getDbl p t ["sources", beamKey i, k]).isSome))

/-- The numbers of a Goldak or electron beam. -/
def beamKeys : List String := ["depth", "absorption_efficiency", "diameter", "max_power"]

/-- The numbers of a cube source. -/
def cubeKeys (dim : ℕ) : List String :=
  ["start_time", "end_time", "value", "min_x", "max_x", "min_y", "max_y"]
    ++ (if dim = 3 then ["min_z", "max_z"] else [])

/-- The creation of a heat source (source/ThermalPhysics.templates.hh:384-411). -/
def beamStart (p : Parsers ℚ) (t : Tree) (dim i : ℕ) : Option Unit := do
  let ty ← t.str? ["sources", beamKey i, "type"]
  if ty = "goldak" ∨ ty = "electron_beam" then do
    numbersRead p t i beamKeys
    let f ← t.str? ["sources", beamKey i, "scan_path_file_format"]
    require (decide (f = "segment") || decide (f = "event_series"))
  else if ty = "cube" then numbersRead p t i (cubeKeys dim)
  else none

/-- All heat sources. -/
def sourcesStart (p : Parsers ℚ) (t : Tree) (dim : ℕ) : Option Unit := do
  let n ← getUInt p t ["sources", "n_beams"]
  require ((List.range n).all (fun i => (beamStart p t dim i).isSome))

/-- The time stepping method (source/ThermalPhysics.templates.hh:449-471): an unknown method
leaves the scheme unset; the model treats this as an error. -/
def methodStart (t : Tree) : Option Unit := do
  let m ← t.str? ["time_stepping", "method"]
  let m' := toLower m
  require (decide (m' = "forward_euler") || decide (m' = "rk_third_order")
    || decide (m' = "rk_fourth_order"))

/-- The reference temperatures (application/adamantine.hh:826-841). -/
def solidusStart (p : Parsers ℚ) (t : Tree) (n : ℕ) : Option Unit :=
  require ((List.range n).all
    (fun i => (getDbl p t ["materials", materialKey i, "solidus"]).isSome))

/-- Step, duration and, if given, the checkpoint entries
(application/adamantine.hh:886-899, 990-1004). -/
def timeStart (p : Parsers ℚ) (t : Tree) : Option Unit := do
  let _ ← getDbl p t ["time_stepping", "time_step"]
  require (getBoolD p t ["time_stepping", "scan_path_for_duration"] false
    || (getDbl p t ["time_stepping", "duration"]).isSome)
  match t.get? ["checkpoint"] with
  | none => some ()
  | some _ => do
    let _ ← getUInt p t ["checkpoint", "time_steps_between_checkpoint"]
    let _ ← t.str? ["checkpoint", "filename_prefix"]
    let _ ← getBool p t ["checkpoint", "overwrite_files"]
    return ()

/-- The step counts used as divisors in the time loop (application/adamantine.hh:995-997,
1010-1014, 892-893, used in 1116, 1294-1295, 1349, 1389). -/
def stepCounts (p : Parsers ℚ) (t : Tree) : List ℕ :=
  [(getUInt p t ["refinement", "time_steps_between_refinement"]).getD 10,
   (getUInt p t ["post_processor", "time_steps_between_output"]).getD 1,
   (getUInt p t ["time_stepping", "mechanical_time_step_factor"]).getD 1,
   (getUInt p t ["checkpoint", "time_steps_between_checkpoint"]).getD (2 ^ 32 - 1)]

/-- The unit factors read (source/Geometry.cc:92-97 and 169-172,
source/BeamHeatSourceProperties.hh:43-50, source/ScanPath.cc:23-31): without an entry the SI
unit. -/
def unitFactors (t : Tree) : List ℚ :=
  [unitScale ((t.str? ["units", "mesh"]).getD "meter"),
   unitScale ((t.str? ["units", "heat_source", "power"]).getD "watt"),
   unitScale ((t.str? ["units", "heat_source", "velocity"]).getD "meter/second"),
   unitScale ((t.str? ["units", "heat_source", "dimension"]).getD "meter"),
   unitScale ((t.str? ["units", "heat_source", "scan_path"]).getD "meter")]

/-- What becomes of an input. -/
inductive Outcome where
  | error | nothing | zeroUnit | zeroDivisor | runs
  deriving DecidableEq, Repr

/-- The set-up of a thermal or thermo-mechanical run. -/
def setup (p : Parsers ℚ) (t : Tree) (ens : Bool) (dim n : ℕ) : Option Unit := do
  degreeStart p t
  quadratureStart t ens
  sourcesStart p t dim
  methodStart t
  solidusStart p t n
  timeStart p t

/-- `main` after the validation (application/adamantine.cc:385-479) and the set-up of the
chosen instantiation.  The macros list the dimensions 2 and 3, the numbers of materials -1
and 1 and the orders 0 to 4 (source/instantiation.hh:10-13); if no instantiation matches,
nothing is run and the program reports "Simulation done".  Only inputs with thermal physics
are modelled. -/
def simulate (p : Parsers ℚ) (t : Tree) : Outcome :=
  let ens := getBoolD p t ["ensemble", "ensemble_simulation"] false
  let memory := (t.str? ["memory_space"]).getD "host"
  match getUInt p t ["geometry", "dim"], (t.get? ["materials"]).bind (materialParams p) with
  | some dim, some (n, order, _) =>
    if ens = true ∧ memory = "device" then .error
    else if (dim = 2 ∨ dim = 3) ∧ n = 1 ∧ order ≤ 4 then
      match setup p t ens dim n with
      | none => .error
      | some _ =>
        if (0 : ℚ) ∈ unitFactors t then .zeroUnit
        else if (0 : ℕ) ∈ stepCounts p t then .zeroDivisor
        else .runs
    else .nothing
  | _, _ => .error

/-! ## C60: accepted inputs are usable -/

/-- The conditions which, in addition to being accepted, make an input usable: one material
whose properties have, unless they are tables, at most five coefficients, and a solidus; all
names in the documented spelling (an ensemble simulation reads the name of the quadrature in
any case); no ensemble on a device; the numbers of the sources and a duration given; a
checkpoint section, if there is one, with all its entries; units in lower case other than
`centimeter/second`; and positive step counts. -/
structure Usable (p : Parsers ℚ) (t : Tree) : Prop where
  one : getUInt p t ["materials", "n_materials"] = some 1
  coefs : t.str? ["materials", "property_format"] = some "table"
    ∨ ∀ st ∈ ["solid", "liquid", "powder"], ∀ k ∈ ["density", "specific_heat",
        "thermal_conductivity_x", "thermal_conductivity_y", "thermal_conductivity_z",
        "emissivity", "radiation_heat_transfer_coef", "convection_heat_transfer_coef",
        "lame_first_parameter", "lame_second_parameter", "thermal_expansion_coef",
        "plastic_modulus", "isotropic_hardening", "elastic_limit"], ∀ s,
      t.str? ["materials", "material_0", st, k] = some s → (pieces s).length ≤ 5
  solidus : ∃ x : ℚ, getDbl p t ["materials", "material_0", "solidus"] = some x
  device : t.str? ["memory_space"] ≠ some "device"
    ∨ getBoolD p t ["ensemble", "ensemble_simulation"] false = false
  quadrature : getBoolD p t ["ensemble", "ensemble_simulation"] false = true
    ∨ ∀ q, t.str? ["discretization", "thermal", "quadrature"] = some q →
      q.toList.map Char.toLower = q.toList
  beams : ∀ (n dim : ℕ), getUInt p t ["sources", "n_beams"] = some n →
    getUInt p t ["geometry", "dim"] = some dim → ∀ i < n,
    ∀ ty, t.str? ["sources", beamKey i, "type"] = some ty →
      ty.toList.map Char.toLower = ty.toList
      ∧ (∀ k ∈ (if ty = "cube" then
            (if dim = 3 then ["start_time", "end_time", "value", "min_x", "max_x", "min_y", "max_y", "min_z", "max_z"]
             else ["start_time", "end_time", "value", "min_x", "max_x", "min_y", "max_y"])
          else ["depth", "absorption_efficiency", "diameter", "max_power"]),
          ∃ x : ℚ, getDbl p t ["sources", beamKey i, k] = some x)
      ∧ (ty ≠ "cube" → ∀ f, t.str? ["sources", beamKey i, "scan_path_file_format"] = some f →
          f.toList.map Char.toLower = f.toList)
  duration : getBoolD p t ["time_stepping", "scan_path_for_duration"] false = true
    ∨ ∃ x : ℚ, getDbl p t ["time_stepping", "duration"] = some x
  checkpoint : t.get? ["checkpoint"] = none
    ∨ ((∃ n, getUInt p t ["checkpoint", "time_steps_between_checkpoint"] = some n)
      ∧ (∃ f, t.str? ["checkpoint", "filename_prefix"] = some f)
      ∧ ∃ o, getBool p t ["checkpoint", "overwrite_files"] = some o)
  units : ∀ path ∈ [["units", "mesh"], ["units", "heat_source", "power"],
      ["units", "heat_source", "velocity"], ["units", "heat_source", "dimension"],
      ["units", "heat_source", "scan_path"]], ∀ u, t.str? path = some u →
    u.toList.map Char.toLower = u.toList ∧ u ≠ "centimeter/second"
  counts : ∀ path ∈ [["refinement", "time_steps_between_refinement"],
      ["post_processor", "time_steps_between_output"],
      ["time_stepping", "mechanical_time_step_factor"],
      ["checkpoint", "time_steps_between_checkpoint"]], getUInt p t path ≠ some 0

theorem lower_name {q n : String} (h : iequals q n = true) (hq : q.toList.map Char.toLower = q.toList)
    (hn : n.toList = lower n) : q = n :=
  ofList_lower_eq ((iequals_iff q n).1 h) hq.symm hn

theorem require_true {b : Bool} (h : b = true) : require b = some () := by simp [require, h]

theorem toLower_eq {m n : String} (h : iequals m n = true) (hn : n.toList = lower n) :
    toLower m = n := by
  unfold toLower
  rw [(iequals_iff m n).1 h, ← hn]
  simp

theorem Tree.str?_cons {t c : Tree} {k : String} {ks : List String} (h : t.child? k = some c) :
    t.str? (k :: ks) = c.str? ks := by
  simp [Tree.str?, Tree.get?, h]

theorem Tree.get?_append {t : Tree} (a b : List String) :
    t.get? (a ++ b) = (t.get? a).bind (fun c => c.get? b) := by
  induction a generalizing t with
  | nil => simp [Tree.get?]
  | cons k ks ih =>
    simp only [List.cons_append, Tree.get?]
    cases t.child? k with
    | none => rfl
    | some c => simp [ih]

theorem hasChild_iff {t : Tree} {path : List String} {k : String} :
    hasChild t path k = true ↔ ∃ s, t.str? (path ++ [k]) = some s := by
  unfold hasChild Tree.str?
  rw [Tree.get?_append]
  cases t.get? path with
  | none => simp
  | some c =>
    simp only [decide_eq_true_eq, Tree.count_ne_zero, Option.bind_some, Tree.get?]
    constructor
    · rintro ⟨d, hd⟩
      exact ⟨d.data, by simp [hd]⟩
    · rintro ⟨s, hs⟩
      simp at hs
      obtain ⟨d, hd, -⟩ := hs
      exact ⟨d, hd⟩

theorem foldr_max_le {l : List ℕ} {b : ℕ} (h : ∀ x ∈ l, x ≤ b) : l.foldr max 0 ≤ b := by
  induction l with
  | nil => simp
  | cons a l ih =>
    simp only [List.foldr_cons]
    exact max_le (h a (by simp)) (ih (fun x hx => h x (by simp [hx])))

theorem le_foldr_max {l : List ℕ} {a : ℕ} (h : a ∈ l) : a ≤ l.foldr max 0 := by
  induction l with
  | nil => simp at h
  | cons b l ih =>
    simp only [List.foldr_cons]
    rcases List.mem_cons.1 h with rfl | h
    · exact le_max_left _ _
    · exact le_trans (ih h) (le_max_right _ _)

theorem scanIds_one (has : ℕ → Bool) (h : has 0 = true) (fuel : ℕ) :
    scanIds has 1 (fuel + 1) 0 0 = [0] := by
  simp [scanIds, h]

theorem materials_spec {p : Parsers ℚ} {t : Tree} {dim bt : ℕ}
    (h : validateMaterials p t dim bt = some ()) :
    ∃ n f, getUInt p t ["materials", "n_materials"] = some n
      ∧ t.str? ["materials", "property_format"] = some f ∧ (f = "table" ∨ f = "polynomial")
      ∧ ∀ i < n, validateMaterial t dim bt i = true := by
  unfold validateMaterials at h
  simp only [Option.bind_eq_bind, Option.bind_eq_some_iff] at h
  obtain ⟨n, hn, f, hf, _, r1, r2⟩ := h
  have r1 := require_some r1
  have r2 := require_some r2
  rw [List.all_eq_true] at r2
  simp at r1
  exact ⟨n, f, hn, hf, r1, fun i hi => r2 i (by simpa using hi)⟩

/-- The parameters of an accepted input with one material: they exist iff the properties are
tables or have at most five coefficients. -/
theorem materialParams_one {p : Parsers ℚ} {t : Tree} (h : Accepted p t)
    (hone : getUInt p t ["materials", "n_materials"] = some 1) :
    ∃ md order ns, t.get? ["materials"] = some md
      ∧ materialParams p md = (if order ≤ 4 then some (1, order, ns) else none)
      ∧ (order ≤ 4 ↔ (t.str? ["materials", "property_format"] = some "table"
        ∨ ∀ st ∈ stateNames, ∀ k ∈ statePropertyNames, ∀ s,
          t.str? ["materials", "material_0", st, k] = some s → (pieces s).length ≤ 5)) := by
  obtain ⟨th, me, bt, dim, -, -, -, -, hm, -⟩ := h.sections
  obtain ⟨n, f, hn, hf, hfmt, hall⟩ := materials_spec hm
  rw [hone] at hn
  simp at hn
  subst hn
  have h0 := hall 0 (by decide)
  obtain ⟨md, hmd⟩ : ∃ md, t.child? "materials" = some md := by
    simp only [Tree.str?, Tree.get?] at hf
    cases hc : t.child? "materials" with
    | none => simp [hc] at hf
    | some c => exact ⟨c, rfl⟩
  have hget : t.get? ["materials"] = some md := by simp [Tree.get?, hmd]
  unfold validateMaterial at h0
  simp only [Bool.and_eq_true, List.all_eq_true, List.any_eq_true] at h0
  obtain ⟨⟨⟨⟨hex, hst⟩, ⟨s, hs, hss⟩⟩, -⟩, -⟩ := h0
  -- material_0 is present
  have hhas : decide (md.count (materialKey 0) ≠ 0) = true := by
    simpa [hasChild, hget] using hex
  -- the state found has a density
  have hsv := hst s hs
  rw [hss] at hsv
  simp only [Bool.not_true, Bool.false_or] at hsv
  unfold validateState at hsv
  simp only [Bool.and_eq_true] at hsv
  obtain ⟨d, hd⟩ := hasChild_iff.1 hsv.1.1.1.1.1.1
  have hd' : md.str? [materialKey 0, s, "density"] = some d := by
    rw [← hd]
    exact (Tree.str?_cons hmd).symm
  have hne : propertyTexts md 0 s ≠ [] := by
    intro e
    have : d ∈ propertyTexts md 0 s := by
      unfold propertyTexts
      exact List.mem_filterMap.2 ⟨"density", by decide, hd'⟩
    rw [e] at this
    simp at this
  have hscan : scanIds (fun id => decide (md.count (materialKey id) ≠ 0)) 1 (2 ^ 32 - 1) 0 0 = [0] :=
    scanIds_one _ hhas (2 ^ 32 - 2)
  have hfmd : md.str? ["property_format"] = some f := by
    rw [← hf]; exact (Tree.str?_cons hmd).symm
  have hnmd : getUInt p md ["n_materials"] = some 1 := by
    rw [← hone]; unfold getUInt; rw [Tree.str?_cons hmd]
  -- order and number of states
  set used := [0].flatMap (fun id => (stateNames.zipIdx).map (fun s => ((id : ℕ), s))) with hused
  have hk0 : materialKey 0 = "material_0" := by decide
  have hmdstr : ∀ st k, md.str? [materialKey 0, st, k]
      = t.str? ["materials", "material_0", st, k] := by
    intro st k
    rw [hk0]
    exact (Tree.str?_cons hmd).symm
  have horder : (used.flatMap (fun u => (propertyTexts md u.1 u.2.1).map orderOf)).foldr max 0 ≤ 4
      ↔ ∀ st ∈ stateNames, ∀ k ∈ statePropertyNames, ∀ s,
          t.str? ["materials", "material_0", st, k] = some s → (pieces s).length ≤ 5 := by
    constructor
    · intro hle st hst k hk s hs
      have hst' : ∃ i, (st, i) ∈ stateNames.zipIdx := by
        simp only [stateNames, List.mem_cons, List.not_mem_nil, or_false] at hst
        rcases hst with rfl | rfl | rfl
        · exact ⟨0, by decide⟩
        · exact ⟨1, by decide⟩
        · exact ⟨2, by decide⟩
      obtain ⟨i, hi⟩ := hst'
      have hmem : orderOf s ∈ used.flatMap (fun u => (propertyTexts md u.1 u.2.1).map orderOf) := by
        refine List.mem_flatMap.2 ⟨(0, (st, i)), ?_, ?_⟩
        · rw [hused]
          simp only [List.flatMap_cons, List.flatMap_nil, List.append_nil]
          exact List.mem_map.2 ⟨(st, i), hi, rfl⟩
        · refine List.mem_map.2 ⟨s, ?_, rfl⟩
          unfold propertyTexts
          exact List.mem_filterMap.2 ⟨k, hk, by rw [hmdstr]; exact hs⟩
      have := le_trans (le_foldr_max hmem) hle
      unfold orderOf at this
      omega
    · intro hcoef
      apply foldr_max_le
      intro x hx
      simp only [List.mem_flatMap, List.mem_map] at hx
      obtain ⟨u, hu, txt, htxt, rfl⟩ := hx
      rw [hused] at hu
      simp only [List.flatMap_cons, List.flatMap_nil, List.append_nil, List.mem_map] at hu
      obtain ⟨a, ha, rfl⟩ := hu
      have hast : a.1 ∈ stateNames := by
        have : a ∈ [("solid", 0), ("liquid", 1), ("powder", 2)] := ha
        simp only [List.mem_cons, List.not_mem_nil, or_false] at this
        rcases this with rfl | rfl | rfl <;> decide
      unfold propertyTexts at htxt
      obtain ⟨k, hk, hks⟩ := List.mem_filterMap.1 htxt
      have := hcoef a.1 hast k hk txt (by rw [← hmdstr]; exact hks)
      unfold orderOf
      omega
  have hidx : ∃ k, k < 3 ∧ (s, k) ∈ stateNames.zipIdx := by
    simp only [stateNames, List.mem_cons, List.not_mem_nil, or_false] at hs
    rcases hs with rfl | rfl | rfl
    · exact ⟨0, by decide, by decide⟩
    · exact ⟨1, by decide, by decide⟩
    · exact ⟨2, by decide, by decide⟩
  obtain ⟨k, hk3, hk⟩ := hidx
  have hmem : (0, (s, k)) ∈ used := by
    rw [hused]
    simp only [List.flatMap_cons, List.flatMap_nil, List.append_nil]
    exact List.mem_map.2 ⟨(s, k), hk, rfl⟩
  have hpos : 0 < (used.map (fun u => if propertyTexts md u.1 u.2.1 = [] then 0 else u.2.2 + 1)).foldr
      max 0 := by
    have hin : k + 1 ∈ used.map (fun u => if propertyTexts md u.1 u.2.1 = [] then 0 else u.2.2 + 1) :=
      List.mem_map.2 ⟨_, hmem, by simp [hne]⟩
    have := le_foldr_max hin
    omega
  have hlt : (used.map (fun u => if propertyTexts md u.1 u.2.1 = [] then 0 else u.2.2 + 1)).foldr
      max 0 ≤ 3 := by
    apply foldr_max_le
    intro x hx
    obtain ⟨u, hu, rfl⟩ := List.mem_map.1 hx
    rw [hused] at hu
    simp only [List.flatMap_cons, List.flatMap_nil, List.append_nil, List.mem_map] at hu
    obtain ⟨a, ha, rfl⟩ := hu
    have hb : a.2 < 3 := by
      have : a ∈ [("solid", 0), ("liquid", 1), ("powder", 2)] := ha
      simp only [List.mem_cons, List.not_mem_nil, or_false] at this
      rcases this with rfl | rfl | rfl <;> decide
    split
    · omega
    · show a.2 + 1 ≤ 3
      omega
  set ord := (if f = "table" then 0
        else (used.flatMap (fun u => (propertyTexts md u.1 u.2.1).map orderOf)).foldr max 0) with hordd
  set ns := (used.map (fun u => if propertyTexts md u.1 u.2.1 = [] then 0 else u.2.2 + 1)).foldr
      max 0 with hns
  refine ⟨md, ord, ns, hget, ?_, ?_⟩
  · have r2 : require (decide (0 < ns) && decide (ns < 4)) = some () := by
      apply require_true
      rw [Bool.and_eq_true]
      exact ⟨decide_eq_true hpos, decide_eq_true (by omega)⟩
    unfold materialParams
    rw [hfmd, hnmd]
    simp only [Option.bind_eq_bind, Option.bind_some]
    rw [hscan, ← hused, ← hordd, ← hns, r2]
    by_cases h4 : ord ≤ 4
    · rw [if_pos h4, require_true (decide_eq_true (by omega : ord < 5))]
      rfl
    · rw [if_neg h4]
      have : require (decide (ord < 5)) = none := by
        unfold require
        rw [if_neg]
        simp only [decide_eq_true_eq]
        omega
      rw [this]
      rfl
  · rw [hf, hordd]
    by_cases hft : f = "table"
    · rw [if_pos hft, hft]
      exact ⟨fun _ => Or.inl rfl, fun _ => by omega⟩
    · rw [if_neg hft, horder]
      refine ⟨Or.inr, fun h => h.resolve_left ?_⟩
      intro e
      exact hft (Option.some.inj e)

theorem require_unit {b : Bool} : require b = some () ↔ b = true := by
  cases b <;> simp [require]

/-- An accepted input with thermal physics has a degree the program knows. -/
theorem degree_starts {p : Parsers ℚ} {t : Tree} (h : Accepted p t)
    (hth : getBool p t ["physics", "thermal"] = some true) : degreeStart p t = some () := by
  obtain ⟨d, hd, hd1, hd5⟩ := C61_degree p t h hth
  unfold degreeStart
  rw [hd]
  simp only [Option.bind_eq_bind, Option.bind_some]
  apply require_true
  simp only [Bool.or_eq_true, decide_eq_true_eq]
  omega

/-- The quadrature of an accepted input is known to the program iff an ensemble is run or its
name is written in lower case. -/
theorem quadrature_starts {p : Parsers ℚ} {t : Tree} (h : Accepted p t)
    (hth : getBool p t ["physics", "thermal"] = some true) (ens : Bool) :
    quadratureStart t ens = some () ↔ (ens = true
      ∨ ∀ q, t.str? ["discretization", "thermal", "quadrature"] = some q →
        q.toList.map Char.toLower = q.toList) := by
  obtain ⟨th, me, bt, dim', hph, -, hdis, -⟩ := h.sections
  have hq : ∀ q, t.str? ["discretization", "thermal", "quadrature"] = some q →
      iequals q "gauss" = true ∨ iequals q "lobatto" = true := by
    intro q hq
    obtain ⟨a, -, -⟩ := validatePhysics_some hph
    rw [hth] at a
    simp at a
    subst a
    unfold validateDiscretization at hdis
    simp only [if_true, Option.bind_eq_bind, Option.bind_eq_some_iff] at hdis
    obtain ⟨_, -, _, -, hr⟩ := hdis
    rw [hq] at hr
    have := require_some hr
    simpa only [Bool.or_eq_true] using this
  unfold quadratureStart
  rw [require_unit]
  simp only [Bool.or_eq_true, decide_eq_true_eq]
  cases hc : t.str? ["discretization", "thermal", "quadrature"] with
  | none =>
    have e1 : toLower "gauss" = "gauss" := by decide
    rw [Option.getD_none]
    cases ens <;> simp [e1]
  | some q =>
    rw [Option.getD_some]
    have hi := hq q hc
    cases ens with
    | true =>
      exact ⟨fun _ => Or.inl rfl,
        fun _ => hi.imp (fun e => toLower_eq e (by decide)) fun e => toLower_eq e (by decide)⟩
    | false =>
      constructor
      · intro e
        right
        intro q' hq'
        have e' : q = "gauss" ∨ q = "lobatto" := e
        obtain rfl : q = q' := Option.some.inj hq'
        rcases e' with rfl | rfl <;> decide
      · intro e
        have hl : q.toList.map Char.toLower = q.toList :=
          (e.resolve_left fun h => by cases h) q rfl
        exact hi.imp (fun e => lower_name e hl (by decide)) fun e => lower_name e hl (by decide)

theorem numbersRead_iff {p : Parsers ℚ} {t : Tree} {i : ℕ} {keys : List String} :
    numbersRead p t i keys = some () ↔ ∀ k ∈ keys, ∃ x : ℚ,
      getDbl p t ["sources", beamKey i, k] = some x := by
  unfold numbersRead
  rw [require_unit, List.all_eq_true]
  simp only [Option.isSome_iff_exists]

/-- A beam of an accepted input can be created iff its type and, unless it is a cube, its scan
path format are written in lower case and all its numbers are given. -/
theorem beam_starts {p : Parsers ℚ} {t : Tree} (h : Accepted p t) {nb dim i : ℕ}
    (hnb : getUInt p t ["sources", "n_beams"] = some nb) (hi : i < nb) :
    beamStart p t dim i = some () ↔
      ∀ ty, t.str? ["sources", beamKey i, "type"] = some ty →
      ty.toList.map Char.toLower = ty.toList
      ∧ (∀ k ∈ (if ty = "cube" then
            (if dim = 3 then ["start_time", "end_time", "value", "min_x", "max_x", "min_y", "max_y", "min_z", "max_z"]
             else ["start_time", "end_time", "value", "min_x", "max_x", "min_y", "max_y"])
          else ["depth", "absorption_efficiency", "diameter", "max_power"]),
          ∃ x : ℚ, getDbl p t ["sources", beamKey i, k] = some x)
      ∧ (ty ≠ "cube" → ∀ f, t.str? ["sources", beamKey i, "scan_path_file_format"] = some f →
          f.toList.map Char.toLower = f.toList) := by
  obtain ⟨⟨ty, hty, htys⟩, ⟨f, hf, hfs⟩, -, -⟩ := validateBeam_some (sources_beam h hnb hi)
  have hcube : cubeKeys dim = (if dim = 3 then
      ["start_time", "end_time", "value", "min_x", "max_x", "min_y", "max_y", "min_z", "max_z"]
      else ["start_time", "end_time", "value", "min_x", "max_x", "min_y", "max_y"]) := by
    unfold cubeKeys
    by_cases h3 : dim = 3
    · rw [if_pos h3, if_pos h3]; rfl
    · rw [if_neg h3, if_neg h3]; rfl
  unfold beamStart
  rw [hty, hf]
  simp only [Option.bind_eq_bind, Option.bind_some]
  constructor
  · intro hb ty' hty'
    obtain rfl : ty = ty' := Option.some.inj hty'
    by_cases hg : ty = "goldak" ∨ ty = "electron_beam"
    · rw [if_pos hg, Option.bind_eq_some_iff] at hb
      obtain ⟨_, hn, hr⟩ := hb
      have hnc : ty ≠ "cube" := by rcases hg with rfl | rfl <;> decide
      have hr := require_unit.1 hr
      simp only [Bool.or_eq_true, decide_eq_true_eq] at hr
      rw [if_neg hnc]
      refine ⟨by rcases hg with rfl | rfl <;> decide, numbersRead_iff.1 hn, fun _ f' hf' => ?_⟩
      obtain rfl : f = f' := Option.some.inj hf'
      rcases hr with rfl | rfl <;> decide
    · rw [if_neg hg] at hb
      by_cases hc : ty = "cube"
      · rw [if_pos hc, ← hcube]
        rw [if_pos hc] at hb
        exact ⟨by rw [hc]; decide, numbersRead_iff.1 hb, fun hn => absurd hc hn⟩
      · rw [if_neg hc] at hb
        cases hb
  · intro hb
    obtain ⟨hlow, hkeys, hfl⟩ := hb ty rfl
    by_cases hc : ty = "cube"
    · rw [if_neg (by rw [hc]; decide), if_pos hc]
      rw [if_pos hc, ← hcube] at hkeys
      exact numbersRead_iff.2 hkeys
    · rw [if_neg hc] at hkeys
      have hfl := hfl hc f rfl
      have hg : ty = "goldak" ∨ ty = "electron_beam" := by
        rcases htys with e | e | e
        · exact Or.inl (lower_name e hlow (by decide))
        · exact Or.inr (lower_name e hlow (by decide))
        · exact absurd (lower_name e hlow (by decide)) hc
      rw [if_pos hg, numbersRead_iff (keys := beamKeys).2 hkeys]
      simp only [Option.bind_some]
      apply require_true
      simp only [Bool.or_eq_true, decide_eq_true_eq]
      rcases hfs with e | e
      · exact Or.inl (lower_name e hfl (by decide))
      · exact Or.inr (lower_name e hfl (by decide))

/-- All sources. -/
theorem sources_start {p : Parsers ℚ} {t : Tree} (h : Accepted p t) {dim : ℕ} :
    sourcesStart p t dim = some () ↔ ∀ n, getUInt p t ["sources", "n_beams"] = some n →
      ∀ i < n, beamStart p t dim i = some () := by
  obtain ⟨th, me, bt, dim', -, -, -, -, -, -, hsrc, -⟩ := h.sections
  obtain ⟨nb, hnb⟩ : ∃ nb, getUInt p t ["sources", "n_beams"] = some nb := by
    unfold validateSources at hsrc
    simp only [Option.bind_eq_bind, Option.bind_eq_some_iff] at hsrc
    obtain ⟨nb, hnb, -⟩ := hsrc
    exact ⟨nb, hnb⟩
  unfold sourcesStart
  rw [hnb]
  simp only [Option.bind_eq_bind, Option.bind_some]
  rw [require_unit, List.all_eq_true]
  constructor
  · intro hall n hn i hi
    obtain rfl : nb = n := Option.some.inj hn
    obtain ⟨u, hu⟩ := Option.isSome_iff_exists.1 (hall i (by simpa using hi))
    exact hu
  · intro hall i hi
    rw [hall nb rfl i (by simpa using hi)]
    rfl

/-- The method of an accepted input is known. -/
theorem method_starts {p : Parsers ℚ} {t : Tree} (h : Accepted p t) : methodStart t = some () := by
  obtain ⟨th, me, bt, dim', -, -, -, -, -, -, -, htime, -⟩ := h.sections
  unfold validateTime at htime
  simp only [Option.bind_eq_bind, Option.bind_eq_some_iff] at htime
  obtain ⟨m, hm, _, hr, -⟩ := htime
  have := require_some hr
  simp only [Bool.or_eq_true] at this
  unfold methodStart
  rw [hm]
  simp only [Option.bind_eq_bind, Option.bind_some]
  apply require_true
  rcases this with (e | e) | e
  · simp [toLower_eq e (by decide)]
  · simp [toLower_eq e (by decide)]
  · simp [toLower_eq e (by decide)]

theorem solidus_starts {p : Parsers ℚ} {t : Tree} :
    solidusStart p t 1 = some () ↔
      ∃ x : ℚ, getDbl p t ["materials", "material_0", "solidus"] = some x := by
  have hk : materialKey 0 = "material_0" := by decide
  unfold solidusStart
  rw [require_unit, List.all_eq_true, ← Option.isSome_iff_exists, ← hk]
  constructor
  · intro H
    exact H 0 (by decide)
  · intro H i hi
    have : i = 0 := by simpa using hi
    rw [this]
    exact H

/-- Step, duration and checkpoint entries of an accepted input. -/
theorem time_starts {p : Parsers ℚ} {t : Tree} (h : Accepted p t) :
    timeStart p t = some () ↔
      ((getBoolD p t ["time_stepping", "scan_path_for_duration"] false = true
        ∨ ∃ x : ℚ, getDbl p t ["time_stepping", "duration"] = some x)
      ∧ (t.get? ["checkpoint"] = none
        ∨ ((∃ n, getUInt p t ["checkpoint", "time_steps_between_checkpoint"] = some n)
          ∧ (∃ f, t.str? ["checkpoint", "filename_prefix"] = some f)
          ∧ ∃ o, getBool p t ["checkpoint", "overwrite_files"] = some o))) := by
  obtain ⟨th, me, bt, dim', -, -, -, -, -, -, -, htime, -⟩ := h.sections
  have : ∃ x, getDbl p t ["time_stepping", "time_step"] = some x := by
    unfold validateTime at htime
    simp only [Option.bind_eq_bind, Option.bind_eq_some_iff] at htime
    obtain ⟨m, hm, _, hr, htime⟩ := htime
    split at htime
    · simp only [Option.bind_eq_some_iff] at htime
      obtain ⟨_, -, _, -, x, hx, -⟩ := htime
      exact ⟨x, hx⟩
    · simp only [Option.pure_def, Option.bind_some, Option.bind_eq_some_iff] at htime
      obtain ⟨x, hx, -⟩ := htime
      exact ⟨x, hx⟩
  obtain ⟨x, hx⟩ := this
  unfold timeStart
  rw [hx]
  simp only [Option.bind_eq_bind, Option.bind_some, Option.bind_eq_some_iff]
  have hd : ∀ u : Unit, require (getBoolD p t ["time_stepping", "scan_path_for_duration"] false
      || (getDbl p t ["time_stepping", "duration"]).isSome) = some u ↔
      (getBoolD p t ["time_stepping", "scan_path_for_duration"] false = true
        ∨ ∃ x : ℚ, getDbl p t ["time_stepping", "duration"] = some x) := by
    intro u
    rw [require_unit, Bool.or_eq_true, Option.isSome_iff_exists]
  simp only [hd]
  refine (exists_and_left (α := Unit) ..).trans (and_congr Iff.rfl ?_)
  cases hc : t.get? ["checkpoint"] with
  | none => simp
  | some c =>
    simp only [Option.bind_eq_some_iff, reduceCtorEq, false_or]
    constructor
    · rintro ⟨-, n, hn, f, hf, o, ho, -⟩
      exact ⟨⟨n, hn⟩, ⟨f, hf⟩, o, ho⟩
    · rintro ⟨⟨n, hn⟩, ⟨f, hf⟩, o, ho⟩
      exact ⟨(), n, hn, f, hf, o, ho, rfl⟩

theorem unitScale_ne_zero {u : String} (h : unitScale u ≠ 0) :
    u.toList.map Char.toLower = u.toList ∧ u ≠ "centimeter/second" := by
  unfold unitScale at h
  split_ifs at h with h1 h2 h3 h4 h5 h6 h7 h8 h9
  all_goals first
    | (subst u; exact ⟨by decide, by decide⟩)
    | exact absurd rfl h

/-- No unit of an accepted input is scaled by zero iff all are in lower case and none is
`centimeter/second`. -/
theorem units_nonzero {p : Parsers ℚ} {t : Tree} (h : Accepted p t) :
    (0 : ℚ) ∉ unitFactors t ↔ ∀ path ∈ [["units", "mesh"], ["units", "heat_source", "power"],
      ["units", "heat_source", "velocity"], ["units", "heat_source", "dimension"],
      ["units", "heat_source", "scan_path"]], ∀ u, t.str? path = some u →
    u.toList.map Char.toLower = u.toList ∧ u ≠ "centimeter/second" := by
  have key : ∀ e ∈ unitEntries, ∀ d : String, 0 < unitScale d →
      ((¬ 0 = unitScale ((t.str? e.1).getD d)) ↔ ∀ u, t.str? e.1 = some u →
        u.toList.map Char.toLower = u.toList ∧ u ≠ "centimeter/second") := by
    intro e he d hdpos
    cases hc : t.str? e.1 with
    | none => simp [hdpos.ne]
    | some u =>
      rw [Option.getD_some]
      constructor
      · intro hne u' hu'
        obtain rfl : u = u' := Option.some.inj hu'
        exact unitScale_ne_zero (fun e => hne e.symm)
      · intro hall
        obtain ⟨h1, h2⟩ := hall u rfl
        obtain ⟨x, -, hx, hxpos⟩ := C62_accepted_partial p t h e he u hc h1 h2
        rw [hx]
        exact hxpos.ne
  unfold unitFactors
  simp only [List.mem_cons, List.not_mem_nil, or_false, not_or, forall_eq_or_imp, forall_eq]
  rw [key (["units", "mesh"], lengthUnits) (by simp [unitEntries]) "meter" (by decide),
    key (["units", "heat_source", "power"], powerUnits) (by simp [unitEntries]) "watt" (by decide),
    key (["units", "heat_source", "velocity"], velocityUnits) (by simp [unitEntries])
      "meter/second" (by decide),
    key (["units", "heat_source", "dimension"], lengthUnits) (by simp [unitEntries])
      "meter" (by decide),
    key (["units", "heat_source", "scan_path"], lengthUnits) (by simp [unitEntries])
      "meter" (by decide)]

theorem counts_nonzero {p : Parsers ℚ} {t : Tree} :
    (0 : ℕ) ∉ stepCounts p t ↔ ∀ path ∈ [["refinement", "time_steps_between_refinement"],
      ["post_processor", "time_steps_between_output"],
      ["time_stepping", "mechanical_time_step_factor"],
      ["checkpoint", "time_steps_between_checkpoint"]], getUInt p t path ≠ some 0 := by
  have key : ∀ (path : List String) (d : ℕ), 0 < d →
      ((¬ 0 = (getUInt p t path).getD d) ↔ getUInt p t path ≠ some 0) := by
    intro path d hd
    cases hc : getUInt p t path with
    | none => simp; omega
    | some x => simp; omega
  unfold stepCounts
  simp only [List.mem_cons, List.not_mem_nil, or_false, not_or, forall_eq_or_imp, forall_eq]
  rw [key _ 10 (by decide), key _ 1 (by decide), key _ 1 (by decide), key _ (2 ^ 32 - 1) (by decide)]

/-- The names of the properties. -/
theorem names_mem {k : String} : k ∈ statePropertyNames ↔ k ∈ ["density", "specific_heat",
        "thermal_conductivity_x", "thermal_conductivity_y", "thermal_conductivity_z",
        "emissivity", "radiation_heat_transfer_coef", "convection_heat_transfer_coef",
        "lame_first_parameter", "lame_second_parameter", "thermal_expansion_coef",
        "plastic_modulus", "isotropic_hardening", "elastic_limit"] :=
  ⟨(by decide : ∀ k ∈ statePropertyNames, k ∈ ["density", "specific_heat",
        "thermal_conductivity_x", "thermal_conductivity_y", "thermal_conductivity_z",
        "emissivity", "radiation_heat_transfer_coef", "convection_heat_transfer_coef",
        "lame_first_parameter", "lame_second_parameter", "thermal_expansion_coef",
        "plastic_modulus", "isotropic_hardening", "elastic_limit"]) k,
    (by decide : ∀ k ∈ ["density", "specific_heat",
        "thermal_conductivity_x", "thermal_conductivity_y", "thermal_conductivity_z",
        "emissivity", "radiation_heat_transfer_coef", "convection_heat_transfer_coef",
        "lame_first_parameter", "lame_second_parameter", "thermal_expansion_coef",
        "plastic_modulus", "isotropic_hardening", "elastic_limit"], k ∈ statePropertyNames) k⟩

/-- **C60 (exact).** An accepted input with thermal physics is run (the set-up does not throw,
an instantiation is chosen, no unit is scaled by zero and no step count is zero) if, and only
if, it satisfies the additional conditions `Usable`.  The property asks for this of every
accepted input, which fails, see `C60_refuted`. -/
theorem C60_runs_iff_partial (p : Parsers ℚ) (t : Tree) (h : Accepted p t)
    (hth : getBool p t ["physics", "thermal"] = some true) :
    simulate p t = .runs ↔ Usable p t := by
  have hdim := C61_dim p t h
  obtain ⟨dim, hdm, hd23⟩ : ∃ dim, getUInt p t ["geometry", "dim"] = some dim
      ∧ (dim = 2 ∨ dim = 3) := by
    rcases hdim with h | h
    · exact ⟨2, h, Or.inl rfl⟩
    · exact ⟨3, h, Or.inr rfl⟩
  have hbeams : sourcesStart p t dim = some () ↔ ∀ (n dim' : ℕ),
      getUInt p t ["sources", "n_beams"] = some n →
      getUInt p t ["geometry", "dim"] = some dim' → ∀ i < n,
      ∀ ty, t.str? ["sources", beamKey i, "type"] = some ty →
      ty.toList.map Char.toLower = ty.toList
      ∧ (∀ k ∈ (if ty = "cube" then
            (if dim' = 3 then ["start_time", "end_time", "value", "min_x", "max_x", "min_y", "max_y", "min_z", "max_z"]
             else ["start_time", "end_time", "value", "min_x", "max_x", "min_y", "max_y"])
          else ["depth", "absorption_efficiency", "diameter", "max_power"]),
          ∃ x : ℚ, getDbl p t ["sources", beamKey i, k] = some x)
      ∧ (ty ≠ "cube" → ∀ f, t.str? ["sources", beamKey i, "scan_path_file_format"] = some f →
          f.toList.map Char.toLower = f.toList) := by
    rw [sources_start h]
    constructor
    · intro H n dim' hn hd' i hi
      obtain rfl : dim = dim' := Option.some.inj (hdm.symm.trans hd')
      exact (beam_starts h hn hi).1 (H n hn i hi)
    · intro H n hn i hi
      exact (beam_starts h hn hi).2 (H n dim hn hdm i hi)
  have hdev : ∀ a : Bool, (¬ (a = true ∧ (t.str? ["memory_space"]).getD "host" = "device"))
      ↔ (t.str? ["memory_space"] ≠ some "device" ∨ a = false) := by
    intro a
    cases a with
    | false => simp
    | true =>
      cases hc : t.str? ["memory_space"] with
      | none => simp
      | some m => simp
  have hsetup : setup p t (getBoolD p t ["ensemble", "ensemble_simulation"] false) dim 1 = some ()
      ↔ (quadratureStart t (getBoolD p t ["ensemble", "ensemble_simulation"] false) = some ()
        ∧ sourcesStart p t dim = some () ∧ solidusStart p t 1 = some ()
        ∧ timeStart p t = some ()) := by
    unfold setup
    rw [degree_starts h hth, method_starts h]
    simp only [Option.bind_eq_bind, Option.bind_some, Option.bind_eq_some_iff]
    constructor
    · rintro ⟨_, a, _, b, _, c, d⟩
      exact ⟨a, b, c, d⟩
    · rintro ⟨a, b, c, d⟩
      exact ⟨(), a, (), b, (), c, d⟩
  by_cases hone : getUInt p t ["materials", "n_materials"] = some 1
  · obtain ⟨md, order, ns, hmd, hmp, hcoef⟩ := materialParams_one h hone
    unfold simulate
    rw [hdm, hmd]
    simp only [Option.bind_some]
    rw [hmp]
    by_cases h4 : order ≤ 4
    · rw [if_pos h4]
      simp only
      by_cases hd : getBoolD p t ["ensemble", "ensemble_simulation"] false = true
          ∧ (t.str? ["memory_space"]).getD "host" = "device"
      · rw [if_pos hd]
        refine ⟨fun e => (by cases e), fun u => absurd hd ((hdev _).2 u.device)⟩
      · rw [if_neg hd, if_pos (⟨hd23, by trivial, h4⟩)]
        cases hs : setup p t (getBoolD p t ["ensemble", "ensemble_simulation"] false) dim 1 with
        | none =>
          refine ⟨fun e => (by simp at e), fun u => ?_⟩
          have := hsetup.2 ⟨(quadrature_starts h hth _).2 u.quadrature, hbeams.2 u.beams,
            solidus_starts.2 u.solidus, (time_starts h).2 ⟨u.duration, u.checkpoint⟩⟩
          rw [hs] at this
          cases this
        | some w =>
          obtain ⟨q1, q2, q3, q4⟩ := hsetup.1 hs
          simp only
          by_cases hu : (0 : ℚ) ∈ unitFactors t
          · rw [if_pos hu]
            exact ⟨fun e => (by cases e), fun u => absurd hu ((units_nonzero h).2 u.units)⟩
          · rw [if_neg hu]
            by_cases hc : (0 : ℕ) ∈ stepCounts p t
            · rw [if_pos hc]
              exact ⟨fun e => (by cases e), fun u => absurd hc (counts_nonzero.2 u.counts)⟩
            · rw [if_neg hc]
              refine ⟨fun _ => ?_, fun _ => rfl⟩
              exact
                { one := hone
                  coefs := (hcoef.1 h4).imp id fun H st hst k hk s hs =>
                    H st hst k (names_mem.2 hk) s hs
                  solidus := solidus_starts.1 q3
                  device := (hdev _).1 hd
                  quadrature := (quadrature_starts h hth _).1 q1
                  beams := hbeams.1 q2
                  duration := ((time_starts h).1 q4).1
                  checkpoint := ((time_starts h).1 q4).2
                  units := (units_nonzero h).1 hu
                  counts := counts_nonzero.1 hc }
    · rw [if_neg h4]
      refine ⟨fun e => (by simp at e), fun u => absurd (hcoef.2 ?_) h4⟩
      refine u.coefs.imp id fun H st hst k hk s hs => H st hst k (names_mem.1 hk) s hs
  · refine ⟨fun e => ?_, fun u => absurd u.one hone⟩
    exfalso
    obtain ⟨th, me, bt, dim', -, -, -, -, hm, -⟩ := h.sections
    obtain ⟨n, f, hn, hf, hfmt, hall⟩ := materials_spec hm
    unfold simulate at e
    rw [hdm] at e
    obtain ⟨md, hmd⟩ : ∃ md, t.child? "materials" = some md := by
      simp only [Tree.str?, Tree.get?] at hf
      cases hc : t.child? "materials" with
      | none => simp [hc] at hf
      | some c => exact ⟨c, rfl⟩
    have hget : t.get? ["materials"] = some md := by simp [Tree.get?, hmd]
    rw [hget] at e
    simp only [Option.bind_some] at e
    cases hp : materialParams p md with
    | none => rw [hp] at e; simp at e
    | some r =>
      obtain ⟨n', o, s'⟩ := r
      have hn' : getUInt p md ["n_materials"] = some n' := by
        unfold materialParams at hp
        simp only [Option.bind_eq_bind, Option.bind_eq_some_iff] at hp
        obtain ⟨f', -, n'', hn'', _, -, _, -, hr⟩ := hp
        simp only [Option.pure_def, Option.some.injEq, Prod.mk.injEq] at hr
        rw [hn'', hr.1]
      have hnn : getUInt p t ["materials", "n_materials"] = some n' := by
        rw [← hn']; unfold getUInt; rw [Tree.str?_cons hmd]
      rw [hp] at e
      simp only at e
      have h1 : ¬ n' = 1 := fun e1 => hone (by rw [hnn, e1])
      have h1' : ¬ ((dim = 2 ∨ dim = 3) ∧ n' = 1 ∧ o ≤ 4) := fun c => h1 c.2.1
      rw [if_neg h1'] at e
      split at e <;> cases e

/-- **C60.** In particular a usable accepted input is run. -/
theorem C60_usable_partial (p : Parsers ℚ) (t : Tree) (h : Accepted p t)
    (hth : getBool p t ["physics", "thermal"] = some true) (hp : Usable p t) :
    simulate p t = .runs := (C60_runs_iff_partial p t h hth).2 hp

/-! ## Examples and refutations -/

/-- Parsers used in the examples: a few literal numbers and truth values. -/
def exParsers : Parsers ℚ where
  uint := fun s => if s = "0" then some 0 else if s = "1" then some 1
    else if s = "2" then some 2 else if s = "3" then some 3 else none
  dbl := fun s => if s = "0.1" then some (1 / 10) else if s = "1e-3" then some (1 / 1000)
    else if s = "1700" then some 1700 else if s = "-1" then some (-1) else if s = "0" then some 0
    else none
  bool := fun s => if s = "true" then some true else if s = "false" then some false else none

/-- A small two-dimensional thermal input with one beam; the parameters are the entries varied
in the examples below. -/
structure ExInput where
  quad : String := "gauss"
  beam : String := "goldak"
  fmt : String := "segment"
  nMat : String := "1"
  out : String := "1"
  vel : String := "meter/second"
  mesh : String := "meter"
  duration : String := "0.1"
  step : String := "1e-3"
  extra : List (String × Tree) := []

/-- A material with one solid state. -/
def exMaterial : Tree := .node "" [("solid", .node "" [("density", leaf "1"),
  ("specific_heat", leaf "1"), ("thermal_conductivity_x", leaf "1"),
  ("thermal_conductivity_z", leaf "1")]), ("solidus", leaf "1700")]

/-- The input. -/
def exTree (x : ExInput) : Tree := .node ""
  [("physics", .node "" [("thermal", leaf "true"), ("mechanical", leaf "false")]),
   ("boundary", .node "" [("type", leaf "adiabatic")]),
   ("discretization", .node "" [("thermal",
      .node "" [("fe_degree", leaf "2"), ("quadrature", leaf x.quad)])]),
   ("geometry", .node "" ([("dim", leaf "2"), ("import_mesh", leaf "false"), ("length", leaf "1"),
      ("height", leaf "1")] ++ x.extra)),
   ("materials", .node "" [("n_materials", leaf x.nMat), ("property_format", leaf "polynomial"),
      ("material_0", exMaterial), ("material_1", exMaterial)]),
   ("post_processor", .node "" [("filename_prefix", leaf "out"),
      ("time_steps_between_output", leaf x.out)]),
   ("refinement", .node "" []),
   ("sources", .node "" [("n_beams", leaf "1"), ("beam_0", .node "" [("type", leaf x.beam),
      ("scan_path_file", leaf "scan.txt"), ("scan_path_file_format", leaf x.fmt),
      ("depth", leaf "1e-3"), ("absorption_efficiency", leaf "0.1"), ("diameter", leaf "1e-3"),
      ("max_power", leaf "1700")])]),
   ("time_stepping", .node "" [("method", leaf "Forward_Euler"), ("duration", leaf x.duration),
      ("time_step", leaf x.step)]),
   ("units", .node "" [("mesh", leaf x.mesh),
      ("heat_source", .node "" [("velocity", leaf x.vel)])])]

set_option maxRecDepth 20000 in
/-- Non-vacuity of C60_usable_partial and of C61: the basic input is accepted and is run. -/
example : Accepted exParsers (exTree {}) ∧ simulate exParsers (exTree {}) = .runs := by
  decide +kernel

theorem Tree.child?_mem {t c : Tree} {k : String} (h : t.child? k = some c) :
    (k, c) ∈ t.children := by
  unfold Tree.child? at h
  rw [Option.map_eq_some_iff] at h
  obtain ⟨⟨k', c'⟩, hf, rfl⟩ := h
  have h1 := List.find?_some hf
  have h2 := List.mem_of_find?_eq_some hf
  simp at h1
  exact h1 ▸ h2

/-- The basic input satisfies the additional conditions, so that the hypotheses of
`C60_usable_partial` can be met. -/
theorem exTree_usable : Usable exParsers (exTree {}) :=
  (C60_runs_iff_partial exParsers (exTree {}) (by decide +kernel) (by decide +kernel)).1
    (by decide +kernel)

/-- **C60 refuted.** Accepted inputs that are not run: two materials (nothing is run at all),
the quadrature `Gauss` and the beam type `Goldak` (rejected later), an output interval of zero
(division by zero), and the mesh unit `Meter` (everything is scaled by zero). -/
theorem C60_refuted :
    (Accepted exParsers (exTree { nMat := "2" })
      ∧ simulate exParsers (exTree { nMat := "2" }) = .nothing)
    ∧ (Accepted exParsers (exTree { quad := "Gauss" })
      ∧ simulate exParsers (exTree { quad := "Gauss" }) = .error)
    ∧ (Accepted exParsers (exTree { beam := "Goldak" })
      ∧ simulate exParsers (exTree { beam := "Goldak" }) = .error)
    ∧ (Accepted exParsers (exTree { fmt := "Segment" })
      ∧ simulate exParsers (exTree { fmt := "Segment" }) = .error)
    ∧ (Accepted exParsers (exTree { out := "0" })
      ∧ simulate exParsers (exTree { out := "0" }) = .zeroDivisor)
    ∧ (Accepted exParsers (exTree { mesh := "Meter" })
      ∧ simulate exParsers (exTree { mesh := "Meter" }) = .zeroUnit) := by
  refine ⟨?_, ?_, ?_, ?_, ?_, ?_⟩ <;> decide +kernel

/-- **C60 refuted**, in the form of the property. -/
theorem C60_general_refuted :
    ¬ ∀ (p : Parsers ℚ) (t : Tree), Accepted p t → simulate p t = .runs := by
  intro H
  have h := H exParsers (exTree { nMat := "2" }) C60_refuted.1.1
  rw [C60_refuted.1.2] at h
  cases h

/-- **C62 refuted.** The documented and accepted unit `centimeter/second` is scaled by zero
(the table has the key `centimer/second`), and so is every accepted unit that is not written
in lower case. -/
theorem C62_refuted :
    ¬ ∀ (p : Parsers ℚ) (t : Tree), Accepted p t → ∀ e ∈ unitEntries, ∀ u : String,
      t.str? e.1 = some u → 0 < unitScale u := by
  intro H
  have h := H exParsers (exTree { vel := "centimeter/second" }) (by decide +kernel)
    (["units", "heat_source", "velocity"], velocityUnits) (by simp [unitEntries])
    "centimeter/second" (by decide)
  exact absurd h (by decide +kernel)

/-- **C62 refuted** by the letter case. -/
theorem C62_case_refuted :
    Accepted exParsers (exTree { mesh := "Millimeter" }) ∧ unitScale "Millimeter" = 0 := by
  constructor <;> decide +kernel

/-! ## C83: deposition from a file -/

/-- An input with material deposition from a file, as documented. -/
def depositionInput : ExInput :=
  { extra := [("material_deposition", leaf "true"),
      ("material_deposition_method", leaf "file"),
      ("material_deposition_file", leaf "boxes.txt")] }

/-- **C83 refuted.** An input that asks for deposition from a file and gives the file in
`geometry.material_deposition_file` is rejected, although without the deposition it is
accepted: the validator counts the children of the root named
`geometry.material_deposition_file`. -/
theorem C83_deposition_file_refuted :
    Accepted exParsers (exTree {}) ∧ ¬ Accepted exParsers (exTree depositionInput)
      ∧ (exTree depositionInput).str? ["geometry", "material_deposition_file"] = some "boxes.txt" := by
  refine ⟨?_, ?_, ?_⟩ <;> decide +kernel

/-- **C83 (what is accepted).** An accepted input with deposition from a file has an entry
whose name contains the dot, at the top level; no entry of the `geometry` section can
replace it. -/
theorem C83_file_needs_dotted_key_partial (p : Parsers ℚ) (t : Tree) (h : Accepted p t)
    (hd : getBool p t ["geometry", "material_deposition"] = some true)
    (hm : t.str? ["geometry", "material_deposition_method"] = some "file") :
    ∃ c, ("geometry.material_deposition_file", c) ∈ t.children := by
  obtain ⟨th, me, bt, dim, -, -, -, hg, -⟩ := h.sections
  unfold validateGeometry at hg
  simp only [Option.bind_eq_bind, Option.bind_eq_some_iff] at hg
  obtain ⟨d, -, _, -, _, -, _, hdep, -⟩ := hg
  unfold validateDeposition at hdep
  rw [if_pos (by simp [getBoolD, hd]), hm] at hdep
  simp only [Option.bind_eq_bind, Option.bind_some, Option.bind_eq_some_iff, if_true] at hdep
  obtain ⟨_, -, hr⟩ := hdep
  have := require_some hr
  simp only [decide_eq_true_eq] at this
  obtain ⟨c, hc⟩ := (Tree.count_ne_zero t _).1 this
  unfold Tree.child? at hc
  rw [Option.map_eq_some_iff] at hc
  obtain ⟨⟨k, c'⟩, hf, rfl⟩ := hc
  have h1 := List.find?_some hf
  have h2 := List.mem_of_find?_eq_some hf
  simp at h1
  exact ⟨c', h1 ▸ h2⟩

/-- **C83 (deposition along the scan paths).** The entries needed for deposition along the
scan paths are present in every accepted input that asks for it. -/
theorem C83_scan_paths (p : Parsers ℚ) (t : Tree) (h : Accepted p t)
    (hd : getBool p t ["geometry", "material_deposition"] = some true)
    (hm : t.str? ["geometry", "material_deposition_method"] ≠ some "file") :
    t.str? ["geometry", "material_deposition_method"] = some "scan_paths"
      ∧ (∃ s, t.str? ["geometry", "deposition_length"] = some s)
      ∧ (∃ s, t.str? ["geometry", "deposition_height"] = some s)
      ∧ (getUInt p t ["geometry", "dim"] = some 3 →
          ∃ s, t.str? ["geometry", "deposition_width"] = some s)
      ∧ (∃ s, t.str? ["geometry", "deposition_lead_time"] = some s) := by
  obtain ⟨th, me, bt, dim, -, -, -, hg, -⟩ := h.sections
  unfold validateGeometry at hg
  simp only [Option.bind_eq_bind, Option.bind_eq_some_iff] at hg
  obtain ⟨d, hdd, _, -, _, -, _, hdep, -⟩ := hg
  unfold validateDeposition at hdep
  rw [if_pos (by simp [getBoolD, hd])] at hdep
  simp only [Option.bind_eq_bind, Option.bind_eq_some_iff] at hdep
  obtain ⟨m, hm', _, r0, hdep⟩ := hdep
  have hne : m ≠ "file" := fun e => hm (e ▸ hm')
  rw [if_neg hne] at hdep
  simp only [Option.bind_eq_some_iff] at hdep
  obtain ⟨_, r1, _, r2, _, r3, r4⟩ := hdep
  have r0 := require_some r0
  have r1 := require_some r1
  have r2 := require_some r2
  have r3 := require_some r3
  have r4 := require_some r4
  simp [hne] at r0
  refine ⟨by rw [hm', r0], hasChild_iff.1 r1, hasChild_iff.1 r2, fun h3 => ?_, hasChild_iff.1 r4⟩
  rw [h3] at hdd
  simp at hdd
  subst hdd
  simp at r3
  exact hasChild_iff.1 r3

/-- Non-vacuity of C83_scan_paths. -/
example : Accepted exParsers (exTree { extra := [("material_deposition", leaf "true"),
    ("material_deposition_method", leaf "scan_paths"), ("deposition_length", leaf "1"),
    ("deposition_height", leaf "1"), ("deposition_lead_time", leaf "1")] }) := by
  decide +kernel

/-! ## C84: time parameters -/

/-- **C84 (partial).** The time step of an accepted input is a number that is not
negative. -/
theorem C84_time_step_partial (p : Parsers ℚ) (t : Tree) (h : Accepted p t) :
    ∃ dt : ℚ, getDbl p t ["time_stepping", "time_step"] = some dt ∧ 0 ≤ dt := by
  obtain ⟨th, me, bt, dim, -, -, -, -, -, -, -, htime, -⟩ := h.sections
  unfold validateTime at htime
  simp only [Option.bind_eq_bind, Option.bind_eq_some_iff] at htime
  obtain ⟨m, hm, _, hr, htime⟩ := htime
  split at htime
  · simp only [Option.bind_eq_some_iff] at htime
    obtain ⟨_, -, _, -, x, hx, r⟩ := htime
    exact ⟨x, hx, by simpa using require_some r⟩
  · simp only [Option.pure_def, Option.bind_some, Option.bind_eq_some_iff] at htime
    obtain ⟨x, hx, r⟩ := htime
    exact ⟨x, hx, by simpa using require_some r⟩

/-- **C84 refuted.** An input with a negative duration is accepted, and so is one with a time
step of zero, with which the time never advances. -/
theorem C84_refuted :
    (Accepted exParsers (exTree { duration := "-1" })
      ∧ getDbl exParsers (exTree { duration := "-1" }) ["time_stepping", "duration"] = some (-1))
    ∧ (Accepted exParsers (exTree { step := "0" })
      ∧ getDbl exParsers (exTree { step := "0" }) ["time_stepping", "time_step"] = some 0) := by
  refine ⟨⟨?_, ?_⟩, ?_, ?_⟩ <;> decide +kernel

/-! ## C85: exit status -/

/-- How `main` can end. -/
inductive Run where
  /-- `--help` or `--kokkos-help` -/
  | help
  /-- the input is rejected by the validator -/
  | rejected
  /-- a `boost::bad_any_cast` -/
  | badCast
  /-- any other exception -/
  | exception
  /-- the end of the `try` block is reached -/
  | done
  deriving DecidableEq, Repr

/-- The exit status of `main` (application/adamantine.cc:291-294, 301-307, 319-327, 492-535). -/
def exitStatus : Run → ℕ
  | .help => 0
  | .rejected => 0
  | .badCast => 0
  | .exception => 1
  | .done => 0

/-- How a run with an input file ends: the validator throws `std::runtime_error` for a failed
check (caught, application/adamantine.cc:319-327), the set-up and the simulation throw other
exceptions. -/
def runMain (p : Parsers ℚ) (t : Tree) : Run :=
  if Accepted p t then (if simulate p t = .error then .exception else .done) else .rejected

/-- **C85 (partial).** An accepted input whose set-up fails makes the program return a
non-zero status. -/
theorem C85_exception_partial (p : Parsers ℚ) (t : Tree) (h : Accepted p t)
    (he : simulate p t = .error) : exitStatus (runMain p t) ≠ 0 := by
  simp [runMain, h, he, exitStatus]

/-- **C85 (successful runs).** A usable input ends with status zero. -/
theorem C85_success (p : Parsers ℚ) (t : Tree) (h : Accepted p t)
    (hth : getBool p t ["physics", "thermal"] = some true) (hp : Usable p t) :
    exitStatus (runMain p t) = 0 := by
  simp [runMain, h, C60_usable_partial p t h hth hp, exitStatus]

/-- **C85 refuted.** For every rejected input the exit status is zero, and also for the
accepted input for which nothing is run. -/
theorem C85_refuted :
    (∀ (p : Parsers ℚ) (t : Tree), ¬ Accepted p t → exitStatus (runMain p t) = 0)
    ∧ exitStatus (runMain exParsers (exTree { nMat := "2" })) = 0 := by
  constructor
  · intro p t h
    simp [runMain, h, exitStatus]
  · decide +kernel

end Verif.Input
