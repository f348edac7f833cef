import Verif.Input.Required

/-!
# C121: the validator accepts exactly the inputs that obey the rules

`Rules` is a specification of a correct input, written from the documentation of the input file and the messages of the checks, with literal names of
entries and options; it mentions none of the functions that model the checks.  The theorem compares it with `validate_input_database` (model in
`Validate.lean`, `source/validate_input_database.cc:16-551`).
-/

namespace Verif.Input

/-! ## Specification -/

/-- The entry at the path is read as a true value. -/
def On (p : Parsers ℚ) (t : Tree) (path : List String) : Prop := getBool p t path = some true

/-- The text `u` is one of the given option names, in any letter case. -/
def OneOf (u : String) (names : List String) : Prop := ∃ n ∈ names, lower u = lower n

/-- The rules for one line of the boundary section. -/
structure LineRules (thermal mechanical : Prop) (s : String) : Prop where
  /-- all names are known -/
  known : ∀ n ∈ pieces s, n ∈ ["adiabatic", "radiative", "convective", "clamped", "traction_free"]
  /-- an insulated boundary exchanges no heat -/
  insulated : ¬ ("adiabatic" ∈ pieces s ∧ ("radiative" ∈ pieces s ∨ "convective" ∈ pieces s))
  /-- a clamped boundary is not free -/
  clamped : ¬ ("clamped" ∈ pieces s ∧ "traction_free" ∈ pieces s)
  /-- with thermal physics the line has a thermal condition -/
  thermal : thermal → "adiabatic" ∈ pieces s ∨ "radiative" ∈ pieces s ∨ "convective" ∈ pieces s
  /-- with mechanical physics the line has a mechanical condition -/
  mechanical : mechanical → "clamped" ∈ pieces s ∨ "traction_free" ∈ pieces s

/-- Some line of the boundary section contains the name. -/
def SomeLine (t : Tree) (name : String) : Prop := ∃ s, BoundaryLine t s ∧ name ∈ pieces s

/-- The rules for the boundary section. -/
structure BoundaryRules (p : Parsers ℚ) (t : Tree) : Prop where
  /-- the section exists, and every subsection has a line -/
  lines : ∃ db, t.get? ["boundary"] = some db ∧ ∀ (k : String) (sub : Tree), (k, sub) ∈ db.children → k ≠ "type" → ∃ s, db.str? [k, "type"] = some s
  /-- every line is a legal combination -/
  each : ∀ s, BoundaryLine t s → LineRules (On p t ["physics", "thermal"]) (On p t ["physics", "mechanical"]) s
  /-- a mechanical problem is held somewhere -/
  held : On p t ["physics", "mechanical"] → SomeLine t "clamped"

/-- The rules for the material deposition. -/
def DepositionRules (p : Parsers ℚ) (t : Tree) : Prop :=
  On p t ["geometry", "material_deposition"] →
    ∃ m, t.str? ["geometry", "material_deposition_method"] = some m ∧
      ((m = "file" ∧ Present t ["geometry", "material_deposition_file"]) ∨
       (m = "scan_paths" ∧ Present t ["geometry", "deposition_length"] ∧ Present t ["geometry", "deposition_height"] ∧
        (getUInt p t ["geometry", "dim"] = some 3 → Present t ["geometry", "deposition_width"]) ∧ Present t ["geometry", "deposition_lead_time"]))

/-- The rules for the geometry. -/
structure GeometryRules (p : Parsers ℚ) (t : Tree) : Prop where
  dim : getUInt p t ["geometry", "dim"] = some 2 ∨ getUInt p t ["geometry", "dim"] = some 3
  powder : On p t ["geometry", "use_powder"] → ∃ l : ℚ, getDbl p t ["geometry", "powder_layer"] = some l ∧ 0 ≤ l
  deposition : DepositionRules p t
  mesh : (getBool p t ["geometry", "import_mesh"] = some true ∧ Present t ["geometry", "mesh_file"] ∧ Present t ["geometry", "mesh_format"]) ∨
    (getBool p t ["geometry", "import_mesh"] = some false ∧ Present t ["geometry", "length"] ∧ Present t ["geometry", "height"] ∧
      (getUInt p t ["geometry", "dim"] = some 3 → Present t ["geometry", "width"]))

/-- The rules for one material. -/
structure MaterialRules (p : Parsers ℚ) (t : Tree) (mat : String) : Prop where
  present : Present t ["materials", mat]
  state : ∃ st ∈ ["solid", "liquid", "powder"], Present t ["materials", mat, st]
  properties : ∀ st ∈ ["solid", "liquid", "powder"], Present t ["materials", mat, st] →
    (∀ k ∈ ["density", "specific_heat", "thermal_conductivity_x", "thermal_conductivity_z"], Present t ["materials", mat, st, k]) ∧
    (getUInt p t ["geometry", "dim"] = some 3 → Present t ["materials", mat, st, "thermal_conductivity_y"]) ∧
    (SomeLine t "convective" → Present t ["materials", mat, st, "convection_heat_transfer_coef"]) ∧
    (SomeLine t "radiative" → Present t ["materials", mat, st, "emissivity"])
  convection : SomeLine t "convective" → Present t ["materials", mat, "convection_temperature_infty"]
  radiation : SomeLine t "radiative" → Present t ["materials", mat, "radiation_temperature_infty"]

/-- The rules for one beam. -/
structure BeamRules (p : Parsers ℚ) (t : Tree) (beam : String) : Prop where
  type : ∃ ty, t.str? ["sources", beam, "type"] = some ty ∧ OneOf ty ["goldak", "electron_beam", "cube"]
  path : Present t ["sources", beam, "scan_path_file"]
  format : ∃ f, t.str? ["sources", beam, "scan_path_file_format"] = some f ∧ OneOf f ["segment", "event_series"]
  depth : ∃ d : ℚ, getDbl p t ["sources", beam, "depth"] = some d ∧ 0 ≤ d
  absorption : ∃ a : ℚ, getDbl p t ["sources", beam, "absorption_efficiency"] = some a ∧ 0 ≤ a ∧ a ≤ 1

/-- The rules for experimental data. -/
structure ExperimentRules (p : Parsers ℚ) (t : Tree) : Prop where
  files : Present t ["experiment", "file"] ∧ Present t ["experiment", "log_filename"]
  format : ∃ f, t.str? ["experiment", "format"] = some f ∧ OneOf f ["point_cloud", "ray"]
  frames : ∃ last : ℕ, getUInt p t ["experiment", "last_frame"] = some last ∧
    ∀ first : ℕ, getUInt p t ["experiment", "first_frame"] = some first → first ≤ last
  cameras : ∃ first last : ℕ, getUInt p t ["experiment", "first_camera_id"] = some first ∧
    getUInt p t ["experiment", "last_camera_id"] = some last ∧ first ≤ last

/-- If the entry is given, it is one of the option names. -/
def Optional (t : Tree) (path : List String) (names : List String) : Prop := ∀ u, t.str? path = some u → OneOf u names

/-- The rules for the input file. -/
structure Rules (p : Parsers ℚ) (t : Tree) : Prop where
  /-- both switches are readable, and one is on -/
  physics : ∃ th me : Bool, getBool p t ["physics", "thermal"] = some th ∧ getBool p t ["physics", "mechanical"] = some me ∧ (th = true ∨ me = true)
  boundary : BoundaryRules p t
  degree : On p t ["physics", "thermal"] → ∃ d : ℕ, getUInt p t ["discretization", "thermal", "fe_degree"] = some d ∧ 1 ≤ d ∧ d ≤ 5
  quadrature : On p t ["physics", "thermal"] → Optional t ["discretization", "thermal", "quadrature"] ["gauss", "lobatto"]
  geometry : GeometryRules p t
  format : t.str? ["materials", "property_format"] = some "table" ∨ t.str? ["materials", "property_format"] = some "polynomial"
  materials : ∃ n : ℕ, getUInt p t ["materials", "n_materials"] = some n ∧ ∀ i < n, MaterialRules p t ("material_" ++ toString i)
  memory : ∀ m, t.str? ["memory_space"] = some m → m = "device" ∨ m = "host"
  output : Present t ["post_processor", "filename_prefix"]
  refinement : Present t ["refinement"]
  beams : ∃ n : ℕ, getUInt p t ["sources", "n_beams"] = some n ∧ ∀ i < n, BeamRules p t ("beam_" ++ toString i)
  method : ∃ m, t.str? ["time_stepping", "method"] = some m ∧ OneOf m ["forward_euler", "rk_third_order", "rk_fourth_order"]
  timeStep : ∃ s : ℚ, getDbl p t ["time_stepping", "time_step"] = some s ∧ 0 ≤ s
  experiment : On p t ["experiment", "read_in_experimental_data"] → ExperimentRules p t
  tolerance : ∀ c : ℚ, getDbl p t ["data_assimilation", "convergence_tolerance"] = some c → 0 ≤ c
  cutoff : Optional t ["data_assimilation", "localization_cutoff_function"] ["gaspari_cohn", "step_function", "none"]
  unitsMesh : Optional t ["units", "mesh"] ["millimeter", "centimeter", "inch", "meter"]
  unitsPower : Optional t ["units", "heat_source", "power"] ["milliwatt", "watt"]
  unitsVelocity : Optional t ["units", "heat_source", "velocity"] ["millimeter/second", "centimeter/second", "meter/second"]
  unitsDimension : Optional t ["units", "heat_source", "dimension"] ["millimeter", "centimeter", "inch", "meter"]
  unitsPath : Optional t ["units", "heat_source", "scan_path"] ["millimeter", "centimeter", "inch", "meter"]

/-- The inputs on which the checks are not known to deviate from the rules: no line of the boundary section combines `adiabatic` with an exchange of heat
(`C59_order_refuted`), material is not deposited from a file (`C83_deposition_file_refuted`), and the stray entry `time.scan_path_for_duration` is not
used (`C84_refuted`). -/
structure Ordinary (p : Parsers ℚ) (t : Tree) : Prop where
  lines : ∀ s, BoundaryLine t s → ¬ ("adiabatic" ∈ pieces s ∧ ("radiative" ∈ pieces s ∨ "convective" ∈ pieces s))
  deposition : On p t ["geometry", "material_deposition"] → t.str? ["geometry", "material_deposition_method"] ≠ some "file"
  time : ¬ On p t ["time", "scan_path_for_duration"]

/-! ## Elementary facts -/

theorem require_iff (b : Bool) (u : Unit) : require b = some u ↔ b = true := by
  unfold require
  cases b <;> simp

theorem getBoolD_on (p : Parsers ℚ) (t : Tree) (path : List String) : getBoolD p t path false = true ↔ On p t path := by
  unfold getBoolD On
  cases getBool p t path <;> simp

theorem oneOf_any (u : String) (names : List String) : names.any (fun n => iequals u n) = true ↔ OneOf u names := by
  simp [List.any_eq_true, OneOf, iequals_iff]

theorem unitOk_iff (t : Tree) (path names : List String) (u : Unit) : unitOk t path names = some u ↔ Optional t path names := by
  unfold unitOk Optional
  cases t.str? path with
  | none => simp
  | some s => simp only [require_iff, oneOf_any]; simp

theorem present_of_str {t : Tree} {path : List String} {s : String} (h : t.str? path = some s) : Present t path := by
  unfold Tree.str? at h
  rw [Option.map_eq_some_iff] at h
  obtain ⟨c, hc, -⟩ := h
  exact ⟨c, hc⟩

/-! ## The boundary section -/

theorem lineFold_exact {st st' : LineState} {ns : List String} (h : lineFold st ns = some st') :
    (st'.thermal = true ↔ st.thermal = true ∨ "adiabatic" ∈ ns ∨ "radiative" ∈ ns ∨ "convective" ∈ ns) ∧
    (st'.mechanical = true ↔ st.mechanical = true ∨ "clamped" ∈ ns ∨ "traction_free" ∈ ns) := by
  induction ns generalizing st with
  | nil =>
    simp [lineFold] at h
    subst h
    simp
  | cons b bs ih =>
    simp only [lineFold, Option.bind_eq_some_iff] at h
    obtain ⟨s1, h1, h2⟩ := h
    obtain ⟨c, rfl, -, ht, hm, -⟩ := lineStep_line h1
    obtain ⟨i1, i2⟩ := ih h2
    rw [i1, i2, ht, hm]
    cases c <;> simp [BC.name] <;> tauto

theorem name_mem_iff (n : String) :
    n ∈ ["adiabatic", "radiative", "convective", "clamped", "traction_free"] ↔ ∃ bc : BC, n = bc.name := by
  constructor
  · intro h
    simp only [List.mem_cons, List.not_mem_nil, or_false] at h
    rcases h with rfl | rfl | rfl | rfl | rfl
    · exact ⟨.adiabatic, rfl⟩
    · exact ⟨.radiative, rfl⟩
    · exact ⟨.convective, rfl⟩
    · exact ⟨.clamped, rfl⟩
    · exact ⟨.tractionFree, rfl⟩
  · rintro ⟨bc, rfl⟩
    cases bc <;> simp [BC.name]

/-- An accepted line that does not mix the thermal conditions obeys the rules; the line that obeys the rules is accepted. -/
theorem checkLine_rules (g : ℕ) (th me : Bool) (s : String)
    (hmix : ¬ ("adiabatic" ∈ pieces s ∧ ("radiative" ∈ pieces s ∨ "convective" ∈ pieces s))) :
    (∃ st, checkLine g s = some st ∧ (th = true → st.thermal = true) ∧ (me = true → st.mechanical = true)) ↔
      LineRules (th = true) (me = true) s := by
  constructor
  · rintro ⟨st, hst, h1, h2⟩
    obtain ⟨e1, e2⟩ := lineFold_exact hst
    have ho := lineFold_orNames hst
    refine ⟨fun n hn => (name_mem_iff n).2 (known_of_lineFold hst n hn), hmix, ?_, fun h => ?_, fun h => ?_⟩
    · rintro ⟨a, b⟩
      refine lineFold_mech hst (fun h => has_zero _ h.1) ⟨?_, ?_⟩
      · exact (orNames_has ho .clamped).2 (Or.inr a)
      · exact (orNames_has ho .tractionFree).2 (Or.inr b)
    · simpa using e1.1 (h1 h)
    · simpa using e2.1 (h2 h)
  · intro hr
    have : ∃ bs : List BC, pieces s = bs.map BC.name := by
      have hk := hr.known
      generalize pieces s = names at hk
      induction names with
      | nil => exact ⟨[], rfl⟩
      | cons n ns ih =>
        obtain ⟨bs, hbs⟩ := ih (fun x hx => hk x (by simp [hx]))
        obtain ⟨b, hb⟩ := (name_mem_iff n).1 (hk n (by simp))
        exact ⟨b :: bs, by simp [hb, hbs]⟩
    obtain ⟨bs, hbs⟩ := this
    have mem : ∀ bc : BC, bc ∈ bs → bc.name ∈ pieces s := fun bc h => by rw [hbs]; exact List.mem_map.2 ⟨bc, h, rfl⟩
    have hsome : (checkLine g s).isSome := by
      unfold checkLine
      rw [hbs]
      apply lineFold_isSome_of
      · rintro ⟨h1 | h1, h2⟩
        · exact absurd h1 (has_zero _)
        · rcases h2 with h2 | h2 | h2 | h2
          · exact absurd h2 (has_zero _)
          · exact absurd h2 (has_zero _)
          · exact hmix ⟨mem _ h1, Or.inl (mem _ h2)⟩
          · exact hmix ⟨mem _ h1, Or.inr (mem _ h2)⟩
      · rintro ⟨h1 | h1, h2 | h2⟩
        · exact absurd h1 (has_zero _)
        · exact absurd h1 (has_zero _)
        · exact absurd h2 (has_zero _)
        · exact hr.clamped ⟨mem _ h1, mem _ h2⟩
    obtain ⟨st, hst⟩ := Option.isSome_iff_exists.1 hsome
    obtain ⟨e1, e2⟩ := lineFold_exact hst
    exact ⟨st, hst, fun h => e1.2 (Or.inr (hr.thermal h)), fun h => e2.2 (Or.inr (hr.mechanical h))⟩

/-- The line of a child of the boundary section. -/
def LineOf (db : Tree) (k : String) (sub : Tree) (s : String) : Prop :=
  (k = "type" ∧ s = sub.data) ∨ (k ≠ "type" ∧ db.str? [k, "type"] = some s)

theorem lineOf_iff (db : Tree) (x : String × Tree) (s : String) :
    (if x.1 = "type" then some x.2.data else db.str? [x.1, "type"]) = some s ↔ LineOf db x.1 x.2 s := by
  unfold LineOf
  by_cases h : x.1 = "type"
  · simp [h, eq_comm]
  · simp [h]

theorem boundaryLoop_exact (db : Tree) (th me : Bool) (cs : List (String × Tree)) (g : ℕ) (c : Bool)
    (hmix : ∀ (k : String) (sub : Tree) (s : String), (k, sub) ∈ cs → LineOf db k sub s →
      ¬ ("adiabatic" ∈ pieces s ∧ ("radiative" ∈ pieces s ∨ "convective" ∈ pieces s))) (P : ℕ → Bool → Prop) :
    (∃ g' c', boundaryLoop db th me cs g c = some (g', c') ∧ P g' c') ↔
      (∀ (k : String) (sub : Tree), (k, sub) ∈ cs → ∃ s, LineOf db k sub s ∧ LineRules (th = true) (me = true) s) ∧
      ∃ g' c', boundaryLoop db th me cs g c = some (g', c') ∧ P g' c' ∧
        (c' = true ↔ c = true ∨ ∃ (k : String) (sub : Tree) (s : String), (k, sub) ∈ cs ∧ LineOf db k sub s ∧ "clamped" ∈ pieces s) ∧
        ∀ bc : BC, (bc = .radiative ∨ bc = .convective) →
          (Has g' bc ↔ Has g bc ∨ ∃ (k : String) (sub : Tree) (s : String), (k, sub) ∈ cs ∧ LineOf db k sub s ∧ bc.name ∈ pieces s) := by
  constructor
  swap
  · rintro ⟨-, g', c', h, hP, -⟩; exact ⟨g', c', h, hP⟩
  rintro ⟨g', c', h, hP⟩
  suffices H : (∀ (k : String) (sub : Tree), (k, sub) ∈ cs → ∃ s, LineOf db k sub s ∧ LineRules (th = true) (me = true) s) ∧
        (c' = true ↔ c = true ∨ ∃ (k : String) (sub : Tree) (s : String), (k, sub) ∈ cs ∧ LineOf db k sub s ∧ "clamped" ∈ pieces s) ∧
        ∀ bc : BC, (bc = .radiative ∨ bc = .convective) →
          (Has g' bc ↔ Has g bc ∨ ∃ (k : String) (sub : Tree) (s : String), (k, sub) ∈ cs ∧ LineOf db k sub s ∧ bc.name ∈ pieces s) from
    ⟨H.1, g', c', h, hP, H.2⟩
  clear hP
  induction cs generalizing g c with
  | nil =>
    simp [boundaryLoop] at h
    obtain ⟨rfl, rfl⟩ := h
    simp
  | cons x xs ih =>
    simp only [boundaryLoop, Option.bind_eq_bind, Option.bind_eq_some_iff] at h
    obtain ⟨s, hs, st, hst, _, r1, _, r2, h⟩ := h
    rw [lineOf_iff] at hs
    have uniq : ∀ s', LineOf db x.1 x.2 s' → s' = s := fun s' h' => by
      rcases hs with ⟨a, b⟩ | ⟨a, b⟩ <;> rcases h' with ⟨a', b'⟩ | ⟨a', b'⟩
      · rw [b, b']
      · exact absurd a a'
      · exact absurd a' a
      · rw [b] at b'; exact (Option.some.inj b').symm
    have r1 := require_some r1
    have r2 := require_some r2
    obtain ⟨i1, i2, i3⟩ := ih _ _ (fun k sub s' hm => hmix k sub s' (List.mem_cons_of_mem _ hm)) h
    have hmx := hmix x.1 x.2 s (by simp) hs
    have hrule := (checkLine_rules g th me s hmx).1 ⟨st, hst, fun e => by simpa [e] using r1, fun e => by simpa [e] using r2⟩
    refine ⟨fun k sub hm => ?_, ?_, fun bc hbc => ?_⟩
    · rcases List.mem_cons.1 hm with rfl | hm
      · exact ⟨s, hs, hrule⟩
      · exact i1 k sub hm
    · rw [i2]
      have hcl : Has st.line .clamped ↔ "clamped" ∈ pieces s := by
        have := orNames_has (lineFold_orNames hst) .clamped
        rw [this]
        simp only [BC.name]
        exact or_iff_right (has_zero _)
      simp only [Bool.or_eq_true, decide_eq_true_eq, hcl]
      constructor
      · rintro ((h | h) | ⟨k, sub, s', hm, h⟩)
        · exact Or.inl h
        · exact Or.inr ⟨x.1, x.2, s, by simp, hs, h⟩
        · exact Or.inr ⟨k, sub, s', List.mem_cons_of_mem _ hm, h⟩
      · rintro (h | ⟨k, sub, s', hm, hl, h⟩)
        · exact Or.inl (Or.inl h)
        · rcases List.mem_cons.1 hm with rfl | hm
          · rw [uniq s' hl] at h; exact Or.inl (Or.inr h)
          · exact Or.inr ⟨k, sub, s', hm, hl, h⟩
    · have hg : Has st.glob bc ↔ Has g bc ∨ bc.name ∈ pieces s := (lineFold_facts hst).2.2 bc hbc
      rw [i3 bc hbc, hg]
      constructor
      · rintro ((h | h) | ⟨k, sub, s', hm, h⟩)
        · exact Or.inl h
        · exact Or.inr ⟨x.1, x.2, s, by simp, hs, h⟩
        · exact Or.inr ⟨k, sub, s', List.mem_cons_of_mem _ hm, h⟩
      · rintro (h | ⟨k, sub, s', hm, hl, h⟩)
        · exact Or.inl (Or.inl h)
        · rcases List.mem_cons.1 hm with rfl | hm
          · rw [uniq s' hl] at h; exact Or.inl (Or.inr h)
          · exact Or.inr ⟨k, sub, s', hm, hl, h⟩

/-- Lines that obey the rules are accepted. -/
theorem boundaryLoop_accepts (db : Tree) (th me : Bool) (cs : List (String × Tree)) (g : ℕ) (c : Bool)
    (hr : ∀ (k : String) (sub : Tree), (k, sub) ∈ cs → ∃ s, LineOf db k sub s ∧ LineRules (th = true) (me = true) s) :
    ∃ g' c', boundaryLoop db th me cs g c = some (g', c') := by
  induction cs generalizing g c with
  | nil => exact ⟨g, c, rfl⟩
  | cons x xs ih =>
    obtain ⟨s, hs, hl⟩ := hr x.1 x.2 (by simp)
    obtain ⟨st, hst, h1, h2⟩ := (checkLine_rules g th me s hl.insulated).2 hl
    obtain ⟨g', c', h⟩ := ih st.glob (c || decide (Has st.line .clamped)) (fun k sub hm => hr k sub (List.mem_cons_of_mem _ hm))
    refine ⟨g', c', ?_⟩
    simp only [boundaryLoop, Option.bind_eq_bind]
    rw [(lineOf_iff db x s).2 hs, Option.bind_some, hst, Option.bind_some]
    have a1 : (!th || st.thermal) = true := by cases th <;> simp_all
    have a2 : (!me || st.mechanical) = true := by cases me <;> simp_all
    rw [a1, a2]
    simpa [require] using h

/-- What the boundary section hands to the check of the materials. -/
def Reports (t : Tree) (bt : ℕ) : Prop :=
  (Has bt .convective ↔ SomeLine t "convective") ∧ (Has bt .radiative ↔ SomeLine t "radiative")

theorem someLine_iff {t db : Tree} (hdb : t.get? ["boundary"] = some db) (n : String) :
    (∃ (k : String) (sub : Tree) (s : String), (k, sub) ∈ db.children ∧ LineOf db k sub s ∧ n ∈ pieces s) ↔ SomeLine t n := by
  constructor
  · rintro ⟨k, sub, s, hm, hl, h⟩; exact ⟨s, ⟨db, hdb, k, sub, hm, hl⟩, h⟩
  · rintro ⟨s, ⟨db', hdb', k, sub, hm, hl⟩, h⟩
    rw [hdb] at hdb'
    cases hdb'
    exact ⟨k, sub, s, hm, hl, h⟩

theorem boundary_facts {t : Tree} {th me : Bool} {bt : ℕ} (h : validateBoundary t th me = some bt)
    (hmix : ∀ s, BoundaryLine t s → ¬ ("adiabatic" ∈ pieces s ∧ ("radiative" ∈ pieces s ∨ "convective" ∈ pieces s))) :
    (∃ db, t.get? ["boundary"] = some db ∧ ∀ (k : String) (sub : Tree), (k, sub) ∈ db.children → ∃ s, LineOf db k sub s) ∧
    (∀ s, BoundaryLine t s → LineRules (th = true) (me = true) s) ∧ (me = true → SomeLine t "clamped") ∧ Reports t bt := by
  unfold validateBoundary at h
  simp only [Option.bind_eq_bind, Option.bind_eq_some_iff] at h
  obtain ⟨db, hdb, ⟨g', c'⟩, hl, _, r, he⟩ := h
  have he : g' = bt := by simpa using he
  subst he
  have hm' : ∀ (k : String) (sub : Tree) (s : String), (k, sub) ∈ db.children → LineOf db k sub s →
      ¬ ("adiabatic" ∈ pieces s ∧ ("radiative" ∈ pieces s ∨ "convective" ∈ pieces s)) :=
    fun k sub s hm hs => hmix s ⟨db, hdb, k, sub, hm, hs⟩
  obtain ⟨a, g2, c2, hl2, -, hc, hb⟩ := (boundaryLoop_exact db th me db.children 0 false hm' (fun _ _ => True)).1 ⟨g', c', hl, trivial⟩
  rw [hl] at hl2
  obtain ⟨rfl, rfl⟩ : g' = g2 ∧ c' = c2 := by simpa using hl2
  have r := require_some r
  refine ⟨⟨db, hdb, fun k sub hm => ?_⟩, ?_, fun hme => ?_, ?_, ?_⟩
  · obtain ⟨s, hs, -⟩ := a k sub hm; exact ⟨s, hs⟩
  · rintro s ⟨db', hdb', k, sub, hm, hs⟩
    rw [hdb] at hdb'
    cases hdb'
    obtain ⟨s', hs', hr⟩ := a k sub hm
    have : s' = s := by
      rcases hs with ⟨x, y⟩ | ⟨x, y⟩ <;> rcases hs' with ⟨x', y'⟩ | ⟨x', y'⟩
      · rw [y, y']
      · exact absurd x x'
      · exact absurd x' x
      · rw [y] at y'; exact (Option.some.inj y').symm
    rw [← this]; exact hr
  · rw [hme] at r
    have : c' = true := by simpa using r
    rcases hc.1 this with h | h
    · cases h
    · exact (someLine_iff hdb _).1 h
  · rw [hb .convective (Or.inr rfl), ← someLine_iff hdb]
    exact or_iff_right (has_zero _)
  · rw [hb .radiative (Or.inl rfl), ← someLine_iff hdb]
    exact or_iff_right (has_zero _)

theorem boundary_accepts {t : Tree} {th me : Bool}
    (hl : ∃ db, t.get? ["boundary"] = some db ∧ ∀ (k : String) (sub : Tree), (k, sub) ∈ db.children → k ≠ "type" → ∃ s, db.str? [k, "type"] = some s)
    (he : ∀ s, BoundaryLine t s → LineRules (th = true) (me = true) s) (hh : me = true → SomeLine t "clamped") :
    ∃ bt, validateBoundary t th me = some bt := by
  obtain ⟨db, hdb, hl⟩ := hl
  have hr : ∀ (k : String) (sub : Tree), (k, sub) ∈ db.children → ∃ s, LineOf db k sub s ∧ LineRules (th = true) (me = true) s := by
    intro k sub hm
    by_cases hk : k = "type"
    · exact ⟨sub.data, Or.inl ⟨hk, rfl⟩, he _ ⟨db, hdb, k, sub, hm, Or.inl ⟨hk, rfl⟩⟩⟩
    · obtain ⟨s, hs⟩ := hl k sub hm hk
      exact ⟨s, Or.inr ⟨hk, hs⟩, he _ ⟨db, hdb, k, sub, hm, Or.inr ⟨hk, hs⟩⟩⟩
  obtain ⟨g', c', h⟩ := boundaryLoop_accepts db th me db.children 0 false hr
  have hm' : ∀ (k : String) (sub : Tree) (s : String), (k, sub) ∈ db.children → LineOf db k sub s →
      ¬ ("adiabatic" ∈ pieces s ∧ ("radiative" ∈ pieces s ∨ "convective" ∈ pieces s)) :=
    fun k sub s hm hs => (he s ⟨db, hdb, k, sub, hm, hs⟩).insulated
  obtain ⟨-, g2, c2, hl2, -, hc, -⟩ := (boundaryLoop_exact db th me db.children 0 false hm' (fun _ _ => True)).1 ⟨g', c', h, trivial⟩
  rw [h] at hl2
  obtain ⟨rfl, rfl⟩ : g' = g2 ∧ c' = c2 := by simpa using hl2
  refine ⟨g', ?_⟩
  unfold validateBoundary
  rw [hdb]
  simp only [Option.bind_eq_bind, Option.bind_some, h]
  have : (!me || c') = true := by
    cases hme : me with
    | false => rfl
    | true => simpa using hc.2 (Or.inr ((someLine_iff hdb _).2 (hh hme)))
  rw [this]
  rfl

/-! ## The other sections -/

theorem implies_iff (b h : Bool) : (!b || h) = true ↔ (b = true → h = true) := by cases b <;> simp

theorem deposition_iff (p : Parsers ℚ) (t : Tree) (dim : ℕ) (hd : getUInt p t ["geometry", "dim"] = some dim)
    (ho : On p t ["geometry", "material_deposition"] → t.str? ["geometry", "material_deposition_method"] ≠ some "file") (u : Unit) :
    validateDeposition p t dim = some u ↔ DepositionRules p t := by
  unfold validateDeposition DepositionRules
  by_cases hon : On p t ["geometry", "material_deposition"]
  · rw [if_pos ((getBoolD_on p t _).2 hon)]
    have ho := ho hon
    simp only [Option.bind_eq_bind, Option.bind_eq_some_iff, require_iff, hon, true_implies]
    refine exists_congr fun m => and_congr_right fun hm => ?_
    have hf : m ≠ "file" := fun e => ho (by rw [hm, e])
    simp only [hf, if_false, decide_false, Bool.false_or, decide_eq_true_eq, false_and, false_or, Option.bind_eq_some_iff, require_iff, implies_iff,
      hasChild_present, List.cons_append, List.nil_append, hd, Option.some.injEq]
    constructor
    · rintro ⟨_, hs, _, h1, _, h2, _, h3, h4⟩; exact ⟨hs, h1, h2, h3, h4⟩
    · rintro ⟨hs, h1, h2, h3, h4⟩; exact ⟨(), hs, (), h1, (), h2, (), h3, h4⟩
  · have : ¬ getBoolD p t ["geometry", "material_deposition"] false = true := fun e => hon ((getBoolD_on p t _).1 e)
    rw [if_neg this]
    simp [hon]

theorem powder_iff (p : Parsers ℚ) (t : Tree) (u : Unit) :
    validatePowder p t = some u ↔
      (On p t ["geometry", "use_powder"] → ∃ l : ℚ, getDbl p t ["geometry", "powder_layer"] = some l ∧ 0 ≤ l) := by
  unfold validatePowder
  by_cases hon : On p t ["geometry", "use_powder"]
  · rw [if_pos ((getBoolD_on p t _).2 hon)]
    simp [Option.bind_eq_some_iff, require_iff, hon]
  · have : ¬ getBoolD p t ["geometry", "use_powder"] false = true := fun e => hon ((getBoolD_on p t _).1 e)
    rw [if_neg this]
    simp [hon]

theorem mesh_iff (p : Parsers ℚ) (t : Tree) (dim : ℕ) (hd : getUInt p t ["geometry", "dim"] = some dim) (u : Unit) :
    validateMesh p t dim = some u ↔
      ((getBool p t ["geometry", "import_mesh"] = some true ∧ Present t ["geometry", "mesh_file"] ∧ Present t ["geometry", "mesh_format"]) ∨
       (getBool p t ["geometry", "import_mesh"] = some false ∧ Present t ["geometry", "length"] ∧ Present t ["geometry", "height"] ∧
        (getUInt p t ["geometry", "dim"] = some 3 → Present t ["geometry", "width"]))) := by
  unfold validateMesh
  simp only [Option.bind_eq_bind, Option.bind_eq_some_iff]
  cases himp : getBool p t ["geometry", "import_mesh"] with
  | none => simp
  | some b =>
    cases b
    · simp only [Option.some.injEq, exists_eq_left', Bool.false_eq_true, if_false, Option.bind_eq_some_iff, require_iff, hasChild_present, implies_iff,
        decide_eq_true_eq, List.cons_append, List.nil_append, hd, false_and, false_or, true_and]
      constructor
      · rintro ⟨_, a, _, b, c⟩; exact ⟨a, b, c⟩
      · rintro ⟨a, b, c⟩; exact ⟨(), a, (), b, c⟩
    · simp only [Option.some.injEq, exists_eq_left', if_true, Option.bind_eq_some_iff, require_iff, hasChild_present, List.cons_append,
        List.nil_append, Bool.true_eq_false, false_and, or_false, true_and]
      constructor
      · rintro ⟨_, a, b⟩; exact ⟨a, b⟩
      · rintro ⟨a, b⟩; exact ⟨(), a, b⟩

theorem geometry_iff (p : Parsers ℚ) (t : Tree)
    (ho : On p t ["geometry", "material_deposition"] → t.str? ["geometry", "material_deposition_method"] ≠ some "file") (dim : ℕ) :
    validateGeometry p t = some dim ↔ getUInt p t ["geometry", "dim"] = some dim ∧ GeometryRules p t := by
  unfold validateGeometry
  simp only [Option.bind_eq_bind, Option.bind_eq_some_iff, require_iff]
  constructor
  · rintro ⟨d, hd, _, h1, _, h2, _, h3, _, h4, he⟩
    obtain rfl : d = dim := by simpa using he
    refine ⟨hd, ?_, (powder_iff p t _).1 h2, (deposition_iff p t d hd ho _).1 h3, (mesh_iff p t d hd _).1 h4⟩
    rw [hd]
    simpa using h1
  · rintro ⟨hd, h1, h2, h3, h4⟩
    refine ⟨dim, hd, (), ?_, (), (powder_iff p t _).2 h2, (), (deposition_iff p t dim hd ho _).2 h3, (), (mesh_iff p t dim hd _).2 h4, rfl⟩
    rw [hd] at h1
    simpa using h1

theorem material_iff (p : Parsers ℚ) (t : Tree) (dim bt i : ℕ) (hd : getUInt p t ["geometry", "dim"] = some dim) (hb : Reports t bt) :
    validateMaterial t dim bt i = true ↔ MaterialRules p t ("material_" ++ toString i) := by
  unfold validateMaterial validateState
  simp only [materialKey, Bool.and_eq_true, List.all_eq_true, List.any_eq_true, implies_iff, hasChild_present, decide_eq_true_eq, hb.1, hb.2,
    List.cons_append, List.nil_append, stateNames]
  constructor
  · rintro ⟨⟨⟨⟨h1, h2⟩, h3⟩, h4⟩, h5⟩
    refine ⟨h1, h3, fun st hst hp => ?_, h4, h5⟩
    obtain ⟨⟨⟨⟨⟨⟨a, b⟩, c⟩, d⟩, e⟩, f⟩, g⟩ := h2 st hst hp
    refine ⟨fun k hk => ?_, fun h => e ?_, f, g⟩
    · simp only [List.mem_cons, List.not_mem_nil, or_false] at hk
      rcases hk with rfl | rfl | rfl | rfl
      exacts [a, b, c, d]
    · rw [hd] at h; exact Option.some.inj h
  · rintro ⟨h1, h3, h2, h4, h5⟩
    refine ⟨⟨⟨⟨h1, fun st hst hp => ?_⟩, h3⟩, h4⟩, h5⟩
    obtain ⟨a, e, f, g⟩ := h2 st hst hp
    exact ⟨⟨⟨⟨⟨⟨a _ (by simp), a _ (by simp)⟩, a _ (by simp)⟩, a _ (by simp)⟩, fun h => e (by rw [hd, h])⟩, f⟩, g⟩

theorem materials_iff (p : Parsers ℚ) (t : Tree) (dim bt : ℕ) (hd : getUInt p t ["geometry", "dim"] = some dim) (hb : Reports t bt) (u : Unit) :
    validateMaterials p t dim bt = some u ↔
      (t.str? ["materials", "property_format"] = some "table" ∨ t.str? ["materials", "property_format"] = some "polynomial") ∧
      ∃ n : ℕ, getUInt p t ["materials", "n_materials"] = some n ∧ ∀ i < n, MaterialRules p t ("material_" ++ toString i) := by
  unfold validateMaterials
  simp only [Option.bind_eq_bind, Option.bind_eq_some_iff, require_iff, List.all_eq_true, List.mem_range, material_iff p t dim bt _ hd hb]
  constructor
  · rintro ⟨n, hn, f, hf, _, h1, h2⟩
    simp only [Bool.or_eq_true, decide_eq_true_eq] at h1
    refine ⟨?_, n, hn, h2⟩
    rcases h1 with rfl | rfl
    · exact Or.inl hf
    · exact Or.inr hf
  · rintro ⟨h | h, n, hn, h2⟩
    · exact ⟨n, hn, "table", h, (), by simp, h2⟩
    · exact ⟨n, hn, "polynomial", h, (), by simp, h2⟩

theorem misc_iff (t : Tree) (u : Unit) :
    validateMisc t = some u ↔ (∀ m, t.str? ["memory_space"] = some m → m = "device" ∨ m = "host") ∧
      Present t ["post_processor", "filename_prefix"] ∧ Present t ["refinement"] := by
  have hr : (t.count "refinement" ≠ 0) ↔ Present t ["refinement"] := by
    rw [count_ne_zero]
    constructor
    · rintro ⟨c, hc⟩; exact ⟨c, by simp [Tree.get?, hc]⟩
    · rintro ⟨c, hc⟩
      simp only [Tree.get?, Option.bind_eq_some_iff] at hc
      obtain ⟨y, hy, -⟩ := hc
      exact ⟨y, hy⟩
  unfold validateMisc
  cases t.str? ["memory_space"] with
  | none =>
    simp only [Option.bind_eq_bind, Option.bind_eq_some_iff, require_iff, hasChild_present, decide_eq_true_eq, hr]
    constructor
    · rintro ⟨_, -, _, a, b⟩; exact ⟨by simp, a, b⟩
    · rintro ⟨-, a, b⟩; exact ⟨(), trivial, (), a, b⟩
  | some m =>
    simp only [Option.bind_eq_bind, Option.bind_eq_some_iff, require_iff, hasChild_present, decide_eq_true_eq, hr, Bool.or_eq_true]
    constructor
    · rintro ⟨_, h, _, a, b⟩; exact ⟨fun m' e => by cases e; exact h, a, b⟩
    · rintro ⟨h, a, b⟩; exact ⟨(), h m rfl, (), a, b⟩

theorem beam_iff (p : Parsers ℚ) (t : Tree) (i : ℕ) : (validateBeam p t i).isSome = true ↔ BeamRules p t ("beam_" ++ toString i) := by
  rw [Option.isSome_iff_exists]
  unfold validateBeam
  simp only [Option.bind_eq_bind, Option.bind_eq_some_iff, require_iff, hasChild_present, beamKey, Bool.or_eq_true, Bool.and_eq_true, decide_eq_true_eq,
    iequals_iff, List.cons_append, List.nil_append]
  constructor
  · rintro ⟨_, ty, h1, _, h2, _, h3, f, h4, _, h5, d, h6, _, h7, a, h8, h9⟩
    refine ⟨⟨ty, h1, ?_⟩, h3, ⟨f, h4, ?_⟩, ⟨d, h6, h7⟩, ⟨a, h8, h9⟩⟩
    · simpa [OneOf, or_assoc] using h2
    · simpa [OneOf] using h5
  · rintro ⟨⟨ty, h1, h2⟩, h3, ⟨f, h4, h5⟩, ⟨d, h6, h7⟩, ⟨a, h8, h9⟩⟩
    refine ⟨(), ty, h1, (), ?_, (), h3, f, h4, (), ?_, d, h6, (), h7, a, h8, h9⟩
    · simpa [OneOf, or_assoc] using h2
    · simpa [OneOf] using h5

theorem sources_iff (p : Parsers ℚ) (t : Tree) (u : Unit) :
    validateSources p t = some u ↔ ∃ n : ℕ, getUInt p t ["sources", "n_beams"] = some n ∧ ∀ i < n, BeamRules p t ("beam_" ++ toString i) := by
  unfold validateSources
  simp only [Option.bind_eq_bind, Option.bind_eq_some_iff, require_iff, List.all_eq_true, List.mem_range, beam_iff]

theorem time_iff (p : Parsers ℚ) (t : Tree) (ho : ¬ On p t ["time", "scan_path_for_duration"]) (u : Unit) :
    validateTime p t = some u ↔
      (∃ m, t.str? ["time_stepping", "method"] = some m ∧ OneOf m ["forward_euler", "rk_third_order", "rk_fourth_order"]) ∧
      ∃ s : ℚ, getDbl p t ["time_stepping", "time_step"] = some s ∧ 0 ≤ s := by
  have hn : ¬ getBoolD p t ["time", "scan_path_for_duration"] false = true := fun e => ho ((getBoolD_on p t _).1 e)
  unfold validateTime
  rw [if_neg hn]
  simp only [Option.bind_eq_bind, Option.bind_eq_some_iff, require_iff, Bool.or_eq_true, decide_eq_true_eq, iequals_iff, OneOf, List.mem_cons,
    List.not_mem_nil, or_false, exists_eq_or_imp, exists_eq_left, or_assoc]
  constructor
  · rintro ⟨m, h1, _, h2, h⟩
    exact ⟨⟨m, h1, h2⟩, h⟩
  · rintro ⟨⟨m, h1, h2⟩, h⟩
    exact ⟨m, h1, (), h2, h⟩

theorem experiment_iff (p : Parsers ℚ) (t : Tree) (u : Unit) :
    validateExperiment p t = some u ↔ (On p t ["experiment", "read_in_experimental_data"] → ExperimentRules p t) := by
  unfold validateExperiment
  cases hx : t.get? ["experiment"] with
  | none =>
    have : ¬ On p t ["experiment", "read_in_experimental_data"] := by
      intro h
      have : t.str? ["experiment", "read_in_experimental_data"] = none := by
        simp only [Tree.str?, Tree.get?] at hx ⊢
        cases hc : t.child? "experiment" with
        | none => simp
        | some c => simp [hc] at hx
      simp [On, getBool, this] at h
    simp [this]
  | some c =>
    by_cases hon : On p t ["experiment", "read_in_experimental_data"]
    · simp only [(getBoolD_on p t _).2 hon, if_true, hon, true_implies]
      simp only [Option.bind_eq_bind, Option.bind_eq_some_iff, require_iff, hasChild_present, Bool.or_eq_true, decide_eq_true_eq, iequals_iff,
        List.cons_append, List.nil_append]
      constructor
      · rintro ⟨_, h1, _, h2, f, h3, _, h4, last, h5, _, h6, fc, h7, lc, h8, _, h9, h10⟩
        refine ⟨⟨h1, h10⟩, ⟨f, h3, by simpa [OneOf] using h4⟩, ⟨last, h5, fun first hf => ?_⟩, ⟨fc, lc, h7, h8, h9⟩⟩
        rw [hf] at h6
        exact h6
      · rintro ⟨⟨h1, h10⟩, ⟨f, h3, h4⟩, ⟨last, h5, h6⟩, ⟨fc, lc, h7, h8, h9⟩⟩
        refine ⟨(), h1, (), ?_, f, h3, (), by simpa [OneOf] using h4, last, h5, (), ?_, fc, h7, lc, h8, (), h9, h10⟩
        · unfold getUInt at h5
          rw [Option.bind_eq_some_iff] at h5
          obtain ⟨s, hs, -⟩ := h5
          exact present_of_str hs
        · cases hf : getUInt p t ["experiment", "first_frame"] with
          | none => simp
          | some first => exact h6 first hf
    · have : ¬ getBoolD p t ["experiment", "read_in_experimental_data"] false = true := fun e => hon ((getBoolD_on p t _).1 e)
      simp [this, hon]

theorem assimilation_iff (p : Parsers ℚ) (t : Tree) (u : Unit) :
    validateAssimilation p t = some u ↔
      (∀ c : ℚ, getDbl p t ["data_assimilation", "convergence_tolerance"] = some c → 0 ≤ c) ∧
      Optional t ["data_assimilation", "localization_cutoff_function"] ["gaspari_cohn", "step_function", "none"] := by
  have hcut : (iequals ((t.str? ["data_assimilation", "localization_cutoff_function"]).getD "none") "gaspari_cohn" ||
      iequals ((t.str? ["data_assimilation", "localization_cutoff_function"]).getD "none") "step_function" ||
      iequals ((t.str? ["data_assimilation", "localization_cutoff_function"]).getD "none") "none") = true ↔
      Optional t ["data_assimilation", "localization_cutoff_function"] ["gaspari_cohn", "step_function", "none"] := by
    unfold Optional
    cases t.str? ["data_assimilation", "localization_cutoff_function"] with
    | none =>
      have : iequals "none" "none" = true := by decide
      simp [this]
    | some f => simp [iequals_iff, OneOf, or_assoc]
  unfold validateAssimilation
  cases getDbl p t ["data_assimilation", "convergence_tolerance"] with
  | none =>
    simp only [Option.bind_eq_bind, Option.bind_eq_some_iff, require_iff, hcut]
    constructor
    · rintro ⟨_, -, h⟩; exact ⟨by simp, h⟩
    · rintro ⟨-, h⟩; exact ⟨(), trivial, h⟩
  | some c =>
    simp only [Option.bind_eq_bind, Option.bind_eq_some_iff, require_iff, hcut, decide_eq_true_eq]
    constructor
    · rintro ⟨_, a, h⟩; exact ⟨fun c' e => by cases e; exact a, h⟩
    · rintro ⟨a, h⟩; exact ⟨(), a c rfl, h⟩

theorem units_iff (t : Tree) (u : Unit) :
    validateUnits t = some u ↔
      Optional t ["units", "mesh"] ["millimeter", "centimeter", "inch", "meter"] ∧
      Optional t ["units", "heat_source", "power"] ["milliwatt", "watt"] ∧
      Optional t ["units", "heat_source", "velocity"] ["millimeter/second", "centimeter/second", "meter/second"] ∧
      Optional t ["units", "heat_source", "dimension"] ["millimeter", "centimeter", "inch", "meter"] ∧
      Optional t ["units", "heat_source", "scan_path"] ["millimeter", "centimeter", "inch", "meter"] := by
  unfold validateUnits lengthUnits powerUnits velocityUnits
  simp only [Option.bind_eq_bind, Option.bind_eq_some_iff, unitOk_iff]
  constructor
  · rintro ⟨_, a, _, b, _, c, _, d, e⟩; exact ⟨a, b, c, d, e⟩
  · rintro ⟨a, b, c, d, e⟩; exact ⟨(), a, (), b, (), c, (), d, e⟩

theorem discretization_iff (p : Parsers ℚ) (t : Tree) (th : Bool) (hth : getBool p t ["physics", "thermal"] = some th) (u : Unit) :
    validateDiscretization p t th = some u ↔
      (On p t ["physics", "thermal"] → ∃ d : ℕ, getUInt p t ["discretization", "thermal", "fe_degree"] = some d ∧ 1 ≤ d ∧ d ≤ 5) ∧
      (On p t ["physics", "thermal"] → Optional t ["discretization", "thermal", "quadrature"] ["gauss", "lobatto"]) := by
  unfold validateDiscretization On
  rw [hth]
  cases th with
  | false => simp
  | true =>
    simp only [if_true, true_implies]
    have hq : (match t.str? ["discretization", "thermal", "quadrature"] with
        | none => some ()
        | some q => require (iequals q "gauss" || iequals q "lobatto")) = some u ↔
        Optional t ["discretization", "thermal", "quadrature"] ["gauss", "lobatto"] := by
      unfold Optional
      cases t.str? ["discretization", "thermal", "quadrature"] with
      | none => simp
      | some q => simp only [require_iff]; simp [iequals_iff, OneOf]
    simp only [Option.bind_eq_bind, Option.bind_eq_some_iff, require_iff, Bool.and_eq_true, decide_eq_true_eq]
    constructor
    · rintro ⟨d, h1, _, h2, h3⟩; exact ⟨⟨d, h1, by omega⟩, hq.1 h3⟩
    · rintro ⟨⟨d, h1, h2⟩, h3⟩; exact ⟨d, h1, (), by omega, hq.2 h3⟩

theorem physics_iff (p : Parsers ℚ) (t : Tree) (th me : Bool) :
    validatePhysics p t = some (th, me) ↔
      getBool p t ["physics", "thermal"] = some th ∧ getBool p t ["physics", "mechanical"] = some me ∧ (th = true ∨ me = true) := by
  refine ⟨validatePhysics_some, ?_⟩
  rintro ⟨h1, h2, h3⟩
  unfold validatePhysics
  rw [h1, h2]
  rcases h3 with rfl | rfl
  · cases me <;> rfl
  · cases th <;> rfl

/-! ## The theorem -/

/-- **C121.**  On ordinary inputs the validator accepts exactly the inputs that obey the rules: a wrong entry is never accepted, and a correct input is
never rejected. -/
theorem C121_exact_partial (p : Parsers ℚ) (t : Tree) (ho : Ordinary p t) : Accepted p t ↔ Rules p t := by
  constructor
  · intro h
    obtain ⟨th, me, bt, dim, s1, s2, s3, s4, s5, s6, s7, s8, s9, s10, s11⟩ := h.sections
    obtain ⟨a1, a2, a3⟩ := (physics_iff p t th me).1 s1
    have e1 : On p t ["physics", "thermal"] = (th = true) := by unfold On; rw [a1]; simp
    have e2 : On p t ["physics", "mechanical"] = (me = true) := by unfold On; rw [a2]; simp
    obtain ⟨b1, b2, b3, b4⟩ := boundary_facts s2 ho.lines
    obtain ⟨c1, c2⟩ := (discretization_iff p t th a1 ()).1 s3
    obtain ⟨d1, d2⟩ := (geometry_iff p t ho.deposition dim).1 s4
    obtain ⟨f1, f2⟩ := (materials_iff p t dim bt d1 b4 ()).1 s5
    obtain ⟨g1, g2, g3⟩ := (misc_iff t ()).1 s6
    obtain ⟨i1, i2⟩ := (time_iff p t ho.time ()).1 s8
    obtain ⟨k1, k2⟩ := (assimilation_iff p t ()).1 s10
    obtain ⟨u1, u2, u3, u4, u5⟩ := (units_iff t ()).1 s11
    refine ⟨⟨th, me, a1, a2, a3⟩, ⟨?_, by rw [e1, e2]; exact b2, by rw [e2]; exact b3⟩, c1, c2, d2, f1, f2, g1, g2, g3, (sources_iff p t ()).1 s7,
      i1, i2, (experiment_iff p t ()).1 s9, k1, k2, u1, u2, u3, u4, u5⟩
    obtain ⟨db, hdb, hl⟩ := b1
    refine ⟨db, hdb, fun k sub hm hk => ?_⟩
    obtain ⟨s, hs⟩ := hl k sub hm
    rcases hs with ⟨h, -⟩ | ⟨-, h⟩
    · exact absurd h hk
    · exact ⟨s, h⟩
  · intro h
    obtain ⟨th, me, a1, a2, a3⟩ := h.physics
    have e1 : On p t ["physics", "thermal"] = (th = true) := by unfold On; rw [a1]; simp
    have e2 : On p t ["physics", "mechanical"] = (me = true) := by unfold On; rw [a2]; simp
    have he := h.boundary.each
    have hh := h.boundary.held
    rw [e1, e2] at he
    rw [e2] at hh
    obtain ⟨bt, hbt⟩ := boundary_accepts h.boundary.lines he hh
    obtain ⟨-, -, -, b4⟩ := boundary_facts hbt ho.lines
    obtain ⟨dim, hd⟩ : ∃ dim, getUInt p t ["geometry", "dim"] = some dim := by
      rcases h.geometry.dim with h | h
      · exact ⟨2, h⟩
      · exact ⟨3, h⟩
    unfold Accepted validate
    rw [(physics_iff p t th me).2 ⟨a1, a2, a3⟩]
    simp only [Option.bind_eq_bind, Option.bind_some]
    rw [hbt, Option.bind_some, (discretization_iff p t th a1 ()).2 ⟨h.degree, h.quadrature⟩, Option.bind_some,
      (geometry_iff p t ho.deposition dim).2 ⟨hd, h.geometry⟩, Option.bind_some,
      (materials_iff p t dim bt hd b4 ()).2 ⟨h.format, h.materials⟩, Option.bind_some,
      (misc_iff t ()).2 ⟨h.memory, h.output, h.refinement⟩, Option.bind_some, (sources_iff p t ()).2 h.beams, Option.bind_some,
      (time_iff p t ho.time ()).2 ⟨h.method, h.timeStep⟩, Option.bind_some, (experiment_iff p t ()).2 h.experiment, Option.bind_some,
      (assimilation_iff p t ()).2 ⟨h.tolerance, h.cutoff⟩, Option.bind_some]
    exact (units_iff t ()).2 ⟨h.unitsMesh, h.unitsPower, h.unitsVelocity, h.unitsDimension, h.unitsPath⟩

/-- An input whose boundary has a line of two conditions, for the default line and for one boundary, and a material with the entries they need. -/
def exBoundary (line : String) : Tree := .node "" ([("physics", .node "" [("thermal", leaf "true"), ("mechanical", leaf "true")]),
   ("boundary", .node "" [("type", leaf line), ("boundary_4", .node "" [("type", leaf "adiabatic,clamped")])]),
   ("materials", .node "" [("n_materials", leaf "1"), ("property_format", leaf "table"), ("material_0", .node "" [
      ("radiation_temperature_infty", leaf "300"), ("solid", .node "" [("density", leaf "1"), ("specific_heat", leaf "1"),
      ("thermal_conductivity_x", leaf "1"), ("thermal_conductivity_z", leaf "1"), ("emissivity", leaf "1")])])])] ++ (exTree {}).children.drop 2)

theorem exBoundary_lines {line s : String} (h : BoundaryLine (exBoundary line) s) : s = line ∨ s = "adiabatic,clamped" := by
  obtain ⟨db, hdb, k, sub, hm, hl⟩ := h
  have e : (exBoundary line).get? ["boundary"] = some (.node "" [("type", leaf line), ("boundary_4", .node "" [("type", leaf "adiabatic,clamped")])]) := rfl
  rw [e] at hdb
  obtain rfl := Option.some.inj hdb
  simp only [Tree.children, List.mem_cons, Prod.mk.injEq, List.not_mem_nil, or_false] at hm
  rcases hm with ⟨rfl, rfl⟩ | ⟨rfl, rfl⟩
  · rcases hl with ⟨-, rfl⟩ | ⟨hh, -⟩
    · exact Or.inl rfl
    · exact absurd rfl hh
  · rcases hl with ⟨hh, -⟩ | ⟨-, hh⟩
    · exact absurd hh (by decide)
    · exact Or.inr (Option.some.inj hh).symm

/-- **C121 refuted without the restriction.**  The validator accepts an input whose boundary is `radiative` and `adiabatic` at once, and rejects an
input that is accepted without deposition when the deposition from a file that the rules allow is added. -/
theorem C121_everywhere_refuted :
    (Accepted exParsers (exBoundary "radiative,adiabatic,clamped") ∧ ¬ Rules exParsers (exBoundary "radiative,adiabatic,clamped")) ∧
    (Accepted exParsers (exTree {}) ∧ ¬ Accepted exParsers (exTree depositionInput) ∧ DepositionRules exParsers (exTree depositionInput)) := by
  refine ⟨⟨by decide +kernel, fun h => ?_⟩, by decide +kernel, by decide +kernel, fun _ => ⟨"file", by decide +kernel, Or.inl ⟨rfl, ?_⟩⟩⟩
  · have hl : BoundaryLine (exBoundary "radiative,adiabatic,clamped") "radiative,adiabatic,clamped" :=
      ⟨_, rfl, "type", leaf "radiative,adiabatic,clamped", by simp [Tree.children], Or.inl ⟨rfl, rfl⟩⟩
    exact (h.boundary.each _ hl).insulated (by decide)
  · exact ⟨leaf "boxes.txt", rfl⟩

set_option maxRecDepth 20000 in
/-- Non-vacuity of C121: an ordinary input with thermal and mechanical physics, two boundary lines, radiation and the table format is accepted, hence
obeys the rules; the same input with `clamped,traction_free` is ordinary and is rejected, hence violates them. -/
example : Rules exParsers (exBoundary "radiative,traction_free") ∧ ¬ Rules exParsers (exBoundary "radiative,clamped,traction_free") := by
  have ord : ∀ line, ¬ ("adiabatic" ∈ pieces line ∧ ("radiative" ∈ pieces line ∨ "convective" ∈ pieces line)) →
      Ordinary exParsers (exBoundary line) := fun line hl => by
    refine ⟨fun s hs => ?_, fun h => ?_, fun h => ?_⟩
    · rcases exBoundary_lines hs with rfl | rfl
      · exact hl
      · decide
    · have : getBool exParsers (exBoundary line) ["geometry", "material_deposition"] = none := rfl
      rw [On, this] at h; cases h
    · have : getBool exParsers (exBoundary line) ["time", "scan_path_for_duration"] = none := rfl
      rw [On, this] at h; cases h
  constructor
  · exact (C121_exact_partial _ _ (ord _ (by decide))).1 (by decide +kernel)
  · exact fun h => absurd ((C121_exact_partial _ _ (ord _ (by decide))).2 h) (by decide +kernel)

end Verif.Input
