import Verif.Input.Start

/-!
# C92: accepted inputs contain the entries that the enabled features need

Theorems about `validate_input_database` (model in `Validate.lean`, `source/validate_input_database.cc:66-520`).  "Present" is stated with
`Tree.get?`, the lookup of a path.
-/

namespace Verif.Input

/-- `s` is a line of the boundary section: the default line `boundary.type`, or the line `boundary.<k>.type` of a subsection. -/
def BoundaryLine (t : Tree) (s : String) : Prop :=
  ∃ db, t.get? ["boundary"] = some db ∧ ∃ (k : String) (sub : Tree), (k, sub) ∈ db.children
    ∧ ((k = "type" ∧ s = sub.data) ∨ (k ≠ "type" ∧ db.str? [k, "type"] = some s))

/-- The input has an entry at the path. -/
def Present (t : Tree) (path : List String) : Prop := ∃ sub, t.get? path = some sub

/-! ## Lookup -/

theorem get?_append (t : Tree) (a b : List String) : t.get? (a ++ b) = (t.get? a).bind fun c => c.get? b := by
  induction a generalizing t with
  | nil => simp [Tree.get?]
  | cons k ks ih =>
    simp only [List.cons_append, Tree.get?]
    cases h : t.child? k with
    | none => simp
    | some c => simp [ih]

theorem count_ne_zero (t : Tree) (k : String) : t.count k ≠ 0 ↔ ∃ c, t.child? k = some c := by
  unfold Tree.count Tree.child?
  constructor
  · intro h
    have h1 : (t.children.filter fun c => decide (c.1 = k)) ≠ [] := fun e => h (by rw [e]; rfl)
    obtain ⟨x, hx⟩ := List.exists_mem_of_ne_nil _ h1
    rw [List.mem_filter] at hx
    obtain ⟨y, hy⟩ : ∃ y, t.children.find? (fun c => decide (c.1 = k)) = some y := by
      rw [← Option.isSome_iff_exists, List.find?_isSome]
      exact ⟨x, hx.1, hx.2⟩
    exact ⟨y.2, by rw [hy]; rfl⟩
  · rintro ⟨c, hc⟩ h0
    rw [Option.map_eq_some_iff] at hc
    obtain ⟨x, hx, -⟩ := hc
    have h1 := List.mem_of_find?_eq_some hx
    have h2 := List.find?_some hx
    have : x ∈ t.children.filter fun c => decide (c.1 = k) := List.mem_filter.2 ⟨h1, h2⟩
    rw [List.length_eq_zero_iff.1 h0] at this
    cases this

theorem hasChild_present (t : Tree) (path : List String) (k : String) : hasChild t path k = true ↔ Present t (path ++ [k]) := by
  unfold hasChild Present
  rw [get?_append]
  cases h : t.get? path with
  | none => simp
  | some c =>
    simp only [Option.bind_some, decide_eq_true_eq, count_ne_zero, Tree.get?]
    constructor
    · rintro ⟨x, hx⟩; exact ⟨x, by simp [hx]⟩
    · rintro ⟨x, hx⟩
      rw [Option.bind_eq_some_iff] at hx
      obtain ⟨y, hy, -⟩ := hx
      exact ⟨y, hy⟩

/-! ## The boundary section -/

theorem lineFold_facts {st st' : LineState} {ns : List String} (h : lineFold st ns = some st') :
    (st'.thermal = true → st.thermal = true ∨ ∃ n ∈ ns, n = "adiabatic" ∨ n = "radiative" ∨ n = "convective") ∧
    (st'.mechanical = true → st.mechanical = true ∨ ∃ n ∈ ns, n = "clamped" ∨ n = "traction_free") ∧
    (∀ bc : BC, (bc = .radiative ∨ bc = .convective) → (Has st'.glob bc ↔ Has st.glob bc ∨ bc.name ∈ ns)) := by
  induction ns generalizing st with
  | nil =>
    simp [lineFold] at h
    subst h
    simp
  | cons b bs ih =>
    simp only [lineFold, Option.bind_eq_some_iff] at h
    obtain ⟨s1, h1, h2⟩ := h
    obtain ⟨c, rfl, -, ht, hm, -, -, -, -, hg⟩ := lineStep_line h1
    obtain ⟨i1, i2, i3⟩ := ih h2
    refine ⟨fun hh => ?_, fun hh => ?_, fun bc hbc => ?_⟩
    · rcases i1 hh with h | ⟨n, hn, h⟩
      · rw [ht] at h
        simp only [Bool.or_eq_true, decide_eq_true_eq] at h
        rcases h with h | h
        · exact Or.inl h
        · refine Or.inr ⟨c.name, by simp, ?_⟩
          rcases h with rfl | rfl | rfl <;> simp [BC.name]
      · exact Or.inr ⟨n, by simp [hn], h⟩
    · rcases i2 hh with h | ⟨n, hn, h⟩
      · rw [hm] at h
        simp only [Bool.or_eq_true, decide_eq_true_eq] at h
        rcases h with h | h
        · exact Or.inl h
        · refine Or.inr ⟨c.name, by simp, ?_⟩
          rcases h with rfl | rfl <;> simp [BC.name]
      · exact Or.inr ⟨n, by simp [hn], h⟩
    · rw [i3 bc hbc, hg, has_or]
      have key : Has (if c = .radiative ∨ c = .convective then c.bit else 0) bc ↔ bc.name = c.name := by
        by_cases hc : c = .radiative ∨ c = .convective
        · rw [if_pos hc, has_bit]
          exact ⟨fun h => by rw [h], fun h => (BC.name_injective h).symm⟩
        · rw [if_neg hc]
          constructor
          · intro h; exact absurd h (has_zero _)
          · intro h
            have := BC.name_injective h
            subst this
            exact absurd hbc hc
      rw [key, List.mem_cons, or_assoc]

theorem boundaryLoop_facts {db : Tree} {th me : Bool} {cs : List (String × Tree)} {g g' : ℕ} {c c' : Bool}
    (h : boundaryLoop db th me cs g c = some (g', c')) :
    (∀ bc : BC, (bc = .radiative ∨ bc = .convective) → Has g bc → Has g' bc) ∧
    ∀ (k : String) (sub : Tree) (s : String), (k, sub) ∈ cs →
      ((k = "type" ∧ s = sub.data) ∨ (k ≠ "type" ∧ db.str? [k, "type"] = some s)) →
      (th = true → ∃ n ∈ pieces s, n = "adiabatic" ∨ n = "radiative" ∨ n = "convective") ∧
      (me = true → ∃ n ∈ pieces s, n = "clamped" ∨ n = "traction_free") ∧
      (∀ bc : BC, (bc = .radiative ∨ bc = .convective) → bc.name ∈ pieces s → Has g' bc) := by
  induction cs generalizing g c with
  | nil => simp [boundaryLoop] at h; obtain ⟨rfl, rfl⟩ := h; simp
  | cons x xs ih =>
    simp only [boundaryLoop, Option.bind_eq_bind, Option.bind_eq_some_iff] at h
    obtain ⟨s0, hs0, st, hst, _, r1, _, r2, h⟩ := h
    have r1 := require_some r1
    have r2 := require_some r2
    obtain ⟨i1, i2⟩ := ih h
    obtain ⟨l1, l2, l3⟩ := lineFold_facts hst
    have hmono : ∀ bc : BC, (bc = .radiative ∨ bc = .convective) → Has g bc → Has g' bc := fun bc hbc hb =>
      i1 bc hbc ((l3 bc hbc).2 (Or.inl hb))
    refine ⟨hmono, fun k sub s hm hk => ?_⟩
    rcases List.mem_cons.1 hm with rfl | hm
    · have hs : s0 = s := by
        rcases hk with ⟨hk, rfl⟩ | ⟨hk, hk'⟩
        · simp [hk] at hs0; exact hs0.symm
        · simp only [hk, if_false] at hs0
          rw [hk'] at hs0
          simpa using hs0.symm
      subst hs
      refine ⟨fun hth => ?_, fun hme => ?_, fun bc hbc hn => i1 bc hbc ((l3 bc hbc).2 (Or.inr hn))⟩
      · simp [hth] at r1
        rcases l1 r1 with h | h
        · simp at h
        · exact h
      · simp [hme] at r2
        rcases l2 r2 with h | h
        · simp at h
        · exact h
    · exact i2 k sub s hm hk

/-- **C92 (boundary lines).**  In an accepted thermal input every line of the boundary section names a thermal condition, and in an accepted
mechanical input every line names a mechanical one. -/
theorem C92_boundary_lines (p : Parsers ℚ) (t : Tree) (h : Accepted p t) (s : String) (hs : BoundaryLine t s) :
    (getBool p t ["physics", "thermal"] = some true → ∃ n ∈ pieces s, n = "adiabatic" ∨ n = "radiative" ∨ n = "convective") ∧
    (getBool p t ["physics", "mechanical"] = some true → ∃ n ∈ pieces s, n = "clamped" ∨ n = "traction_free") := by
  obtain ⟨th, me, bt, dim, hp, hb, -⟩ := h.sections
  obtain ⟨a, b, -⟩ := validatePhysics_some hp
  unfold validateBoundary at hb
  simp only [Option.bind_eq_bind, Option.bind_eq_some_iff] at hb
  obtain ⟨db, hdb, ⟨g', c'⟩, hl, -⟩ := hb
  obtain ⟨db', hdb', k, sub, hm, hk⟩ := hs
  rw [hdb] at hdb'
  cases hdb'
  obtain ⟨f1, f2, -⟩ := (boundaryLoop_facts hl).2 k sub s hm hk
  refine ⟨fun hh => f1 ?_, fun hh => f2 ?_⟩
  · rw [hh] at a; simpa using a.symm
  · rw [hh] at b; simpa using b.symm

/-! ## The materials -/

theorem accepted_material {p : Parsers ℚ} {t : Tree} (h : Accepted p t) {n i : ℕ}
    (hn : getUInt p t ["materials", "n_materials"] = some n) (hi : i < n) :
    ∃ dim bt : ℕ, getUInt p t ["geometry", "dim"] = some dim ∧ validateMaterial t dim bt i = true ∧
      (∀ bc : BC, (bc = .radiative ∨ bc = .convective) → ∀ s, BoundaryLine t s → bc.name ∈ pieces s → Has bt bc) := by
  obtain ⟨th, me, bt, dim, hp, hb, -, hg, hm, -⟩ := h.sections
  refine ⟨dim, bt, ?_, ?_, ?_⟩
  · unfold validateGeometry at hg
    simp only [Option.bind_eq_bind, Option.bind_eq_some_iff] at hg
    obtain ⟨d, hd, _, -, _, -, _, -, _, -, he⟩ := hg
    simp at he
    rw [← he]; exact hd
  · unfold validateMaterials at hm
    simp only [Option.bind_eq_bind, Option.bind_eq_some_iff] at hm
    obtain ⟨m, hm, f, -, _, -, r⟩ := hm
    rw [hn] at hm
    cases hm
    have r := require_some r
    rw [List.all_eq_true] at r
    exact r i (by simpa using hi)
  · intro bc hbc s hs hname
    unfold validateBoundary at hb
    simp only [Option.bind_eq_bind, Option.bind_eq_some_iff] at hb
    obtain ⟨db, hdb, ⟨g', c'⟩, hl, _, -, he⟩ := hb
    simp at he
    subst he
    obtain ⟨db', hdb', k, sub, hmem, hk⟩ := hs
    rw [hdb] at hdb'
    cases hdb'
    exact ((boundaryLoop_facts hl).2 k sub s hmem hk).2.2 bc hbc hname

theorem not_or_present {b : Bool} {t : Tree} {path : List String} {k : String} (h : (!b || hasChild t path k) = true) (hb : b = true) :
    Present t (path ++ [k]) := by
  rw [hb] at h
  exact (hasChild_present t path k).1 (by simpa using h)

/-- **C92 (materials).**  In an accepted input with `n` materials, every material `material_i`, `i < n`, is present and has a state; every state it has
comes with a density, a specific heat, the conductivities x and z, and in three dimensions the conductivity y. -/
theorem C92_materials (p : Parsers ℚ) (t : Tree) (h : Accepted p t) (n i : ℕ)
    (hn : getUInt p t ["materials", "n_materials"] = some n) (hi : i < n) :
    Present t ["materials", "material_" ++ toString i] ∧
    (∃ st ∈ ["solid", "liquid", "powder"], Present t ["materials", "material_" ++ toString i, st]) ∧
    ∀ st ∈ ["solid", "liquid", "powder"], Present t ["materials", "material_" ++ toString i, st] →
      Present t ["materials", "material_" ++ toString i, st, "density"] ∧
      Present t ["materials", "material_" ++ toString i, st, "specific_heat"] ∧
      Present t ["materials", "material_" ++ toString i, st, "thermal_conductivity_x"] ∧
      Present t ["materials", "material_" ++ toString i, st, "thermal_conductivity_z"] ∧
      (getUInt p t ["geometry", "dim"] = some 3 → Present t ["materials", "material_" ++ toString i, st, "thermal_conductivity_y"]) := by
  obtain ⟨dim, bt, hd, hm, -⟩ := accepted_material h hn hi
  simp only [validateMaterial, Bool.and_eq_true] at hm
  obtain ⟨⟨⟨⟨m1, m2⟩, m3⟩, -⟩, -⟩ := hm
  refine ⟨(hasChild_present t _ _).1 m1, ?_, fun st hst hp => ?_⟩
  · rw [List.any_eq_true] at m3
    obtain ⟨st, hst, hh⟩ := m3
    exact ⟨st, hst, (hasChild_present t _ _).1 hh⟩
  · rw [List.all_eq_true] at m2
    have := m2 st hst
    rw [(hasChild_present t ["materials", materialKey i] st).2 hp] at this
    simp only [Bool.not_true, Bool.false_or, validateState, Bool.and_eq_true] at this
    obtain ⟨⟨⟨⟨⟨⟨s1, s2⟩, s3⟩, s4⟩, s5⟩, -⟩, -⟩ := this
    refine ⟨(hasChild_present t _ _).1 s1, (hasChild_present t _ _).1 s2, (hasChild_present t _ _).1 s3, (hasChild_present t _ _).1 s4, fun h3 => ?_⟩
    rw [h3] at hd
    cases hd
    exact not_or_present s5 (by simp)

/-- **C92 (convection).**  If some line of the boundary section of an accepted input names `convective`, every material has the ambient temperature of
convection and every state of every material has a convection coefficient. -/
theorem C92_convective (p : Parsers ℚ) (t : Tree) (h : Accepted p t) (s : String) (hs : BoundaryLine t s) (hc : "convective" ∈ pieces s)
    (n i : ℕ) (hn : getUInt p t ["materials", "n_materials"] = some n) (hi : i < n) :
    Present t ["materials", "material_" ++ toString i, "convection_temperature_infty"] ∧
    ∀ st ∈ ["solid", "liquid", "powder"], Present t ["materials", "material_" ++ toString i, st] →
      Present t ["materials", "material_" ++ toString i, st, "convection_heat_transfer_coef"] := by
  obtain ⟨dim, bt, hd, hm, hb⟩ := accepted_material h hn hi
  have hbt : Has bt .convective := hb .convective (Or.inr rfl) s hs hc
  simp only [validateMaterial, Bool.and_eq_true] at hm
  obtain ⟨⟨⟨⟨-, m2⟩, -⟩, m4⟩, -⟩ := hm
  refine ⟨not_or_present m4 (decide_eq_true hbt), fun st hst hp => ?_⟩
  rw [List.all_eq_true] at m2
  have := m2 st hst
  rw [(hasChild_present t ["materials", materialKey i] st).2 hp] at this
  simp only [Bool.not_true, Bool.false_or, validateState, Bool.and_eq_true] at this
  exact not_or_present this.1.2 (decide_eq_true hbt)

/-- **C92 (radiation).**  If some line names `radiative`, every material has the ambient temperature of radiation and every state an emissivity. -/
theorem C92_radiative (p : Parsers ℚ) (t : Tree) (h : Accepted p t) (s : String) (hs : BoundaryLine t s) (hc : "radiative" ∈ pieces s)
    (n i : ℕ) (hn : getUInt p t ["materials", "n_materials"] = some n) (hi : i < n) :
    Present t ["materials", "material_" ++ toString i, "radiation_temperature_infty"] ∧
    ∀ st ∈ ["solid", "liquid", "powder"], Present t ["materials", "material_" ++ toString i, st] →
      Present t ["materials", "material_" ++ toString i, st, "emissivity"] := by
  obtain ⟨dim, bt, hd, hm, hb⟩ := accepted_material h hn hi
  have hbt : Has bt .radiative := hb .radiative (Or.inl rfl) s hs hc
  simp only [validateMaterial, Bool.and_eq_true] at hm
  obtain ⟨⟨⟨⟨-, m2⟩, -⟩, -⟩, m5⟩ := hm
  refine ⟨not_or_present m5 (decide_eq_true hbt), fun st hst hp => ?_⟩
  rw [List.all_eq_true] at m2
  have := m2 st hst
  rw [(hasChild_present t ["materials", materialKey i] st).2 hp] at this
  simp only [Bool.not_true, Bool.false_or, validateState, Bool.and_eq_true] at this
  exact not_or_present this.2 (decide_eq_true hbt)

/-! ## Geometry, output, experiment, assimilation -/

/-- **C92 (mesh).**  An accepted input either imports a mesh and gives its file and format, or gives length and height of the box, and in three
dimensions its width; a powder layer has non-negative thickness. -/
theorem C92_mesh (p : Parsers ℚ) (t : Tree) (h : Accepted p t) :
    ((getBool p t ["geometry", "import_mesh"] = some true ∧ Present t ["geometry", "mesh_file"] ∧ Present t ["geometry", "mesh_format"]) ∨
     (getBool p t ["geometry", "import_mesh"] = some false ∧ Present t ["geometry", "length"] ∧ Present t ["geometry", "height"] ∧
      (getUInt p t ["geometry", "dim"] = some 3 → Present t ["geometry", "width"]))) ∧
    (getBool p t ["geometry", "use_powder"] = some true → ∃ l : ℚ, getDbl p t ["geometry", "powder_layer"] = some l ∧ 0 ≤ l) := by
  obtain ⟨th, me, bt, dim, -, -, -, hg, -⟩ := h.sections
  unfold validateGeometry at hg
  simp only [Option.bind_eq_bind, Option.bind_eq_some_iff] at hg
  obtain ⟨d, hd, _, -, _, hpw, _, -, _, hms, -⟩ := hg
  constructor
  · unfold validateMesh at hms
    simp only [Option.bind_eq_bind, Option.bind_eq_some_iff] at hms
    obtain ⟨imp, himp, hms⟩ := hms
    cases imp with
    | true =>
      simp only [if_true, Option.bind_eq_some_iff] at hms
      obtain ⟨_, r1, r2⟩ := hms
      exact Or.inl ⟨himp, (hasChild_present t _ _).1 (require_some r1), (hasChild_present t _ _).1 (require_some r2)⟩
    | false =>
      simp only [Bool.false_eq_true, if_false, Option.bind_eq_some_iff] at hms
      obtain ⟨_, r1, _, r2, r3⟩ := hms
      refine Or.inr ⟨himp, (hasChild_present t _ _).1 (require_some r1), (hasChild_present t _ _).1 (require_some r2), fun h3 => ?_⟩
      rw [h3] at hd
      cases hd
      exact not_or_present (require_some r3) (by simp)
  · intro hu
    unfold validatePowder at hpw
    have hb : getBoolD p t ["geometry", "use_powder"] false = true := by simp [getBoolD, hu]
    rw [if_pos hb] at hpw
    simp only [Option.bind_eq_bind, Option.bind_eq_some_iff] at hpw
    obtain ⟨l, hl, r⟩ := hpw
    exact ⟨l, hl, by simpa using require_some r⟩

/-- **C92 (files).**  An accepted input names the output files and has a refinement section; if experimental data are read it names the data file, the
log file and the last frame; a convergence tolerance of the data assimilation is not negative. -/
theorem C92_files (p : Parsers ℚ) (t : Tree) (h : Accepted p t) :
    Present t ["post_processor", "filename_prefix"] ∧ Present t ["refinement"] ∧
    (getBool p t ["experiment", "read_in_experimental_data"] = some true →
      Present t ["experiment", "file"] ∧ Present t ["experiment", "log_filename"] ∧ Present t ["experiment", "last_frame"]) ∧
    (∀ c : ℚ, getDbl p t ["data_assimilation", "convergence_tolerance"] = some c → 0 ≤ c) := by
  obtain ⟨th, me, bt, dim, -, -, -, -, -, hmisc, -, -, he, ha, -⟩ := h.sections
  refine ⟨?_, ?_, ?_, ?_⟩
  · unfold validateMisc at hmisc
    have r : hasChild t ["post_processor"] "filename_prefix" = true := by
      split at hmisc
      all_goals
        simp only [Option.bind_eq_bind, Option.bind_eq_some_iff] at hmisc
        obtain ⟨_, -, _, r, -⟩ := hmisc
        exact require_some r
    exact (hasChild_present t ["post_processor"] "filename_prefix").1 r
  · unfold validateMisc at hmisc
    have r : decide (t.count "refinement" ≠ 0) = true := by
      split at hmisc
      all_goals
        simp only [Option.bind_eq_bind, Option.bind_eq_some_iff] at hmisc
        obtain ⟨_, -, _, -, r⟩ := hmisc
        exact require_some r
    rw [decide_eq_true_eq, count_ne_zero] at r
    obtain ⟨c, hc⟩ := r
    exact ⟨c, by simp [Tree.get?, hc]⟩
  · intro hr
    have hb : getBoolD p t ["experiment", "read_in_experimental_data"] false = true := by simp [getBoolD, hr]
    unfold validateExperiment at he
    split at he
    · rename_i hx
      exfalso
      have : t.str? ["experiment", "read_in_experimental_data"] = none := by
        simp only [Tree.str?, Tree.get?] at hx ⊢
        cases hc : t.child? "experiment" with
        | none => simp
        | some c => simp [hc] at hx
      simp [getBool, this] at hr
    · rw [if_pos hb] at he
      simp only [Option.bind_eq_bind, Option.bind_eq_some_iff] at he
      obtain ⟨_, r1, _, r2, f, -, _, -, last, -, _, -, fc, -, lc, -, _, -, r3⟩ := he
      exact ⟨(hasChild_present t ["experiment"] _).1 (require_some r1), (hasChild_present t ["experiment"] _).1 (require_some r3),
        (hasChild_present t ["experiment"] _).1 (require_some r2)⟩
  · intro c hc
    unfold validateAssimilation at ha
    rw [hc] at ha
    simp only [Option.bind_eq_bind, Option.bind_eq_some_iff] at ha
    obtain ⟨_, r, -⟩ := ha
    simpa using require_some r

/-- An input with a clamped boundary and mechanics enabled, and otherwise the example. -/
def exMechanical : Tree := .node "" ([("physics", .node "" [("thermal", leaf "true"), ("mechanical", leaf "true")]),
   ("boundary", .node "" [("type", leaf "adiabatic,clamped")])] ++ (exTree {}).children.drop 2)

/-- **C92 refuted for mechanics.**  A mechanical input whose only material has no elastic constants is accepted: the validator checks no mechanical property. -/
theorem C92_mechanics_refuted :
    Accepted exParsers exMechanical ∧ getBool exParsers exMechanical ["physics", "mechanical"] = some true ∧
    getUInt exParsers exMechanical ["materials", "n_materials"] = some 1 ∧
    ¬ Present exMechanical ["materials", "material_0", "solid", "lame_first_parameter"] ∧
    ¬ Present exMechanical ["materials", "material_0", "solid", "lame_second_parameter"] := by
  refine ⟨by decide +kernel, by decide +kernel, by decide +kernel, ?_, ?_⟩
  · rintro ⟨s, hs⟩
    have : exMechanical.get? ["materials", "material_0", "solid", "lame_first_parameter"] = none := by rfl
    rw [this] at hs; cases hs
  · rintro ⟨s, hs⟩
    have : exMechanical.get? ["materials", "material_0", "solid", "lame_second_parameter"] = none := by rfl
    rw [this] at hs; cases hs

/-- The hypotheses of C92 are met by the example, which has a boundary line. -/
example : Accepted exParsers exMechanical ∧ BoundaryLine exMechanical "adiabatic,clamped" :=
  ⟨by decide +kernel, .node "" [("type", leaf "adiabatic,clamped")], rfl, "type", leaf "adiabatic,clamped", by simp [Tree.children],
    Or.inl ⟨rfl, rfl⟩⟩

end Verif.Input
