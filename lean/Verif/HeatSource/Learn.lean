import Verif.HeatSource.ValueProps

/-!
# Beam parameters learnt by data assimilation (C108)

`application/adamantine.hh:1598-1625, 1664-1700, 2306-2368` and
`source/ThermalPhysics.templates.hh:826-852` (`update_physics_parameters`): the augmented state of a member holds the
absorption efficiency and/or the maximal power of beam 0; after an assimilation they are written to the member's input
tree, and at the end of every time step of an assimilating run the heat sources of the member are set from that tree.

Simplifications: the property tree is modelled by the entries `sources.beam_X` (a number written by `put` is read back
unchanged: Boost writes enough digits); the numbers of a beam entry are all present (their absence is C92); the entry
of a cube source has numbers nobody reads.
-/

namespace Verif.HeatSource.Learn

open Verif.Quat Verif.ScanPath Verif.HeatSource

/-- `sources.beam_X`, the members read by `BeamHeatSourceProperties.hh:54-65`. -/
@[ext] structure BeamEntry where
  type : String
  depth : ℝ
  absorption : ℝ
  diameter : ℝ
  maxPower : ℝ

/-- The subtree `sources`: entry `i` is `beam_i`. -/
abbrev Db := ℕ → Option BeamEntry

/-- `AugmentedStateParameters`, `ensemble_management.hh` / `adamantine.hh:1612, 1619`. -/
inductive Param
  | absorption
  | maxPower
  deriving DecidableEq

/-- `augmented_state_parameters`, `adamantine.hh:1598-1625`. -/
def params (assimilate withAbsorption withMaxPower : Bool) : List Param :=
  if assimilate then
    (if withAbsorption then [.absorption] else []) ++ (if withMaxPower then [.maxPower] else [])
  else []

/-- `get<double>("sources.beam_0....")`, `adamantine.hh:1684-1697`. -/
def Param.read (p : Param) (e : BeamEntry) : ℝ :=
  match p with
  | .absorption => e.absorption
  | .maxPower => e.maxPower

/-- `put("sources.beam_0....", value)`, `adamantine.hh:2319-2331`. -/
def Param.write (p : Param) (e : BeamEntry) (x : ℝ) : BeamEntry :=
  match p with
  | .absorption => { e with absorption := x }
  | .maxPower => { e with maxPower := x }

/-- The augmented block at the start, `adamantine.hh:1669-1700`; `none`: `get` throws. -/
def initialBlock (assimilate : Bool) (nBeams : ℕ) (ps : List Param) (db : Db) : Option (List ℝ) :=
  if 0 < nBeams ∧ assimilate then ps.mapM fun p => (db 0).map p.read else some []

/-- The loop of `adamantine.hh:2309-2331` from parameter number `k` on: every parameter is written to `beam_0` from the
block; `none`: the block is read out of bounds, or there is no `beam_0`. -/
def extractFrom (block : List ℝ) : ℕ → List Param → Db → Option Db
  | _, [], db => some db
  | k, p :: ps, db =>
    match block[k]?, db 0 with
    | some x, some e => extractFrom block (k + 1) ps (Function.update db 0 (some (p.write e x)))
    | _, _ => none

/-- `adamantine.hh:2306-2332`. -/
def extract (ps : List Param) (block : List ℝ) (db : Db) : Option Db := extractFrom block 0 ps db

/-- An element of `_heat_sources`; a beam keeps the two unit factors read at its construction
(`BeamHeatSourceProperties.hh:42-49, 89-93`). -/
inductive Heat
  | beam (s : Source) (dimScaling powerScaling : ℝ)
  | cube

/-- One iteration of the loop in `update_physics_parameters`, `ThermalPhysics.templates.hh:838-848`; `none`: the
entry is missing and `get_child` throws. -/
noncomputable def updateOne (db : Db) (i : ℕ) (h : Heat) : Option Heat :=
  match db i with
  | none => none
  | some e =>
    if e.type = "goldak" ∨ e.type = "electron_beam" then
      match h with
      | .beam s d p => some (.beam (s.setBeamProperties
          (BeamProps.ofDatabase d p e.depth e.absorption e.diameter e.maxPower)) d p)
      | .cube => some .cube
    else some h

/-- The loop, `ThermalPhysics.templates.hh:836-850`, from source number `i` on. -/
noncomputable def updateFrom (db : Db) : ℕ → List Heat → Option (List Heat)
  | _, [] => some []
  | i, h :: hs =>
    match updateOne db i h with
    | none => none
    | some h' => (updateFrom db (i + 1) hs).map (h' :: ·)

/-- `update_physics_parameters`, `ThermalPhysics.templates.hh:826-852`. -/
noncomputable def updatePhysics (db : Db) (hs : List Heat) : Option (List Heat) := updateFrom db 0 hs

/-- Construction of one source, `ThermalPhysics.templates.hh:380-409` and the constructors: the unit factors are those
of the `units` entry.  Other types throw. -/
noncomputable def construct (dim pow : ℝ) (e : BeamEntry) (p : Path) : Option Heat :=
  if e.type = "goldak" then
    some (.beam (Source.new .goldak (BeamProps.ofDatabase dim pow e.depth e.absorption e.diameter e.maxPower) p)
      dim pow)
  else if e.type = "electron_beam" then
    some (.beam (Source.new .electronBeam
      (BeamProps.ofDatabase dim pow e.depth e.absorption e.diameter e.maxPower) p) dim pow)
  else if e.type = "cube" then some .cube
  else none

/-- What happens at the end of one time step of an assimilating run, `adamantine.hh:2170-2368`: a frame with points
on the mesh gives a new block, otherwise nothing is extracted; the sources are updated in both cases. -/
noncomputable def stepEnd (ps : List Param) (frame : Option (List ℝ)) (st : Db × List Heat) :
    Option (Db × List Heat) :=
  match frame with
  | none => (updatePhysics st.1 st.2).map (st.1, ·)
  | some block =>
    match extract ps block st.1 with
    | none => none
    | some db' => (updatePhysics db' st.2).map (db', ·)

/-- Several steps. -/
noncomputable def run (ps : List Param) : List (Option (List ℝ)) → Db × List Heat → Option (Db × List Heat)
  | [], st => some st
  | f :: fs, st => (stepEnd ps f st).bind (run ps fs)

/-! ## Specification -/

/-- Source `h` is a beam with the values of the input entry `e`, converted with the factors `dim` and `pow`. -/
def Reflects (dim pow : ℝ) (e : BeamEntry) (h : Heat) : Prop :=
  match h with
  | .beam s d p => d = dim ∧ p = pow ∧ s.props.absorption = e.absorption ∧ s.props.maxPower = e.maxPower * pow ∧
      s.props.depth = e.depth * dim ∧ s.props.radius = e.diameter / 2 * dim ∧
      s.props.radiusSq = (e.diameter / 2 * dim) ^ 2 ∧ (e.type = "goldak" ∨ e.type = "electron_beam")
  | .cube => e.type = "cube"

/-- All sources agree with the input tree. -/
def AllReflect (dim pow : ℝ) (db : Db) (hs : List Heat) : Prop :=
  ∀ (i : ℕ) (h : Heat), hs[i]? = some h → ∃ e, db i = some e ∧ Reflects dim pow e h

/-- Two sources are the same but for the beam parameters. -/
def SameMotion (h h' : Heat) : Prop :=
  match h, h' with
  | .beam s d p, .beam s' d' p' => d' = d ∧ p' = p ∧ s' = { s with props := s'.props }
  | .cube, .cube => True
  | _, _ => False

/-- The absorption and the power the user expects beam 0 to have after the frames: those of the last assimilated block,
the absorption first; the input's if the parameter is not learnt or nothing has been assimilated. -/
def expected (a p : Bool) (e : BeamEntry) : List (Option (List ℝ)) → ℝ × ℝ
  | [] => (e.absorption, e.maxPower)
  | none :: fs => expected a p e fs
  | some b :: fs =>
    expected a p
      { e with
        absorption := if a then b.getD 0 0 else e.absorption
        maxPower := if p then b.getD (if a then 1 else 0) 0 else e.maxPower } fs

/-! ## Proofs -/

theorem SameMotion.refl (h : Heat) : SameMotion h h := by
  cases h <;> simp [SameMotion]

theorem SameMotion.trans {h h' h'' : Heat} (a : SameMotion h h') (b : SameMotion h' h'') : SameMotion h h'' := by
  cases h <;> cases h' <;> cases h'' <;> simp only [SameMotion] at a b ⊢
  obtain ⟨rfl, rfl, h1⟩ := a
  obtain ⟨rfl, rfl, h2⟩ := b
  refine ⟨rfl, rfl, ?_⟩
  rw [h2, h1]

theorem updateOne_reflects {dim pow : ℝ} {db : Db} {i : ℕ} {h : Heat} {e₀ e : BeamEntry} (hr : Reflects dim pow e₀ h)
    (he : db i = some e) (ht : e.type = e₀.type) :
    ∃ h', updateOne db i h = some h' ∧ Reflects dim pow e h' ∧ SameMotion h h' := by
  unfold updateOne
  rw [he]
  cases h with
  | cube =>
    have : e.type = "cube" := by rw [ht]; exact hr
    refine ⟨.cube, ?_, this, SameMotion.refl _⟩
    dsimp only
    split_ifs <;> rfl
  | beam s d p =>
    obtain ⟨rfl, rfl, -, -, -, -, -, hty⟩ := hr
    rw [← ht] at hty
    dsimp only
    rw [if_pos hty]
    refine ⟨_, rfl, ⟨rfl, rfl, rfl, rfl, rfl, ?_, ?_, hty⟩, rfl, rfl, rfl⟩
    · show e.diameter * d / 2 = _
      ring
    · show (e.diameter * d / 2) ^ 2 = _
      ring

theorem updateFrom_spec {dim pow : ℝ} {db₀ db : Db} (htype : ∀ i, (db i).map (·.type) = (db₀ i).map (·.type)) :
    ∀ (hs : List Heat) (k : ℕ),
      (∀ (i : ℕ) (h : Heat), hs[i]? = some h → ∃ e, db₀ (k + i) = some e ∧ Reflects dim pow e h) →
      ∃ hs', updateFrom db k hs = some hs' ∧ hs'.length = hs.length ∧
        (∀ (i : ℕ) (h h' : Heat), hs[i]? = some h → hs'[i]? = some h' →
          SameMotion h h' ∧ ∃ e, db (k + i) = some e ∧ Reflects dim pow e h') := by
  intro hs
  induction hs with
  | nil => intro k _; exact ⟨[], rfl, rfl, fun i h h' hi => by simp at hi⟩
  | cons h hs ih =>
    intro k hall
    obtain ⟨e₀, he₀, hr⟩ := hall 0 h rfl
    obtain ⟨e, he, ht⟩ : ∃ e, db (k + 0) = some e ∧ e.type = e₀.type := by
      have := htype (k + 0)
      rw [he₀] at this
      cases hd : db (k + 0) with
      | none => rw [hd] at this; simp at this
      | some e => rw [hd] at this; exact ⟨e, rfl, by simpa using this⟩
    obtain ⟨h', hu, hr', hm⟩ := updateOne_reflects (db := db) (i := k) hr he ht
    obtain ⟨hs', hu', hl, hspec⟩ := ih (k + 1) (fun i g hg => by
      have := hall (i + 1) g hg
      rwa [show k + (i + 1) = k + 1 + i by omega] at this)
    refine ⟨h' :: hs', ?_, by simp [hl], ?_⟩
    · simp [updateFrom, hu, hu']
    · intro i g g' hg hg'
      cases i with
      | zero =>
        simp only [List.getElem?_cons_zero, Option.some.injEq] at hg hg'
        subst hg hg'
        exact ⟨hm, e, he, hr'⟩
      | succ i =>
        have := hspec i g g' hg hg'
        rwa [show k + 1 + i = k + (i + 1) by omega] at this

theorem updatePhysics_spec {dim pow : ℝ} {db₀ db : Db} {hs : List Heat}
    (htype : ∀ i, (db i).map (·.type) = (db₀ i).map (·.type)) (hall : AllReflect dim pow db₀ hs) :
    ∃ hs', updatePhysics db hs = some hs' ∧ hs'.length = hs.length ∧ AllReflect dim pow db hs' ∧
      ∀ (i : ℕ) (h h' : Heat), hs[i]? = some h → hs'[i]? = some h' → SameMotion h h' := by
  obtain ⟨hs', h1, h2, h3⟩ := updateFrom_spec (dim := dim) (pow := pow) htype hs 0
    (fun i h hi => by simpa using hall i h hi)
  refine ⟨hs', h1, h2, ?_, fun i h h' a b => (h3 i h h' a b).1⟩
  intro i h' hi'
  obtain ⟨hlt, -⟩ := List.getElem?_eq_some_iff.1 hi'
  have hi : hs[i]? = some (hs[i]'(h2 ▸ hlt)) := List.getElem?_eq_getElem _
  simpa using (h3 i _ h' hi hi').2

/-- The extraction, for each choice of flags. -/
theorem extract_spec {a p : Bool} {b : List ℝ} {db : Db} {e : BeamEntry} (he : db 0 = some e)
    (hb : b.length = (params true a p).length) :
    extract (params true a p) b db = some (Function.update db 0 (some
      { e with
        absorption := if a then b.getD 0 0 else e.absorption
        maxPower := if p then b.getD (if a then 1 else 0) 0 else e.maxPower })) := by
  cases a <;> cases p <;> simp only [params, if_true, List.append_nil, List.nil_append, List.cons_append,
    Bool.false_eq_true, if_false, List.length_cons, List.length_nil] at hb ⊢
  · simp only [extract, extractFrom]
    congr 1
    rw [← he]; exact (Function.update_eq_self 0 db).symm
  · obtain ⟨x, rfl⟩ := List.length_eq_one_iff.1 (by simpa using hb)
    simp [extract, extractFrom, he, Param.write]
  · obtain ⟨x, rfl⟩ := List.length_eq_one_iff.1 (by simpa using hb)
    simp [extract, extractFrom, he, Param.write]
  · obtain ⟨x, y, rfl⟩ := List.length_eq_two.1 (by simpa using hb)
    simp [extract, extractFrom, he, Param.write]

/-- **C108**. For every number of beams of every type, every choice of learnt parameters and every sequence of time
steps with or without a usable frame: the run goes through; every source has at every time the values of the input
entry of its own number in the units of the input, no source has moved or changed its path, the entries of the other
beams are the input's, the geometry of beam 0 too; and the absorption and the power of beam 0 are the learnt ones. -/
theorem C108_run (a p : Bool) (dim pow : ℝ) : ∀ (frames : List (Option (List ℝ))) (db : Db) (hs : List Heat)
    (e : BeamEntry), db 0 = some e → AllReflect dim pow db hs →
    (∀ b, some b ∈ frames → b.length = (if a then 1 else 0) + (if p then 1 else 0)) →
    ∃ db' hs' e', run (params true a p) frames (db, hs) = some (db', hs') ∧
      hs'.length = hs.length ∧ AllReflect dim pow db' hs' ∧
      (∀ (i : ℕ) (h h' : Heat), hs[i]? = some h → hs'[i]? = some h' → SameMotion h h') ∧
      (∀ i, i ≠ 0 → db' i = db i) ∧ db' 0 = some e' ∧
      e'.type = e.type ∧ e'.depth = e.depth ∧ e'.diameter = e.diameter ∧
      (e'.absorption, e'.maxPower) = expected a p e frames := by
  intro frames
  induction frames with
  | nil =>
    intro db hs e he hall _
    refine ⟨db, hs, e, rfl, rfl, hall, fun i h h' h1 h2 => ?_, fun _ _ => rfl, he, rfl, rfl, rfl, rfl⟩
    rw [h1] at h2
    cases h2
    exact SameMotion.refl _
  | cons f fs ih =>
    intro db hs e he hall hlen
    have key : ∃ (db1 : Db) (hs1 : List Heat) (e1 : BeamEntry),
        stepEnd (params true a p) f (db, hs) = some (db1, hs1) ∧ hs1.length = hs.length ∧
        AllReflect dim pow db1 hs1 ∧
        (∀ (i : ℕ) (h h' : Heat), hs[i]? = some h → hs1[i]? = some h' → SameMotion h h') ∧
        (∀ i, i ≠ 0 → db1 i = db i) ∧ db1 0 = some e1 ∧
        e1.type = e.type ∧ e1.depth = e.depth ∧ e1.diameter = e.diameter ∧
        expected a p e (f :: fs) = expected a p e1 fs := by
      cases f with
      | none =>
        obtain ⟨hs1, h1, h2, h3, h4⟩ := updatePhysics_spec (db := db) (fun _ => rfl) hall
        exact ⟨db, hs1, e, by simp [stepEnd, h1], h2, h3, h4, fun _ _ => rfl, he, rfl, rfl, rfl, rfl⟩
      | some b =>
        have hb : b.length = (params true a p).length := by
          rw [hlen b (by simp)]
          cases a <;> cases p <;> rfl
        have hx := extract_spec he hb
        obtain ⟨hs1, h1, h2, h3, h4⟩ := updatePhysics_spec (db := Function.update db 0 (some
          { e with
            absorption := if a then b.getD 0 0 else e.absorption
            maxPower := if p then b.getD (if a then 1 else 0) 0 else e.maxPower })) (fun i => by
              by_cases hi : i = 0
              · subst hi; simp [he]
              · simp [Function.update_of_ne hi]) hall
        refine ⟨_, hs1, _, by simp only [stepEnd, hx]; rw [h1]; rfl, h2, h3, h4, fun i hi => Function.update_of_ne hi _ _,
          Function.update_self _ _ _, rfl, rfl, rfl, rfl⟩
    obtain ⟨db1, hs1, e1, k1, k2, k3, k4, k5, k6, k7, k8, k9, k10⟩ := key
    obtain ⟨db2, hs2, e2, l1, l2, l3, l4, l5, l6, l7, l8, l9, l10⟩ :=
      ih db1 hs1 e1 k6 k3 (fun b hb => hlen b (List.mem_cons_of_mem _ hb))
    refine ⟨db2, hs2, e2, by rw [run, k1]; exact l1, l2.trans k2, l3, ?_, fun i hi => (l5 i hi).trans (k5 i hi), l6,
      l7.trans k7, l8.trans k8, l9.trans k9, l10.trans k10.symm⟩
    intro i h h' hi hi'
    obtain ⟨hlt, -⟩ := List.getElem?_eq_some_iff.1 hi
    have hm : hs1[i]? = some (hs1[i]'(k2 ▸ hlt)) := List.getElem?_eq_getElem _
    exact (k4 i h _ hi hm).trans (l4 i _ h' hm hi')

/-- **C108**. Freshly constructed sources agree with the input tree, whatever the units. -/
theorem C108_constructed (dim pow : ℝ) (e : BeamEntry) (p : Path) (h : Heat) (hc : construct dim pow e p = some h) :
    Reflects dim pow e h := by
  unfold construct at hc
  by_cases h1 : e.type = "goldak"
  · rw [if_pos h1] at hc
    cases hc
    refine ⟨rfl, rfl, rfl, rfl, rfl, ?_, ?_, Or.inl h1⟩
    · show e.diameter * dim / 2 = _; ring
    · show (e.diameter * dim / 2) ^ 2 = _; ring
  · rw [if_neg h1] at hc
    by_cases h2 : e.type = "electron_beam"
    · rw [if_pos h2] at hc
      cases hc
      refine ⟨rfl, rfl, rfl, rfl, rfl, ?_, ?_, Or.inr h2⟩
      · show e.diameter * dim / 2 = _; ring
      · show (e.diameter * dim / 2) ^ 2 = _; ring
    · rw [if_neg h2] at hc
      by_cases h3 : e.type = "cube"
      · rw [if_pos h3] at hc
        cases hc
        exact h3
      · rw [if_neg h3] at hc; cases hc

/-- **C108**. The block a member starts with holds the member's own values, in the order absorption, power; writing it
back changes nothing. -/
theorem C108_initial_block (a p : Bool) (nBeams : ℕ) (hn : 0 < nBeams) (db : Db) (e : BeamEntry)
    (he : db 0 = some e) :
    ∃ b, initialBlock true nBeams (params true a p) db = some b ∧
      b = (if a then [e.absorption] else []) ++ (if p then [e.maxPower] else []) ∧
      extract (params true a p) b db = some db := by
  refine ⟨_, ?_, rfl, ?_⟩
  · cases a <;> cases p <;> simp [initialBlock, params, hn, he, Param.read]
  · rw [extract_spec he (by cases a <;> cases p <;> rfl)]
    congr 1
    have : ({ e with
        absorption := if a then (((if a then [e.absorption] else []) ++ (if p then [e.maxPower] else [])).getD 0 0)
          else e.absorption
        maxPower := if p then (((if a then [e.absorption] else []) ++
          (if p then [e.maxPower] else [])).getD (if a then 1 else 0) 0) else e.maxPower } : BeamEntry) = e := by
      cases a <;> cases p <;> rfl
    rw [this, ← he]
    exact Function.update_eq_self 0 db

/-- **C108**. Without data assimilation nothing is learnt. -/
theorem C108_off (a p : Bool) (nBeams : ℕ) (db : Db) :
    params false a p = [] ∧ initialBlock false nBeams (params false a p) db = some [] := by
  simp [params, initialBlock]

/-- **C108**. From the next `update_time` on, the heat of beam 0 at every point is the heat of the unlearnt beam times
the ratio of the products of the learnt and the old values (non-negative ones), in the units of the input. -/
theorem C108_heat (dim pow : ℝ) (e e' : BeamEntry) (s s' s₁ s₂ : Source) (d q d' q' t : ℝ)
    (h : Reflects dim pow e (.beam s d q)) (h' : Reflects dim pow e' (.beam s' d' q'))
    (hm : SameMotion (.beam s d q) (.beam s' d' q')) (hd : e'.depth = e.depth) (hdi : e'.diameter = e.diameter)
    (hv : s.props.Valid) (hpow : 0 < pow) (he : 0 ≤ e'.absorption) (hp : 0 ≤ e'.maxPower)
    (hu : s.updateTime t = some s₁) (hu' : s'.updateTime t = some s₂) (x : Pt3 ℝ) (v v' : ℝ)
    (hx : s₁.value3 x = some v) (hx' : s₂.value3 x = some v') :
    v' * (e.absorption * e.maxPower) = v * (e'.absorption * e'.maxPower) := by
  obtain ⟨rfl, rfl, a1, a2, a3, a4, a5, -⟩ := h
  obtain ⟨-, -, b1, b2, b3, b4, b5, -⟩ := h'
  obtain ⟨-, -, hs⟩ := hm
  have hprops : s'.props = { s.props with absorption := e'.absorption, maxPower := e'.maxPower * q } := by
    rcases hsp : s'.props with ⟨f1, f2, f3, f4, f5⟩
    rcases hsq : s.props with ⟨g1, g2, g3, g4, g5⟩
    rw [hsp] at b1 b2 b3 b4 b5
    rw [hsq] at a1 a2 a3 a4 a5
    simp only at a1 a2 a3 a4 a5 b1 b2 b3 b4 b5 ⊢
    rw [b1, b2, b3, b4, b5, a3, a4, a5, hd, hdi]
  rw [hprops] at hs
  have hset : s' = s.setBeamProperties { s.props with absorption := e'.absorption, maxPower := e'.maxPower * q } := hs
  rw [hset] at hu'
  have key := C65_proportional s s₁ s₂ t e'.absorption (e'.maxPower * q) hu hu' hv he (by positivity) x v v' hx hx'
  rw [a1, a2] at key
  have hq : q ≠ 0 := hpow.ne'
  have : v' * (e.absorption * e.maxPower) * q = v * (e'.absorption * e'.maxPower) * q := by linarith
  exact mul_right_cancel₀ hq this

/-! ### What does not hold -/

/-- **C108**. With no beam in the input and a learnt parameter asked for, nothing stops the run at the start: the block
stays empty and is read out of bounds at the first assimilation. -/
theorem C108_no_beam_refuted (a p : Bool) (hap : a = true ∨ p = true) (db : Db) :
    initialBlock true 0 (params true a p) db = some [] ∧ extract (params true a p) [] db = none := by
  cases a <;> cases p <;> simp_all [params, initialBlock, extract, extractFrom]

/-- **C108**. Nothing keeps the learnt values in the range the input is documented to have: any number is installed,
also a negative absorption. -/
theorem C108_range_refuted (dim pow x : ℝ) (db : Db) (s : Source) (e : BeamEntry) (he : db 0 = some e)
    (h : Reflects dim pow e (.beam s dim pow)) :
    ∃ db' s', run (params true true false) [some [x]] (db, [.beam s dim pow]) = some (db', [.beam s' dim pow]) ∧
      s'.props.absorption = x := by
  have hall : AllReflect dim pow db [.beam s dim pow] := by
    intro i g hg
    cases i with
    | zero => simp only [List.getElem?_cons_zero, Option.some.injEq] at hg; subst hg; exact ⟨e, he, h⟩
    | succ i => simp at hg
  obtain ⟨db', hs', e', h1, h2, h3, h4, -, h6, -, -, -, h10⟩ := C108_run true false dim pow [some [x]] db
    [.beam s dim pow] e he hall (by simp)
  obtain ⟨g, rfl⟩ := List.length_eq_one_iff.1 (by simpa using h2)
  have hm := h4 0 _ g rfl rfl
  obtain ⟨e'', he'', hr⟩ := h3 0 g rfl
  rw [h6] at he''
  cases he''
  cases g with
  | cube => exact absurd hm (by simp [SameMotion])
  | beam s' d' q' =>
    obtain ⟨rfl, rfl, hab, -⟩ := hr
    refine ⟨db', s', h1, ?_⟩
    rw [hab]
    simpa [expected] using congrArg Prod.fst h10

/-- **C108**. A checkpoint does not hold the learnt values (`adamantine.hh:2388-2397` saves the temperature and the
time): a restarted member begins with the input's, for every learnt absorption different from them. -/
theorem C108_restart_refuted (dim pow x : ℝ) (db : Db) (e : BeamEntry) (p : Path) (he : db 0 = some e)
    (hg : e.type = "goldak") (hx : x ≠ e.absorption) :
    ∃ h, construct dim pow e p = some h ∧
      ∃ db' s' s₀, h = .beam s₀ dim pow ∧
        run (params true true false) [some [x]] (db, [h]) = some (db', [.beam s' dim pow]) ∧
        s'.props.absorption ≠ s₀.props.absorption ∧
        initialBlock true 1 (params true true false) db = some [s₀.props.absorption] := by
  have hc : construct dim pow e p = some (.beam (Source.new .goldak
      (BeamProps.ofDatabase dim pow e.depth e.absorption e.diameter e.maxPower) p) dim pow) := by
    simp [construct, hg]
  obtain ⟨db', s', h1, h2⟩ := C108_range_refuted dim pow x db _ e he (C108_constructed dim pow e p _ hc)
  refine ⟨_, hc, db', s', _, rfl, h1, ?_, ?_⟩
  · rw [h2]; exact hx
  · simp [initialBlock, params, he, Param.read, Source.new, BeamProps.ofDatabase]

/-! ### A concrete case -/

/-- Two beams in millimetres and watts, a Goldak beam and an electron beam, and a cube. -/
noncomputable def exampleDb : Db
  | 0 => some ⟨"goldak", 1, 3 / 10, 2, 100⟩
  | 1 => some ⟨"electron_beam", 2, 1 / 2, 4, 50⟩
  | 2 => some ⟨"cube", 0, 0, 0, 0⟩
  | _ => none

/-- The hypotheses of `C108_run` are met by the constructed sources, and both parameters are learnt: of two frames the
second counts. -/
example (p : Path) : ∃ h0 h1 h2, construct (1 / 1000) 1 ⟨"goldak", 1, 3 / 10, 2, 100⟩ p = some h0 ∧
    construct (1 / 1000) 1 ⟨"electron_beam", 2, 1 / 2, 4, 50⟩ p = some h1 ∧
    construct (1 / 1000) 1 ⟨"cube", 0, 0, 0, 0⟩ p = some h2 ∧
    AllReflect (1 / 1000) 1 exampleDb [h0, h1, h2] ∧
    expected true true ⟨"goldak", 1, 3 / 10, 2, 100⟩ [some [1 / 4, 90], none, some [1 / 5, 80], none] = (1 / 5, 80) := by
  refine ⟨_, _, _, rfl, rfl, rfl, ?_, by simp [expected]⟩
  intro i h hi
  match i with
  | 0 =>
    simp only [List.getElem?_cons_zero, Option.some.injEq] at hi
    subst hi
    exact ⟨_, rfl, C108_constructed _ _ _ p _ rfl⟩
  | 1 =>
    simp only [List.getElem?_cons_succ, List.getElem?_cons_zero, Option.some.injEq] at hi
    subst hi
    exact ⟨_, rfl, C108_constructed _ _ _ p _ rfl⟩
  | 2 =>
    simp only [List.getElem?_cons_succ, List.getElem?_cons_zero, Option.some.injEq] at hi
    subst hi
    exact ⟨_, rfl, C108_constructed _ _ _ p _ rfl⟩
  | n + 3 => simp at hi

end Verif.HeatSource.Learn
