import Verif.Material.Tables
import Verif.Input.Start

/-!
# C100, C101, C102: reading the material properties

Model of `MaterialProperty::fill_properties`, `source/MaterialProperty.templates.hh:795-1119`.  `double` is `ℝ`, an infinite
value is `⊤`.  `std::stod` and the conversions of `get<unsigned int>` and `get_optional<double>` are parameters; nothing is
assumed about them.  The five-dimensional views are functions of their indices.  The choice between the two layouts of the
views (`n_materials == -1` or not) does not change the indices and is not modelled, nor are the copies to the device (1115-1118).
-/

namespace Verif.Material.Fill

open Verif.Input

/-- What a call does: it returns, throws an exception, or reads outside an array. -/
inductive Outcome (α : Type) where
  | ok (a : α)
  | throws
  | ub

/-- Sequencing of calls: the first that does not return ends the sequence. -/
def Outcome.bind {α β : Type} : Outcome α → (α → Outcome β) → Outcome β
  | .ok a, f => f a
  | .throws, _ => .throws
  | .ub, _ => .ub

/-- A loop `for (i : l) s = f(s, i)`. -/
def loop {σ ι : Type} (f : σ → ι → Outcome σ) : List ι → σ → Outcome σ
  | [], s => .ok s
  | i :: is, s => (f s i).bind (loop f is)

/-- Collecting the results of a loop. -/
def collect {α β : Type} (f : α → Outcome β) : List α → Outcome (List β)
  | [] => .ok []
  | a :: as => (f a).bind fun b => (collect f as).bind fun bs => .ok (b :: bs)

/-! ## The text of a property -/

/-- `std::isspace` in the "C" locale: space and the control characters 9 to 13. -/
def blank (c : Char) : Bool := decide (c.toNat = 32) || (decide (9 ≤ c.toNat) && decide (c.toNat ≤ 13))

/-- "Remove blank spaces", `source/MaterialProperty.templates.hh:935-939`. -/
def strip (s : String) : List Char := s.toList.filter fun c => !blank c

/-- `boost::split(parts, text, [](char c) { return c == d; })` (no token compression), used at
`source/MaterialProperty.templates.hh:943-944`, `:951-952`, `:1007-1008`. -/
def splitBy (d : Char) : List Char → List (List Char)
  | [] => [[]]
  | c :: cs =>
    if c = d then [] :: splitBy d cs
    else
      match splitBy d cs with
      | [] => [[c]]
      | p :: ps => (c :: p) :: ps

/-- The sizes and conversions a `MaterialProperty` is built with: `table_size`, `p_order`, `n_material_states`, `std::stod`,
the conversions of `ptree`, `std::numeric_limits<double>::max()`. -/
structure Config where
  tableSize : ℕ
  pOrder : ℕ
  nStates : ℕ
  stod : List Char → Option ℝ
  uint : String → Option ℕ
  dbl : String → Option ℝ
  maxDouble : ℝ

/-- `std::stod(text)`: a number or an exception. -/
def number (c : Config) (t : List Char) : Outcome ℝ :=
  match c.stod t with
  | some x => .ok x
  | none => .throws

/-- One entry of a table, `source/MaterialProperty.templates.hh:950-972`.  The check `t_v.size() == 2` (953) is `ASSERT`, which
does nothing in a release build: with a single piece `t_v[1]` is read outside the vector, further pieces are ignored. -/
def parseEntry (c : Config) (t : List Char) : Outcome (ℝ × ℝ) :=
  match splitBy ',' t with
  | [] => .ub
  | [a] => (number c a).bind fun _ => .ub
  | a :: b :: _ => (number c a).bind fun x => (number c b).bind fun y => .ok (x, y)

/-- The views filled by `fill_properties`: `_state_property_tables` (material, property, state), `_state_property_polynomials`,
`_mechanical_properties_tables_host` (material, property), `_mechanical_properties_polynomials_host`, `_properties`. -/
structure Store where
  table : ℕ → ℕ → ℕ → Table
  poly : ℕ → ℕ → ℕ → ℕ → ℝ
  mechTable : ℕ → ℕ → ℕ → WithTop ℝ × WithTop ℝ
  mechPoly : ℕ → ℕ → ℕ → WithTop ℝ
  props : ℕ → ℕ → ℝ

/-- The views after their allocation, `source/MaterialProperty.templates.hh:804-898`: zero, except `_properties`, which is not
initialised (0 here, every entry that is read is written first). -/
def Store.empty : Store :=
  ⟨fun _ _ _ _ => (0, 0), fun _ _ _ _ => 0, fun _ _ _ => (((0 : ℝ) : WithTop ℝ), ((0 : ℝ) : WithTop ℝ)),
    fun _ _ _ => ((0 : ℝ) : WithTop ℝ), fun _ _ => 0⟩

/-- Writing the row `(a, b)` of a view. -/
def set2 {α : Type} (f : ℕ → ℕ → α) (a b : ℕ) (v : α) : ℕ → ℕ → α := fun a' b' => if a' = a ∧ b' = b then v else f a' b'

/-- Writing the row `(a, b, c)` of a view. -/
def set3 {α : Type} (f : ℕ → ℕ → ℕ → α) (a b c : ℕ) (v : α) : ℕ → ℕ → ℕ → α :=
  fun a' b' c' => if a' = a ∧ b' = b ∧ c' = c then v else f a' b' c'

/-- `g_n_thermal_state_properties`, `source/types.hh:60-85`: the first eight state properties. -/
def nThermal : ℕ := 8

/-- The row of a table view: the entries, then the last one repeated, `source/MaterialProperty.templates.hh:948-1003`. -/
def tableRow (N : ℕ) (rows : List (ℝ × ℝ)) : Table := fillRest (N - rows.length) rows.length fun i => rows.getD i (0, 0)

/-- A state property that is present, table format, `source/MaterialProperty.templates.hh:940-1004`. -/
def putTable (c : Config) (m st p : ℕ) (text : String) (s : Store) : Outcome Store :=
  if (splitBy '|' (strip text)).length ≤ c.tableSize then
    if p < nThermal then
      (collect (parseEntry c) (splitBy '|' (strip text))).bind fun rows =>
        .ok { s with table := set3 s.table m p st (tableRow c.tableSize rows) }
    else if st = 0 then
      (collect (parseEntry c) (splitBy '|' (strip text))).bind fun rows =>
        .ok { s with mechTable := set2 s.mechTable m (p - nThermal) fun i =>
          (((tableRow c.tableSize rows i).1 : WithTop ℝ), ((tableRow c.tableSize rows i).2 : WithTop ℝ)) }
    else .ok s
  else .throws

/-- A state property that is present, polynomial format, `source/MaterialProperty.templates.hh:1005-1029`. -/
def putPoly (c : Config) (m st p : ℕ) (text : String) (s : Store) : Outcome Store :=
  if (splitBy ',' (strip text)).length ≤ c.pOrder + 1 then
    if p < nThermal then
      (collect (number c) (splitBy ',' (strip text))).bind fun cs =>
        .ok { s with poly := set3 s.poly m p st fun i => if i < cs.length then cs.getD i 0 else s.poly m p st i }
    else if st = 0 then
      (collect (number c) (splitBy ',' (strip text))).bind fun cs =>
        .ok { s with mechPoly := set2 s.mechPoly m (p - nThermal) fun i =>
          if i < cs.length then ((cs.getD i 0 : ℝ) : WithTop ℝ) else s.mechPoly m (p - nThermal) i }
    else .ok s
  else .throws

/-- The body of the loop over the state properties, `source/MaterialProperty.templates.hh:924-1053`; a missing elastic limit of
the solid is infinite (1032-1052). `sd` is the section of the state. -/
def putProperty (c : Config) (useTable : Bool) (m st : ℕ) (sd : Tree) (s : Store) (p : ℕ) : Outcome Store :=
  match sd.str? [statePropertyNames.getD p ""] with
  | some text => if useTable then putTable c m st p text s else putPoly c m st p text s
  | none =>
    if statePropertyNames.getD p "" = "elastic_limit" ∧ st = 0 then
      if useTable then
        .ok { s with mechTable := set2 s.mechTable m (p - nThermal) fun i =>
          if i = 0 then (⊤, ⊤) else s.mechTable m (p - nThermal) i }
      else
        .ok { s with mechPoly := set2 s.mechPoly m (p - nThermal) fun i =>
          if i = 0 then ⊤ else s.mechPoly m (p - nThermal) i }
    else .ok s

/-- `property_names`, `source/types.hh:114-116`. -/
def propertyNames : List String :=
  ["liquidus", "solidus", "latent_heat", "radiation_temperature_infty", "convection_temperature_infty"]

/-- The body of the loop over the states, `source/MaterialProperty.templates.hh:914-1055`. -/
def putState (c : Config) (useTable : Bool) (m : ℕ) (md : Tree) (s : Store) (st : ℕ) : Outcome Store :=
  match md.child? (stateNames.getD st "") with
  | some sd => loop (putProperty c useTable m st sd) (List.range statePropertyNames.length) s
  | none => .ok s

/-- The body of the loop over the state-independent properties, `source/MaterialProperty.templates.hh:1060-1071`:
`get_optional<double>` gives nothing for a missing entry and for a text that is not a number. -/
def putConstant (c : Config) (m : ℕ) (md : Tree) (s : Store) (p : ℕ) : Outcome Store :=
  .ok { s with props := set2 s.props m p (((md.str? [propertyNames.getD p ""]).bind c.dbl).getD c.maxDouble) }

/-- The body of the loop over the materials, `source/MaterialProperty.templates.hh:905-1072`; `get_child` throws for a missing
section. -/
def putMaterial (c : Config) (useTable : Bool) (db : Tree) (s : Store) (m : ℕ) : Outcome Store :=
  match db.child? ("material_" ++ toString m) with
  | none => .throws
  | some md =>
    (loop (putState c useTable m md) (List.range c.nStates) s).bind fun s =>
      loop (putConstant c m md) (List.range propertyNames.length) s

/-- What `fill_properties` leaves behind: `_use_table`, the number of materials and the views. -/
structure Filled where
  useTable : Bool
  nMaterials : ℕ
  store : Store

/-- `MaterialProperty::fill_properties`, `source/MaterialProperty.templates.hh:795-1119`; `db` is the section `materials`. -/
def fill (c : Config) (db : Tree) : Outcome Filled :=
  match db.str? ["property_format"] with
  | none => .throws
  | some f =>
    match (db.str? ["n_materials"]).bind c.uint with
    | none => .throws
    | some n =>
      (loop (putMaterial c (decide (f = "table")) db) (List.range n) Store.empty).bind fun s =>
        .ok ⟨decide (f = "table"), n, s⟩

/-- The value of a thermal property of a state of a material at a temperature: `compute_property_from_table`, or the sum over the
coefficients, `source/MaterialProperty.templates.hh:357-397`. -/
noncomputable def Filled.thermal (c : Config) (r : Filled) (m p st : ℕ) (T : ℝ) : ℝ :=
  if r.useTable then lookup c.tableSize (r.store.table m p st) T
  else ∑ i ∈ Finset.range (c.pOrder + 1), r.store.poly m p st i * T ^ i

/-- `get_mechanical_property`, `source/MaterialProperty.templates.hh:179-190`, of the first entries copied at `:1090-1113`; `j` is
`prop - g_n_thermal_state_properties`. -/
def Filled.mechanical (r : Filled) (m j : ℕ) : WithTop ℝ :=
  if r.useTable then (r.store.mechTable m j 0).2 else r.store.mechPoly m j 0

/-- `get_cell_value(cell, Property)`, `source/MaterialProperty.templates.hh:160-172`, for a cell of material `m`. -/
def Filled.constant (r : Filled) (m p : ℕ) : ℝ := r.store.props m p

/-! ## Loops that touch one place at a time -/

theorem bind_ok {α β : Type} {x : Outcome α} {f : α → Outcome β} {b : β} (h : x.bind f = .ok b) :
    ∃ a, x = .ok a ∧ f a = .ok b := by
  cases x with
  | ok a => exact ⟨a, rfl, h⟩
  | throws => cases h
  | ub => cases h

/-- If every iteration but the `k`-th leaves `view` alone, the loop has the same effect on `view` as one run of the body for `k`
on some state that shows the initial `view`. -/
theorem loop_at {σ X : Type} (f : σ → ℕ → Outcome σ) (view : σ → X) (k : ℕ)
    (hf : ∀ i s s', i ≠ k → f s i = .ok s' → view s' = view s) (l : List ℕ) (hl : l.Nodup) :
    ∀ s s', loop f l s = .ok s' →
      (k ∉ l → view s' = view s) ∧ (k ∈ l → ∃ s1 s2, f s1 k = .ok s2 ∧ view s1 = view s ∧ view s' = view s2) := by
  induction l with
  | nil => intro s s' h; cases h; simp
  | cons i is ih =>
    intro s s' h
    obtain ⟨t, ht, hrest⟩ := bind_ok h
    have hn : i ∉ is := (List.nodup_cons.1 hl).1
    obtain ⟨h1, h2⟩ := ih (List.nodup_cons.1 hl).2 t s' hrest
    constructor
    · intro hk
      have hik : i ≠ k := fun e => hk (by simp [e])
      rw [h1 fun e => hk (by simp [e]), hf i s t hik ht]
    · intro hk
      by_cases hik : i = k
      · subst hik
        exact ⟨s, t, ht, rfl, h1 hn⟩
      · obtain ⟨s1, s2, h3, h4, h5⟩ := h2 (by simpa [Ne.symm hik] using hk)
        exact ⟨s1, s2, h3, by rw [h4, hf i s t hik ht], h5⟩

theorem loop_frame {σ X : Type} (f : σ → ℕ → Outcome σ) (view : σ → X) (l : List ℕ)
    (hf : ∀ i ∈ l, ∀ s s', f s i = .ok s' → view s' = view s) : ∀ s s', loop f l s = .ok s' → view s' = view s := by
  induction l with
  | nil => intro s s' h; cases h; rfl
  | cons i is ih =>
    intro s s' h
    obtain ⟨t, ht, hrest⟩ := bind_ok h
    rw [ih (fun j hj => hf j (by simp [hj])) t s' hrest, hf i (by simp) s t ht]

theorem loop_runs {σ : Type} (f : σ → ℕ → Outcome σ) (P : ℕ → Prop) (hf : ∀ i s, (∃ s', f s i = .ok s') ↔ P i)
    (l : List ℕ) : ∀ s, (∃ s', loop f l s = .ok s') ↔ ∀ i ∈ l, P i := by
  induction l with
  | nil => intro s; simp [loop]
  | cons i is ih =>
    intro s
    constructor
    · rintro ⟨s', h⟩
      obtain ⟨t, ht, hrest⟩ := bind_ok h
      intro j hj
      rcases List.mem_cons.1 hj with rfl | hj
      · exact (hf _ s).1 ⟨t, ht⟩
      · exact (ih t).1 ⟨s', hrest⟩ j hj
    · intro h
      obtain ⟨t, ht⟩ := (hf i s).2 (h i (by simp))
      obtain ⟨s', hs'⟩ := (ih t).2 fun j hj => h j (by simp [hj])
      exact ⟨s', by rw [loop, ht]; exact hs'⟩

/-- What the text of one property of one state gives. -/
theorem putProperty_frame (c : Config) (u : Bool) (m st : ℕ) (sd : Tree) (p : ℕ) (s s' : Store)
    (h : putProperty c u m st sd s p = .ok s') :
    (∀ m' p' st', ¬ (m' = m ∧ p' = p ∧ st' = st) → s'.table m' p' st' = s.table m' p' st') ∧
    (∀ m' p' st', ¬ (m' = m ∧ p' = p ∧ st' = st) → s'.poly m' p' st' = s.poly m' p' st') ∧
    (∀ m' j, ¬ (m' = m ∧ j + nThermal = p ∧ st = 0) → s'.mechTable m' j = s.mechTable m' j) ∧
    (∀ m' j, ¬ (m' = m ∧ j + nThermal = p ∧ st = 0) → s'.mechPoly m' j = s.mechPoly m' j) ∧ s'.props = s.props := by
  unfold putProperty at h
  cases ht : sd.str? [statePropertyNames.getD p ""] with
  | some text =>
    rw [ht] at h
    simp only at h
    cases u with
    | true =>
      simp only [if_true] at h
      unfold putTable at h
      split_ifs at h with h1 h2 h3
      · obtain ⟨rows, -, h⟩ := bind_ok h
        cases h
        refine ⟨fun a b d hn => ?_, fun _ _ _ _ => rfl, fun _ _ _ => rfl, fun _ _ _ => rfl, rfl⟩
        simp [set3, hn]
      · obtain ⟨rows, -, h⟩ := bind_ok h
        cases h
        refine ⟨fun _ _ _ _ => rfl, fun _ _ _ _ => rfl, fun a j hn => ?_, fun _ _ _ => rfl, rfl⟩
        have : ¬ (a = m ∧ j = p - nThermal) := by rintro ⟨e1, e2⟩; exact hn ⟨e1, by omega, h3⟩
        simp [set2, this]
      · cases h
        exact ⟨fun _ _ _ _ => rfl, fun _ _ _ _ => rfl, fun _ _ _ => rfl, fun _ _ _ => rfl, rfl⟩
    | false =>
      simp only [Bool.false_eq_true, if_false] at h
      unfold putPoly at h
      split_ifs at h with h1 h2 h3
      · obtain ⟨rows, -, h⟩ := bind_ok h
        cases h
        refine ⟨fun _ _ _ _ => rfl, fun a b d hn => ?_, fun _ _ _ => rfl, fun _ _ _ => rfl, rfl⟩
        simp [set3, hn]
      · obtain ⟨rows, -, h⟩ := bind_ok h
        cases h
        refine ⟨fun _ _ _ _ => rfl, fun _ _ _ _ => rfl, fun _ _ _ => rfl, fun a j hn => ?_, rfl⟩
        have : ¬ (a = m ∧ j = p - nThermal) := by rintro ⟨e1, e2⟩; exact hn ⟨e1, by omega, h3⟩
        simp [set2, this]
      · cases h
        exact ⟨fun _ _ _ _ => rfl, fun _ _ _ _ => rfl, fun _ _ _ => rfl, fun _ _ _ => rfl, rfl⟩
  | none =>
    rw [ht] at h
    simp only at h
    have hp : statePropertyNames.getD p "" = "elastic_limit" → p = 14 := by
      intro e
      by_contra hne
      by_cases hlt : p < 15
      · have : p = 0 ∨ p = 1 ∨ p = 2 ∨ p = 3 ∨ p = 4 ∨ p = 5 ∨ p = 6 ∨ p = 7 ∨ p = 8 ∨ p = 9 ∨ p = 10 ∨ p = 11 ∨ p = 12 ∨
          p = 13 := by omega
        rcases this with rfl | rfl | rfl | rfl | rfl | rfl | rfl | rfl | rfl | rfl | rfl | rfl | rfl | rfl <;>
          exact absurd e (by decide)
      · rw [List.getD_eq_default _ _ (by simpa [statePropertyNames] using hlt)] at e
        exact absurd e (by decide)
    split_ifs at h with h1 h2
    · cases h
      refine ⟨fun _ _ _ _ => rfl, fun _ _ _ _ => rfl, fun a j hn => ?_, fun _ _ _ => rfl, rfl⟩
      have : ¬ (a = m ∧ j = p - nThermal) := by
        rintro ⟨e1, e2⟩; have := hp h1.1; exact hn ⟨e1, by simp only [nThermal] at *; omega, h1.2⟩
      simp [set2, this]
    · cases h
      refine ⟨fun _ _ _ _ => rfl, fun _ _ _ _ => rfl, fun _ _ _ => rfl, fun a j hn => ?_, rfl⟩
      have : ¬ (a = m ∧ j = p - nThermal) := by
        rintro ⟨e1, e2⟩; have := hp h1.1; exact hn ⟨e1, by simp only [nThermal] at *; omega, h1.2⟩
      simp [set2, this]
    · cases h
      exact ⟨fun _ _ _ _ => rfl, fun _ _ _ _ => rfl, fun _ _ _ => rfl, fun _ _ _ => rfl, rfl⟩

/-- The section of a state of a material in the input. -/
def stateSection (db : Tree) (m st : ℕ) : Option Tree := db.get? ["material_" ++ toString m, stateNames.getD st ""]

theorem stateSection_eq (db : Tree) (m st : ℕ) :
    stateSection db m st = (db.child? ("material_" ++ toString m)).bind fun md => md.child? (stateNames.getD st "") := by
  unfold stateSection
  simp only [Tree.get?]
  cases db.child? ("material_" ++ toString m) with
  | none => rfl
  | some md => simp only [Option.bind_some]; cases md.child? (stateNames.getD st "") <;> rfl

/-- A view that only the property `p` of state `st` of material `m` can change shows, after `fill_properties`, what the body of
the innermost loop leaves for that property, or the initial zeros if the state has no section. -/
theorem fill_view {X : Type} (c : Config) (db : Tree) (r : Filled) (h : fill c db = .ok r) (view : Store → X) (m st p : ℕ)
    (hm : m < r.nMaterials) (hst : st < c.nStates) (hp : p < 15)
    (hprop : ∀ m' st' p' sd s s', ¬ (m' = m ∧ st' = st ∧ p' = p) → putProperty c r.useTable m' st' sd s p' = .ok s' →
      view s' = view s)
    (hconst : ∀ m' md s s' p', putConstant c m' md s p' = .ok s' → view s' = view s) :
    (∃ sd s1 s2, stateSection db m st = some sd ∧ putProperty c r.useTable m st sd s1 p = .ok s2 ∧
      view s1 = view Store.empty ∧ view r.store = view s2) ∨
    stateSection db m st = none ∧ view r.store = view Store.empty := by
  unfold fill at h
  cases hf : db.str? ["property_format"] with
  | none => rw [hf] at h; cases h
  | some f =>
    rw [hf] at h
    simp only at h
    cases hn : (db.str? ["n_materials"]).bind c.uint with
    | none => rw [hn] at h; cases h
    | some n =>
      rw [hn] at h
      simp only at h
      obtain ⟨s, hs, h⟩ := bind_ok h
      cases h
      simp only at hm hprop ⊢
      have stateFrame : ∀ m' md s s' st', ¬ (m' = m ∧ st' = st) →
          putState c (decide (f = "table")) m' md s st' = .ok s' → view s' = view s := by
        intro m' md s s' st' hne hh
        unfold putState at hh
        cases hc : md.child? (stateNames.getD st' "") with
        | none => rw [hc] at hh; cases hh; rfl
        | some sd =>
          rw [hc] at hh
          exact loop_frame _ view _ (fun p' _ s s' hx => hprop m' st' p' sd s s' (fun e => hne ⟨e.1, e.2.1⟩) hx) s s' hh
      have matFrame : ∀ m' s s', m' ≠ m → putMaterial c (decide (f = "table")) db s m' = .ok s' → view s' = view s := by
        intro m' s s' hne hh
        unfold putMaterial at hh
        cases hc : db.child? ("material_" ++ toString m') with
        | none => rw [hc] at hh; cases hh
        | some md =>
          rw [hc] at hh
          obtain ⟨t, ht, hh⟩ := bind_ok hh
          rw [loop_frame _ view _ (fun p' _ s s' hx => hconst m' md s s' p' hx) t s' hh]
          exact loop_frame _ view _ (fun st' _ s s' hx => stateFrame m' md s s' st' (fun e => hne e.1) hx) s t ht
      obtain ⟨s1, s2, h1, h2, h3⟩ := (loop_at _ view m (fun i s s' hi => matFrame i s s' hi) (List.range n) List.nodup_range
        Store.empty s hs).2 (List.mem_range.2 hm)
      unfold putMaterial at h1
      rw [stateSection_eq]
      cases hc : db.child? ("material_" ++ toString m) with
      | none => rw [hc] at h1; cases h1
      | some md =>
        rw [hc] at h1
        simp only [Option.bind_some]
        obtain ⟨t, ht, h1⟩ := bind_ok h1
        have hv := loop_frame _ view _ (fun p' _ s s' hx => hconst m md s s' p' hx) t s2 h1
        obtain ⟨a1, a2, h4, h5, h6⟩ := (loop_at _ view st (fun i s s' hi => stateFrame m md s s' i (fun e => hi e.2))
          (List.range c.nStates) List.nodup_range s1 t ht).2 (List.mem_range.2 hst)
        unfold putState at h4
        cases hd : md.child? (stateNames.getD st "") with
        | none =>
          rw [hd] at h4
          cases h4
          exact Or.inr ⟨rfl, by rw [h3, hv, h6, h5, h2]⟩
        | some sd =>
          rw [hd] at h4
          obtain ⟨b1, b2, h7, h8, h9⟩ := (loop_at _ view p
            (fun i s s' hi hx => hprop m st i sd s s' (fun e => hi e.2.2) hx)
            (List.range statePropertyNames.length) List.nodup_range a1 a2 h4).2
            (List.mem_range.2 (by simpa [statePropertyNames] using hp))
          exact Or.inl ⟨sd, b1, b2, rfl, h7, by rw [h8, h5, h2], by rw [h3, hv, h6, h9]⟩

end Verif.Material.Fill
