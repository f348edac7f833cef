import Verif.Material.FillProps
import Mathlib.Tactic.FinCases

/-!
# C101, C102, C103: mechanical properties, rejected inputs, state-independent properties
-/

namespace Verif.Material.Fill

open Verif.Input

/-! ## C101 -/

/-- The part of the store a mechanical property reads. -/
def mechSlot (m j : ℕ) (s : Store) : (ℕ → WithTop ℝ × WithTop ℝ) × (ℕ → WithTop ℝ) := (s.mechTable m j, s.mechPoly m j)

theorem fill_mech (c : Config) (db : Tree) (r : Filled) (h : fill c db = .ok r) (m j : ℕ)
    (hm : m < r.nMaterials) (hst : 0 < c.nStates) (hj : j < 7) :
    match textOf db m 0 (j + nThermal) with
    | none => ((j = 6 ∧ (stateSection db m 0).isSome) → r.mechanical m j = ⊤) ∧
        (¬ (j = 6 ∧ (stateSection db m 0).isSome) → mechSlot m j r.store = mechSlot m j Store.empty)
    | some text => ∃ s1 s2, mechSlot m j s1 = mechSlot m j Store.empty ∧ mechSlot m j r.store = mechSlot m j s2 ∧
        (if r.useTable then putTable c m 0 (j + nThermal) text s1 else putPoly c m 0 (j + nThermal) text s1) = .ok s2 := by
  have := fill_view c db r h (mechSlot m j) m 0 (j + nThermal) hm hst (by unfold nThermal; omega)
    (fun m' st' p' sd s s' hne hh => by
      have hf := putProperty_frame c r.useTable m' st' sd p' s s' hh
      unfold mechSlot
      rw [hf.2.2.1 m j fun e => hne ⟨e.1.symm, e.2.2, e.2.1.symm⟩,
        hf.2.2.2.1 m j fun e => hne ⟨e.1.symm, e.2.2, e.2.1.symm⟩])
    (fun m' md s s' p' hh => by cases hh; rfl)
  rw [textOf_eq]
  rcases this with ⟨sd, s1, s2, h1, h2, h3, h4⟩ | ⟨h1, h2⟩
  · rw [h1]
    simp only [Option.bind_some]
    unfold putProperty at h2
    cases ht : sd.str? [statePropertyNames.getD (j + nThermal) ""] with
    | some text =>
      rw [ht] at h2
      exact ⟨s1, s2, h3, h4, h2⟩
    | none =>
      rw [ht] at h2
      simp only [Option.isSome_some, and_true] at h2 ⊢
      have hname : statePropertyNames.getD (j + nThermal) "" = "elastic_limit" ↔ j = 6 := by
        have : j = 0 ∨ j = 1 ∨ j = 2 ∨ j = 3 ∨ j = 4 ∨ j = 5 ∨ j = 6 := by omega
        rcases this with rfl | rfl | rfl | rfl | rfl | rfl | rfl <;> decide
      constructor
      · intro h6
        rw [if_pos (hname.2 h6)] at h2
        unfold Filled.mechanical
        have e1 := congrFun (congrArg Prod.fst h4) 0
        have e2 := congrFun (congrArg Prod.snd h4) 0
        simp only [mechSlot] at e1 e2
        cases hu : r.useTable with
        | true =>
          rw [hu, if_pos rfl] at h2
          cases h2
          simp only [if_true]
          rw [e1]
          simp [set2]
        | false =>
          rw [hu, if_neg Bool.false_ne_true] at h2
          cases h2
          simp only [Bool.false_eq_true, if_false]
          rw [e2]
          simp [set2]
      · intro h6
        rw [if_neg fun e => h6 (hname.1 e)] at h2
        cases h2
        rw [h4, h3]
  · rw [h1]
    simp only [Option.bind_none, Option.isSome_none, Bool.false_eq_true, and_false, not_false_eq_true]
    exact ⟨False.elim, fun _ => h2⟩

theorem tableRow_zero (N : ℕ) (rows : List (ℝ × ℝ)) (hne : rows ≠ []) : tableRow N rows 0 = rows.getD 0 (0, 0) := by
  unfold tableRow
  rw [fillRest_below _ _ _ _ (List.length_pos_iff.2 hne)]

/-- **C101 (value; the dependence on the temperature is missing).**  A mechanical property that is given for the solid has the
first value of its table, respectively its constant coefficient. -/
theorem C101_first_value_partial (c : Config) (db : Tree) (r : Filled) (h : fill c db = .ok r) (m j : ℕ)
    (hm : m < r.nMaterials) (hst : 0 < c.nStates) (hj : j < 7) (text : String) (ht : textOf db m 0 (j + 8) = some text) :
    (db.str? ["property_format"] = some "table" → ∀ T v rest, IsTable c.stod text ((T, v) :: rest) →
      r.mechanical m j = (v : WithTop ℝ)) ∧
    (∀ f, db.str? ["property_format"] = some f → f ≠ "table" → ∀ v rest, IsPolynomial c.stod text (v :: rest) →
      r.mechanical m j = (v : WithTop ℝ)) := by
  have key := fill_mech c db r h m j hm hst hj
  rw [show j + nThermal = j + 8 from rfl, ht] at key
  obtain ⟨s1, s2, h1, h2, h3⟩ := key
  have hfmt : ∀ f, db.str? ["property_format"] = some f → r.useTable = decide (f = "table") := by
    intro f hf
    unfold fill at h
    rw [hf] at h
    simp only at h
    cases hn : (db.str? ["n_materials"]).bind c.uint with
    | none => rw [hn] at h; cases h
    | some n =>
      rw [hn] at h
      obtain ⟨s, hs, h⟩ := bind_ok h
      cases h
      rfl
  have hnt : ¬ j + 8 < nThermal := by unfold nThermal; omega
  have hsub : j + 8 - nThermal = j := by unfold nThermal; omega
  constructor
  · intro hf T v rest hrows
    have hu := hfmt _ hf
    simp only [decide_true] at hu
    obtain ⟨hparse, hlen⟩ := isTable_entries hrows
    rw [hu, if_pos rfl] at h3
    unfold putTable at h3
    rw [hparse, if_neg hnt, if_pos rfl] at h3
    split_ifs at h3 with hN
    cases h3
    have e := congrFun (congrArg Prod.fst h2) 0
    simp only [mechSlot, set2, hsub, and_self, if_true] at e
    unfold Filled.mechanical
    rw [hu, if_pos rfl, e, tableRow_zero _ _ (by simp)]
    rfl
  · intro f hf hne v rest hcoefs
    have hu := hfmt _ hf
    rw [show decide (f = "table") = false from by simpa using hne] at hu
    obtain ⟨hparse, hlen⟩ := isPolynomial_pieces hcoefs
    rw [hu, if_neg Bool.false_ne_true] at h3
    unfold putPoly at h3
    rw [hparse, if_neg hnt, if_pos rfl] at h3
    split_ifs at h3 with hN
    cases h3
    have e := congrFun (congrArg Prod.snd h2) 0
    simp only [mechSlot, set2, hsub, and_self, if_true] at e
    unfold Filled.mechanical
    rw [hu, if_neg Bool.false_ne_true, e]
    simp

/-- **C101, missing entries.**  A material whose solid has no elastic limit in the input has an infinite elastic limit (it never
yields); every other mechanical property that is not given is zero. -/
theorem C101_missing (c : Config) (db : Tree) (r : Filled) (h : fill c db = .ok r) (m j : ℕ)
    (hm : m < r.nMaterials) (hst : 0 < c.nStates) (hj : j < 7) (ht : textOf db m 0 (j + 8) = none) :
    ((stateSection db m 0).isSome → statePropertyNames[j + 8]? = some "elastic_limit" → r.mechanical m j = ⊤) ∧
    (statePropertyNames[j + 8]? ≠ some "elastic_limit" → r.mechanical m j = ((0 : ℝ) : WithTop ℝ)) := by
  have key := fill_mech c db r h m j hm hst hj
  rw [show j + nThermal = j + 8 from rfl, ht] at key
  have hname : statePropertyNames[j + 8]? = some "elastic_limit" ↔ j = 6 := by
    have : j = 0 ∨ j = 1 ∨ j = 2 ∨ j = 3 ∨ j = 4 ∨ j = 5 ∨ j = 6 := by omega
    rcases this with rfl | rfl | rfl | rfl | rfl | rfl | rfl <;> decide
  rw [hname, ne_eq, hname]
  refine ⟨fun hs h6 => key.1 ⟨h6, hs⟩, fun h6 => ?_⟩
  have e := key.2 fun e => h6 e.1
  unfold Filled.mechanical
  rw [show r.store.mechTable m j = fun _ => (((0 : ℝ) : WithTop ℝ), ((0 : ℝ) : WithTop ℝ)) from congrArg Prod.fst e,
    show r.store.mechPoly m j = fun _ => ((0 : ℝ) : WithTop ℝ) from congrArg Prod.snd e]
  simp

/-- **C101, liquid and powder do not matter.**  The mechanical properties depend on the sections of the solid only. -/
theorem C101_solid_only (c : Config) (db db' : Tree) (r r' : Filled) (h : fill c db = .ok r) (h' : fill c db' = .ok r')
    (m j : ℕ) (hu : r.useTable = r'.useTable) (hm : m < r.nMaterials) (hm' : m < r'.nMaterials) (hst : 0 < c.nStates) (hj : j < 7)
    (ht : textOf db m 0 (j + 8) = textOf db' m 0 (j + 8))
    (hs : (stateSection db m 0).isSome = (stateSection db' m 0).isSome) : r.mechanical m j = r'.mechanical m j := by
  have a := fill_mech c db r h m j hm hst hj
  have b := fill_mech c db' r' h' m j hm' hst hj
  rw [show j + nThermal = j + 8 from rfl] at a b
  rw [ht] at a
  have nt : ¬ j + 8 < nThermal := by unfold nThermal; omega
  have sub : j + 8 - nThermal = j := by unfold nThermal; omega
  have fin : mechSlot m j r.store = mechSlot m j r'.store → r.mechanical m j = r'.mechanical m j := by
    intro e
    unfold Filled.mechanical
    rw [show r.store.mechTable m j = r'.store.mechTable m j from congrArg Prod.fst e,
      show r.store.mechPoly m j = r'.store.mechPoly m j from congrArg Prod.snd e, hu]
  cases htx : textOf db' m 0 (j + 8) with
  | none =>
    rw [htx] at a b
    simp only at a b
    by_cases h6 : j = 6 ∧ (stateSection db m 0).isSome
    · rw [a.1 h6, b.1 (by rw [← hs]; exact h6)]
    · exact fin ((a.2 h6).trans (b.2 (by rw [← hs]; exact h6)).symm)
  | some text =>
    rw [htx] at a b
    obtain ⟨s1, s2, a1, a2, a3⟩ := a
    obtain ⟨t1, t2, b1, b2, b3⟩ := b
    apply fin
    rw [a2, b2]
    rw [← hu] at b3
    have hz : mechSlot m j s1 = mechSlot m j t1 := a1.trans b1.symm
    have z1 : s1.mechTable m j = t1.mechTable m j := congrArg Prod.fst hz
    have z2 : s1.mechPoly m j = t1.mechPoly m j := congrArg Prod.snd hz
    cases hb : r.useTable with
    | true =>
      rw [hb, if_pos rfl] at a3 b3
      unfold putTable at a3 b3
      rw [if_neg nt, if_pos rfl] at a3 b3
      split_ifs at a3 b3 with hN
      obtain ⟨rows, hr, a3⟩ := bind_ok a3
      rw [hr] at b3
      cases a3
      cases b3
      simp [mechSlot, set2, sub, z2]
    | false =>
      rw [hb, if_neg Bool.false_ne_true] at a3 b3
      unfold putPoly at a3 b3
      rw [if_neg nt, if_pos rfl] at a3 b3
      split_ifs at a3 b3 with hN
      obtain ⟨rows, hr, a3⟩ := bind_ok a3
      rw [hr] at b3
      cases a3
      cases b3
      simp [mechSlot, set2, sub, z1, z2]

/-- **C101, density.**  The density used for the weight of the body is the first entry of the density of the solid, the same
text the thermal simulation reads. -/
theorem C101_density (db : Tree) (m : ℕ) : textOf db m 0 (3 + 8) = textOf db m 0 0 := rfl

/-- **C101 fails: the temperature is ignored.**  For every increasing table with at least two rows and a first value that differs
from the second, the mechanical property differs from the value of the table at its second temperature. -/
theorem C101_temperature_refuted (c : Config) (db : Tree) (r : Filled) (h : fill c db = .ok r)
    (hf : db.str? ["property_format"] = some "table") (m j : ℕ) (hm : m < r.nMaterials) (hst : 0 < c.nStates) (hj : j < 7)
    (text : String) (ht : textOf db m 0 (j + 8) = some text) (p0 p1 : ℝ × ℝ) (rest : List (ℝ × ℝ))
    (hrows : IsTable c.stod text (p0 :: p1 :: rest)) (hne : p0.2 ≠ p1.2) (value : ℝ → ℝ)
    (hval : Interpolates (p0 :: p1 :: rest) value) : r.mechanical m j ≠ (value p1.1 : WithTop ℝ) := by
  rw [(C101_first_value_partial c db r h m j hm hst hj text ht).1 hf p0.1 p0.2 (p1 :: rest) hrows, hval.at_points 1 p1 rfl]
  exact fun e => hne (WithTop.coe_injective e)

/-! ## C103 -/

theorem fill_props (c : Config) (db : Tree) (r : Filled) (h : fill c db = .ok r) (m p : ℕ) (hm : m < r.nMaterials) (hp : p < 5) :
    r.constant m p = ((db.str? ["material_" ++ toString m, propertyNames.getD p ""]).bind c.dbl).getD c.maxDouble := by
  unfold fill at h
  cases hf : db.str? ["property_format"] with
  | none => rw [hf] at h; cases h
  | some f =>
    rw [hf] at h
    simp only at h
    cases hn : (db.str? ["n_materials"]).bind c.uint with
    | none => rw [hn] at h; cases h
    | some n =>
      rw [hn] at h
      obtain ⟨s, hs, h⟩ := bind_ok h
      cases h
      simp only at hm
      let view : Store → ℝ := fun s => s.props m p
      have stateFrame : ∀ m' md s s' st', putState c (decide (f = "table")) m' md s st' = .ok s' → view s' = view s := by
        intro m' md s s' st' hh
        unfold putState at hh
        cases hc : md.child? (stateNames.getD st' "") with
        | none => rw [hc] at hh; cases hh; rfl
        | some sd =>
          rw [hc] at hh
          exact loop_frame _ view _ (fun p' _ s s' hx =>
            congrFun (congrFun (putProperty_frame c _ m' st' sd p' s s' hx).2.2.2.2 m) p) s s' hh
      have constFrame : ∀ m' md s s' p', ¬ (m' = m ∧ p' = p) → putConstant c m' md s p' = .ok s' → view s' = view s := by
        intro m' md s s' p' hne hh
        cases hh
        have : ¬ (m = m' ∧ p = p') := fun e => hne ⟨e.1.symm, e.2.symm⟩
        simp [view, set2, this]
      have matFrame : ∀ m' s s', m' ≠ m → putMaterial c (decide (f = "table")) db s m' = .ok s' → view s' = view s := by
        intro m' s s' hne hh
        unfold putMaterial at hh
        cases hc : db.child? ("material_" ++ toString m') with
        | none => rw [hc] at hh; cases hh
        | some md =>
          rw [hc] at hh
          obtain ⟨t, ht, hh⟩ := bind_ok hh
          rw [loop_frame _ view _ (fun p' _ s s' hx => constFrame m' md s s' p' (fun e => hne e.1) hx) t s' hh]
          exact loop_frame _ view _ (fun st' _ s s' hx => stateFrame m' md s s' st' hx) s t ht
      obtain ⟨s1, s2, h1, h2, h3⟩ := (loop_at _ view m (fun i s s' hi => matFrame i s s' hi) (List.range n) List.nodup_range
        Store.empty s hs).2 (List.mem_range.2 hm)
      unfold putMaterial at h1
      cases hc : db.child? ("material_" ++ toString m) with
      | none => rw [hc] at h1; cases h1
      | some md =>
        rw [hc] at h1
        obtain ⟨t, ht, h1⟩ := bind_ok h1
        obtain ⟨a1, a2, h4, h5, h6⟩ := (loop_at _ view p (fun i s s' hi => constFrame m md s s' i (fun e => hi e.2))
          (List.range propertyNames.length) List.nodup_range t s2 h1).2 (List.mem_range.2 (by simpa [propertyNames] using hp))
        have e : view s = view a2 := h3.trans h6
        change view s = _
        rw [e]
        cases h4
        have : db.str? ["material_" ++ toString m, propertyNames.getD p ""] = md.str? [propertyNames.getD p ""] := by
          unfold Tree.str?
          simp only [Tree.get?, hc, Option.bind_some]
        rw [this]
        simp [view, set2]

/-- The name, in the input, of constant number `p` of the enumeration `Property` (`source/types.hh`). -/
def constantKey (p : ℕ) : String :=
  ["liquidus", "solidus", "latent_heat", "radiation_temperature_infty", "convection_temperature_infty"].getD p ""

/-- **C103.**  A state-independent property has the number given for its material. -/
theorem C103_given (c : Config) (db : Tree) (r : Filled) (h : fill c db = .ok r) (m p : ℕ) (hm : m < r.nMaterials) (hp : p < 5)
    (text : String) (x : ℝ) (ht : db.str? ["material_" ++ toString m, constantKey p] = some text)
    (hx : c.dbl text = some x) : r.constant m p = x := by
  rw [fill_props c db r h m p hm hp, show propertyNames.getD p "" = constantKey p from rfl, ht]
  simp [hx]

/-- **C103, missing entries.**  A state-independent property that is not given is the largest number; a material without a
solidus never melts. -/
theorem C103_missing (c : Config) (db : Tree) (r : Filled) (h : fill c db = .ok r) (m : ℕ) (hm : m < r.nMaterials) :
    (∀ p < 5, db.str? ["material_" ++ toString m, constantKey p] = none → r.constant m p = c.maxDouble) ∧
    (db.str? ["material_" ++ toString m, "solidus"] = none → ∀ T : ℝ, T < c.maxDouble →
      liquidRatio ⟨r.constant m 1, r.constant m 0⟩ T = some 0) := by
  constructor
  · intro p hp ht
    rw [fill_props c db r h m p hm hp, show propertyNames.getD p "" = constantKey p from rfl, ht]
    rfl
  · intro ht T hT
    have : r.constant m 1 = c.maxDouble := by
      rw [fill_props c db r h m 1 hm (by norm_num), show propertyNames.getD 1 "" = "solidus" from rfl, ht]
      rfl
    unfold liquidRatio
    rw [if_pos (by rw [this]; exact hT)]

/-- **C103 fails for texts that are not numbers.**  A solidus or liquidus that is given but cannot be read as a number is
treated as if it were not given: no exception is thrown and the material never melts. -/
theorem C103_unreadable_refuted (c : Config) (db : Tree) (r : Filled) (h : fill c db = .ok r) (m : ℕ) (hm : m < r.nMaterials)
    (text : String) (ht : db.str? ["material_" ++ toString m, "solidus"] = some text) (hx : c.dbl text = none) (T : ℝ)
    (hT : T < c.maxDouble) : liquidRatio ⟨r.constant m 1, r.constant m 0⟩ T = some 0 := by
  have : r.constant m 1 = c.maxDouble := by
    rw [fill_props c db r h m 1 hm (by norm_num), show propertyNames.getD 1 "" = "solidus" from rfl, ht]
    simp [hx]
  unfold liquidRatio
  rw [if_pos (by rw [this]; exact hT)]

end Verif.Material.Fill
