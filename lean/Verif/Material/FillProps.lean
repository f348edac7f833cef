import Verif.Material.Fill
import Verif.Material.Phase
import Mathlib.Data.List.Forall2

/-!
# C100, C101, C102, C103: what the material section of the input means
-/

namespace Verif.Material.Fill

open Verif.Input

/-! ## Specification -/

/-- The name, in the input, of state number `st` of the enumeration `MaterialState` (`source/types.hh`). -/
def stateKey (st : ℕ) : String := ["solid", "liquid", "powder"].getD st ""

/-- The name, in the input, of property number `p` of the enumeration `StateProperty` (`source/types.hh`). -/
def propertyKey (p : ℕ) : String :=
  ["density", "specific_heat", "thermal_conductivity_x", "thermal_conductivity_y", "thermal_conductivity_z", "emissivity",
    "radiation_heat_transfer_coef", "convection_heat_transfer_coef", "lame_first_parameter", "lame_second_parameter",
    "thermal_expansion_coef", "density", "plastic_modulus", "isotropic_hardening", "elastic_limit"].getD p ""

/-- The text found in the input for property `p` of state `st` of material `m`. -/
def textOf (db : Tree) (m st p : ℕ) : Option String :=
  db.str? ["material_" ++ toString m, stateKey st, propertyKey p]

/-- A character counts as blank if it is a space, a tab, a new line, a vertical tab, a form feed or a carriage return. -/
def IsBlank (c : Char) : Prop := c ∈ [' ', '\t', '\n', Char.ofNat 11, Char.ofNat 12, '\r']

instance (c : Char) : Decidable (IsBlank c) := by unfold IsBlank; infer_instance

/-- The text, without its blanks, is `T₀,v₀|T₁,v₁|…` with these numbers. -/
def IsTable (stod : List Char → Option ℝ) (text : String) (rows : List (ℝ × ℝ)) : Prop :=
  rows ≠ [] ∧ ∃ ps : List (List Char × List Char),
    text.toList.filter (fun c => ¬ IsBlank c) = List.intercalate ['|'] (ps.map fun p => p.1 ++ ',' :: p.2) ∧
    (∀ p ∈ ps, ',' ∉ p.1 ∧ '|' ∉ p.1 ∧ ',' ∉ p.2 ∧ '|' ∉ p.2) ∧
    List.Forall₂ (fun p r => stod p.1 = some r.1 ∧ stod p.2 = some r.2) ps rows

/-- The text, without its blanks, is `c₀,c₁,…` with these numbers. -/
def IsPolynomial (stod : List Char → Option ℝ) (text : String) (coefs : List ℝ) : Prop :=
  coefs ≠ [] ∧ ∃ ps : List (List Char),
    text.toList.filter (fun c => ¬ IsBlank c) = List.intercalate [','] ps ∧ (∀ p ∈ ps, ',' ∉ p) ∧
    List.Forall₂ (fun p r => stod p = some r) ps coefs

/-! ## Splitting -/

theorem splitBy_none {d : Char} {l : List Char} (h : d ∉ l) : splitBy d l = [l] := by
  induction l with
  | nil => rfl
  | cons c cs ih =>
    have hc : c ≠ d := fun e => h (by simp [e])
    have hcs : d ∉ cs := fun e => h (by simp [e])
    simp [splitBy, hc, ih hcs]

theorem splitBy_append {d : Char} {l r : List Char} (h : d ∉ l) : splitBy d (l ++ d :: r) = l :: splitBy d r := by
  induction l with
  | nil => simp [splitBy]
  | cons c cs ih =>
    have hc : c ≠ d := fun e => h (by simp [e])
    have hcs : d ∉ cs := fun e => h (by simp [e])
    simp [splitBy, hc, ih hcs]

theorem splitBy_intercalate (d : Char) (ls : List (List Char)) (hne : ls ≠ []) (h : ∀ l ∈ ls, d ∉ l) :
    splitBy d (List.intercalate [d] ls) = ls := by
  induction ls with
  | nil => exact absurd rfl hne
  | cons a t ih =>
    cases t with
    | nil => simpa [List.intercalate] using splitBy_none (h a (by simp))
    | cons b t' =>
      have e : List.intercalate [d] (a :: b :: t') = a ++ d :: List.intercalate [d] (b :: t') := by
        simp [List.intercalate, List.intersperse]
      rw [e, splitBy_append (h a (by simp)), ih (by simp) (fun l hl => h l (by simp [hl]))]

theorem splitBy_ne_nil (d : Char) (l : List Char) : splitBy d l ≠ [] := by
  cases l with
  | nil => simp [splitBy]
  | cons c cs =>
    by_cases h : c = d
    · simp [splitBy, h]
    · simp only [splitBy, h, if_false]
      cases splitBy d cs <;> simp

theorem splitBy_length (d : Char) (l : List Char) : (splitBy d l).length = l.count d + 1 := by
  induction l with
  | nil => rfl
  | cons c cs ih =>
    by_cases h : c = d
    · simp [splitBy, h, ih]
    · rw [List.count_cons_of_ne (Ne.symm (Ne.symm h))]
      simp only [splitBy, h, if_false]
      cases hs : splitBy d cs with
      | nil => exact absurd hs (splitBy_ne_nil d cs)
      | cons p ps => rw [hs] at ih; simpa using ih

theorem collect_ok {α β : Type} {f : α → Outcome β} {l : List α} {bs : List β} :
    collect f l = .ok bs ↔ List.Forall₂ (fun a b => f a = .ok b) l bs := by
  induction l generalizing bs with
  | nil =>
    simp only [collect, List.forall₂_nil_left_iff]
    constructor
    · intro h; cases h; rfl
    · rintro rfl; rfl
  | cons a as ih =>
    simp only [collect, List.forall₂_cons_left_iff]
    constructor
    · intro h
      obtain ⟨b, hb, h⟩ := bind_ok h
      obtain ⟨bs', hbs, h⟩ := bind_ok h
      cases h
      exact ⟨b, bs', hb, ih.1 hbs, rfl⟩
    · rintro ⟨b, bs', hb, hbs, rfl⟩
      rw [hb, show collect f as = .ok bs' from ih.2 hbs]
      rfl

theorem number_ok {c : Config} {t : List Char} {x : ℝ} : number c t = .ok x ↔ c.stod t = some x := by
  unfold number
  cases c.stod t with
  | none => simp
  | some y => simp

theorem forall₂_map_left' {α β γ : Type} (g : α → β) (R : β → γ → Prop) (l : List α) (r : List γ) :
    List.Forall₂ (fun a c => R (g a) c) l r → List.Forall₂ R (l.map g) r := by
  intro h
  induction h with
  | nil => exact .nil
  | cons h _ ih => exact .cons h ih

theorem forall₂_mono {α β : Type} {R S : α → β → Prop} {l : List α} {r : List β}
    (hRS : ∀ a ∈ l, ∀ b, R a b → S a b) (h : List.Forall₂ R l r) : List.Forall₂ S l r := by
  induction h with
  | nil => exact .nil
  | cons h _ ih => exact .cons (hRS _ (by simp) _ h) (ih fun a ha => hRS a (by simp [ha]))

theorem blank_iff (c : Char) : blank c = true ↔ IsBlank c := by
  have hc : ∀ d : Char, c = d ↔ c.toNat = d.toNat := fun d => ⟨fun h => by rw [h], fun h => by
    have := congrArg Char.ofNat h
    rwa [Char.ofNat_toNat, Char.ofNat_toNat] at this⟩
  unfold blank IsBlank
  simp only [Bool.or_eq_true, Bool.and_eq_true, decide_eq_true_eq, List.mem_cons, List.not_mem_nil, or_false, hc]
  rw [show (' ').toNat = 32 from rfl, show ('\t').toNat = 9 from rfl, show ('\n').toNat = 10 from rfl,
    show (Char.ofNat 11).toNat = 11 from rfl, show (Char.ofNat 12).toNat = 12 from rfl, show ('\r').toNat = 13 from rfl]
  omega

theorem strip_eq (text : String) : strip text = text.toList.filter (fun c => ¬ IsBlank c) := by
  unfold strip
  refine List.filter_congr fun c _ => ?_
  by_cases h : IsBlank c
  · simp [h, (blank_iff c).2 h]
  · simp [h, Bool.eq_false_iff.2 fun e => h ((blank_iff c).1 e)]

theorem isTable_entries {c : Config} {text : String} {rows : List (ℝ × ℝ)} (h : IsTable c.stod text rows) :
    collect (parseEntry c) (splitBy '|' (strip text)) = .ok rows ∧ (splitBy '|' (strip text)).length = rows.length := by
  obtain ⟨hne, ps, htext, hno, hps⟩ := h
  have hl : ps.length = rows.length := hps.length_eq
  have hpne : ps.map (fun p => p.1 ++ ',' :: p.2) ≠ [] := by
    intro e
    apply hne
    rw [List.map_eq_nil_iff] at e
    subst e
    exact List.length_eq_zero_iff.1 hl.symm
  have hsplit : splitBy '|' (strip text) = ps.map fun p => p.1 ++ ',' :: p.2 := by
    rw [strip_eq, htext, splitBy_intercalate '|' _ hpne]
    intro l hl
    obtain ⟨p, hp, rfl⟩ := List.mem_map.1 hl
    obtain ⟨-, h1, -, h2⟩ := hno p hp
    simp only [List.mem_append, List.mem_cons, not_or]
    exact ⟨h1, by decide, h2⟩
  rw [hsplit]
  refine ⟨collect_ok.2 (forall₂_map_left' _ _ _ _ (forall₂_mono (fun p hp r hr => ?_) hps)), by simpa using hl⟩
  obtain ⟨h1, -, h2, -⟩ := hno p hp
  unfold parseEntry
  rw [splitBy_append h1, splitBy_none h2]
  simp only
  rw [number_ok.2 hr.1, number_ok.2 hr.2]
  rfl

theorem isPolynomial_pieces {c : Config} {text : String} {coefs : List ℝ} (h : IsPolynomial c.stod text coefs) :
    collect (number c) (splitBy ',' (strip text)) = .ok coefs ∧ (splitBy ',' (strip text)).length = coefs.length := by
  obtain ⟨hne, ps, htext, hno, hps⟩ := h
  have hl : ps.length = coefs.length := hps.length_eq
  have hpne : ps ≠ [] := by rintro rfl; exact hne (List.length_eq_zero_iff.1 hl.symm)
  have hsplit : splitBy ',' (strip text) = ps := by
    rw [strip_eq, htext, splitBy_intercalate ',' _ hpne hno]
  rw [hsplit]
  exact ⟨collect_ok.2 (forall₂_mono (fun p _ r hr => number_ok.2 hr) hps), hl⟩

/-! ## C100 -/

theorem textOf_eq (db : Tree) (m st p : ℕ) :
    textOf db m st p = (stateSection db m st).bind fun sd => sd.str? [statePropertyNames.getD p ""] := by
  rw [stateSection_eq]
  unfold textOf Tree.str?
  rw [show stateKey st = stateNames.getD st "" from rfl, show propertyKey p = statePropertyNames.getD p "" from rfl]
  simp only [Tree.get?]
  cases db.child? ("material_" ++ toString m) with
  | none => rfl
  | some md =>
    simp only [Option.bind_some]
    cases md.child? (stateNames.getD st "") <;> rfl

/-- The part of the store a thermal property reads. -/
def slot (m p st : ℕ) (s : Store) : Table × (ℕ → ℝ) := (s.table m p st, s.poly m p st)

theorem fill_slot (c : Config) (db : Tree) (r : Filled) (h : fill c db = .ok r) (m st p : ℕ)
    (hm : m < r.nMaterials) (hst : st < c.nStates) (hp : p < nThermal) :
    match textOf db m st p with
    | none => slot m p st r.store = slot m p st Store.empty
    | some text => ∃ s1 s2, slot m p st s1 = slot m p st Store.empty ∧ slot m p st r.store = slot m p st s2 ∧
        (if r.useTable then putTable c m st p text s1 else putPoly c m st p text s1) = .ok s2 := by
  have hp15 : p < 15 := by unfold nThermal at hp; omega
  have := fill_view c db r h (slot m p st) m st p hm hst hp15
    (fun m' st' p' sd s s' hne hh => by
      have hf := putProperty_frame c r.useTable m' st' sd p' s s' hh
      unfold slot
      rw [hf.1 m p st fun e => hne ⟨e.1.symm, e.2.2.symm, e.2.1.symm⟩,
        hf.2.1 m p st fun e => hne ⟨e.1.symm, e.2.2.symm, e.2.1.symm⟩])
    (fun m' md s s' p' hh => by cases hh; rfl)
  rw [textOf_eq]
  rcases this with ⟨sd, s1, s2, h1, h2, h3, h4⟩ | ⟨h1, h2⟩
  · rw [h1]
    simp only [Option.bind_some]
    unfold putProperty at h2
    cases ht : sd.str? [statePropertyNames.getD p ""] with
    | some text =>
      rw [ht] at h2
      exact ⟨s1, s2, h3, h4, h2⟩
    | none =>
      rw [ht] at h2
      simp only at h2 ⊢
      have hne : statePropertyNames.getD p "" ≠ "elastic_limit" := by
        unfold nThermal at hp
        have : p = 0 ∨ p = 1 ∨ p = 2 ∨ p = 3 ∨ p = 4 ∨ p = 5 ∨ p = 6 ∨ p = 7 := by omega
        rcases this with rfl | rfl | rfl | rfl | rfl | rfl | rfl | rfl <;> decide
      rw [if_neg fun e => hne e.1] at h2
      cases h2
      rw [h4, h3]
  · rw [h1]
    exact h2

/-- **C100, table format.**  If the input gives a table for property `p` of state `st` of material `m`, then the value of that
property of that state of that material at every temperature is the value of that table (C33). -/
theorem C100_table (c : Config) (db : Tree) (r : Filled) (h : fill c db = .ok r) (htab : db.str? ["property_format"] = some "table")
    (m st p : ℕ) (hm : m < r.nMaterials) (hst : st < c.nStates) (hp : p < 8) (text : String)
    (ht : textOf db m st p = some text) (rows : List (ℝ × ℝ)) (hrows : IsTable c.stod text rows) :
    ∃ t, readTable c.tableSize rows = some t ∧ ∀ T : ℝ, r.thermal c m p st T = lookup c.tableSize t T := by
  have hu : r.useTable = true := by
    unfold fill at h
    rw [htab] at h
    simp only at h
    cases hn : (db.str? ["n_materials"]).bind c.uint with
    | none => rw [hn] at h; cases h
    | some n =>
      rw [hn] at h
      obtain ⟨s, hs, h⟩ := bind_ok h
      cases h
      rfl
  have := fill_slot c db r h m st p hm hst hp
  rw [ht] at this
  obtain ⟨s1, s2, h1, h2, h3⟩ := this
  obtain ⟨hparse, hlen⟩ := isTable_entries hrows
  rw [hu, if_pos rfl] at h3
  unfold putTable at h3
  rw [hparse, hlen, if_pos (show p < nThermal from hp)] at h3
  by_cases hN : rows.length ≤ c.tableSize
  · rw [if_pos hN] at h3
    cases h3
    refine ⟨tableRow c.tableSize rows, by simp [readTable, hrows.1, hN, tableRow], fun T => ?_⟩
    have e : r.store.table m p st = tableRow c.tableSize rows := by
      have := congrArg Prod.fst h2
      simpa [slot, set3] using this
    unfold Filled.thermal
    rw [hu, if_pos rfl, e]
  · rw [if_neg hN] at h3
    cases h3

/-- **C100, polynomial format.**  If the input gives coefficients for property `p` of state `st` of material `m`, then the value
of that property of that state of that material at every temperature is the value of that polynomial. -/
theorem C100_polynomial (c : Config) (db : Tree) (r : Filled) (h : fill c db = .ok r) (f : String)
    (hf : db.str? ["property_format"] = some f) (hpoly : f ≠ "table")
    (m st p : ℕ) (hm : m < r.nMaterials) (hst : st < c.nStates) (hp : p < 8) (text : String)
    (ht : textOf db m st p = some text) (coefs : List ℝ) (hcoefs : IsPolynomial c.stod text coefs) (T : ℝ) :
    r.thermal c m p st T = ∑ i ∈ Finset.range coefs.length, coefs.getD i 0 * T ^ i := by
  have hu : r.useTable = false := by
    unfold fill at h
    rw [hf] at h
    simp only at h
    cases hn : (db.str? ["n_materials"]).bind c.uint with
    | none => rw [hn] at h; cases h
    | some n =>
      rw [hn] at h
      obtain ⟨s, hs, h⟩ := bind_ok h
      cases h
      simpa using hpoly
  have := fill_slot c db r h m st p hm hst hp
  rw [ht] at this
  obtain ⟨s1, s2, h1, h2, h3⟩ := this
  obtain ⟨hparse, hlen⟩ := isPolynomial_pieces hcoefs
  rw [hu, if_neg Bool.false_ne_true] at h3
  unfold putPoly at h3
  rw [hparse, hlen, if_pos (show p < nThermal from hp)] at h3
  by_cases hN : coefs.length ≤ c.pOrder + 1
  · rw [if_pos hN] at h3
    cases h3
    have e : ∀ i, r.store.poly m p st i = if i < coefs.length then coefs.getD i 0 else 0 := by
      intro i
      have e1 := congrFun (congrArg Prod.snd h2) i
      have e2 := congrFun (congrArg Prod.snd h1) i
      simp only [slot, set3, and_self, if_true] at e1
      rw [e1]
      split_ifs
      · rfl
      · simpa [slot, Store.empty] using e2
    unfold Filled.thermal
    rw [hu, if_neg Bool.false_ne_true]
    symm
    rw [← Finset.sum_subset (Finset.range_subset_range.2 hN)
      (f := fun i => r.store.poly m p st i * T ^ i)]
    · refine Finset.sum_congr rfl fun i hi => ?_
      rw [e, if_pos (Finset.mem_range.1 hi)]
    · intro i _ hi
      rw [e, if_neg fun hlt => hi (Finset.mem_range.2 hlt), zero_mul]
  · rw [if_neg hN] at h3
    cases h3

theorem lookup_zero (N : ℕ) (T : ℝ) : lookup N (fun _ => (0, 0)) T = 0 := by
  unfold lookup
  simp

/-- **C100, missing entries.**  A property that the input does not give for a state is zero at every temperature in that state. -/
theorem C100_missing (c : Config) (db : Tree) (r : Filled) (h : fill c db = .ok r) (m st p : ℕ) (hm : m < r.nMaterials)
    (hst : st < c.nStates) (hp : p < 8) (ht : textOf db m st p = none) (T : ℝ) : r.thermal c m p st T = 0 := by
  have := fill_slot c db r h m st p hm hst hp
  rw [ht] at this
  have e1 : r.store.table m p st = fun _ => (0, 0) := congrArg Prod.fst this
  have e2 : r.store.poly m p st = fun _ => 0 := congrArg Prod.snd this
  unfold Filled.thermal
  rw [e1, e2, lookup_zero]
  simp

/-- **C100, independence.**  The value of a property of a state of a material depends on the format and on the text given for it,
and on nothing else in the input. -/
theorem C100_independent (c : Config) (db db' : Tree) (r r' : Filled) (h : fill c db = .ok r) (h' : fill c db' = .ok r')
    (m st p m' st' p' : ℕ) (hu : r.useTable = r'.useTable) (hm : m < r.nMaterials) (hm' : m' < r'.nMaterials) (hst : st < c.nStates)
    (hst' : st' < c.nStates) (hp : p < 8) (hp' : p' < 8) (ht : textOf db m st p = textOf db' m' st' p') (T : ℝ) :
    r.thermal c m p st T = r'.thermal c m' p' st' T := by
  have a := fill_slot c db r h m st p hm hst hp
  have b := fill_slot c db' r' h' m' st' p' hm' hst' hp'
  rw [ht] at a
  have key : slot m p st r.store = slot m' p' st' r'.store := by
    cases htx : textOf db' m' st' p' with
    | none => rw [htx] at a b; exact a.trans b.symm
    | some text =>
      rw [htx] at a b
      obtain ⟨s1, s2, a1, a2, a3⟩ := a
      obtain ⟨t1, t2, b1, b2, b3⟩ := b
      rw [a2, b2]
      rw [← hu] at b3
      have hz : slot m p st s1 = slot m' p' st' t1 := a1.trans b1.symm
      have z1 : s1.table m p st = t1.table m' p' st' := congrArg Prod.fst hz
      have z2 : s1.poly m p st = t1.poly m' p' st' := congrArg Prod.snd hz
      cases hb : r.useTable with
      | true =>
        rw [hb, if_pos rfl] at a3 b3
        unfold putTable at a3 b3
        rw [if_pos (show p < nThermal from hp)] at a3
        rw [if_pos (show p' < nThermal from hp')] at b3
        split_ifs at a3 b3 with hN
        obtain ⟨rows, hr, a3⟩ := bind_ok a3
        rw [hr] at b3
        cases a3
        cases b3
        simp [slot, set3, z2]
      | false =>
        rw [hb, if_neg Bool.false_ne_true] at a3 b3
        unfold putPoly at a3 b3
        rw [if_pos (show p < nThermal from hp)] at a3
        rw [if_pos (show p' < nThermal from hp')] at b3
        split_ifs at a3 b3 with hN
        obtain ⟨rows, hr, a3⟩ := bind_ok a3
        rw [hr] at b3
        cases a3
        cases b3
        simp [slot, set3, z1, z2]
  unfold Filled.thermal
  rw [show r.store.table m p st = r'.store.table m' p' st' from congrArg Prod.fst key,
    show r.store.poly m p st = r'.store.poly m' p' st' from congrArg Prod.snd key, hu]

end Verif.Material.Fill
