import Verif.Material.FillMech

/-!
# C102: which material sections are accepted
-/

namespace Verif.Material.Fill

open Verif.Input

/-! ## When the reading succeeds -/

/-- One entry `T,v` of a table can be read: it has at least two pieces and the first two are numbers. -/
def EntryReadable (c : Config) (e : List Char) : Prop :=
  ∃ a b rest, splitBy ',' e = a :: b :: rest ∧ (c.stod a).isSome ∧ (c.stod b).isSome

/-- The text of property `p` of state `st` can be read. The numbers of a mechanical property (`p ≥ 8`) of the liquid or the
powder are not looked at. -/
def Readable (c : Config) (useTable : Bool) (st p : ℕ) (text : String) : Prop :=
  if useTable then
    (splitBy '|' (strip text)).length ≤ c.tableSize ∧ (p < 8 ∨ st = 0 → ∀ e ∈ splitBy '|' (strip text), EntryReadable c e)
  else
    (splitBy ',' (strip text)).length ≤ c.pOrder + 1 ∧ (p < 8 ∨ st = 0 → ∀ e ∈ splitBy ',' (strip text), (c.stod e).isSome)

theorem collect_runs {α β : Type} {f : α → Outcome β} {l : List α} :
    (∃ bs, collect f l = .ok bs) ↔ ∀ a ∈ l, ∃ b, f a = .ok b := by
  induction l with
  | nil => simp [collect]
  | cons a as ih =>
    constructor
    · rintro ⟨bs, h⟩
      obtain ⟨b, hb, h⟩ := bind_ok h
      obtain ⟨bs', hbs, h⟩ := bind_ok h
      intro x hx
      rcases List.mem_cons.1 hx with rfl | hx
      · exact ⟨b, hb⟩
      · exact ih.1 ⟨bs', hbs⟩ x hx
    · intro h
      obtain ⟨b, hb⟩ := h a (by simp)
      obtain ⟨bs, hbs⟩ := ih.2 fun x hx => h x (by simp [hx])
      exact ⟨b :: bs, by rw [collect, hb]; show (collect f as).bind _ = _; rw [hbs]; rfl⟩

theorem number_runs {c : Config} {t : List Char} : (∃ x, number c t = .ok x) ↔ (c.stod t).isSome := by
  unfold number
  cases c.stod t with
  | none => simp
  | some y => simp

theorem parseEntry_runs {c : Config} {t : List Char} : (∃ x, parseEntry c t = .ok x) ↔ EntryReadable c t := by
  unfold parseEntry EntryReadable
  match hs : splitBy ',' t with
  | [] => simp
  | [a] =>
    simp only
    constructor
    · rintro ⟨x, h⟩
      obtain ⟨_, _, h⟩ := bind_ok h
      cases h
    · rintro ⟨a, b, rest, h, -⟩
      cases h
  | a :: b :: rest =>
    simp only
    constructor
    · rintro ⟨x, h⟩
      obtain ⟨y, hy, h⟩ := bind_ok h
      obtain ⟨z, hz, h⟩ := bind_ok h
      exact ⟨a, b, rest, rfl, number_runs.1 ⟨y, hy⟩, number_runs.1 ⟨z, hz⟩⟩
    · rintro ⟨a', b', rest', h, ha, hb⟩
      cases h
      obtain ⟨y, hy⟩ := number_runs.2 ha
      obtain ⟨z, hz⟩ := number_runs.2 hb
      rw [hy, hz]
      exact ⟨(y, z), rfl⟩

theorem bind_map_runs {α β : Type} {x : Outcome α} {f : α → β} :
    (∃ b, x.bind (fun a => .ok (f a)) = .ok b) ↔ ∃ a, x = .ok a := by
  cases x with
  | ok a => exact ⟨fun _ => ⟨a, rfl⟩, fun _ => ⟨f a, rfl⟩⟩
  | throws => exact ⟨fun ⟨_, h⟩ => (by cases h), fun ⟨_, h⟩ => (by cases h)⟩
  | ub => exact ⟨fun ⟨_, h⟩ => (by cases h), fun ⟨_, h⟩ => (by cases h)⟩

theorem put_runs (c : Config) (u : Bool) (m st p : ℕ) (text : String) (s : Store) :
    (∃ s', (if u then putTable c m st p text s else putPoly c m st p text s) = .ok s') ↔ Readable c u st p text := by
  unfold Readable
  cases u with
  | true =>
    simp only [if_true]
    unfold putTable
    by_cases hN : (splitBy '|' (strip text)).length ≤ c.tableSize
    · rw [if_pos hN]
      simp only [hN, true_and]
      by_cases hp : p < nThermal
      · rw [if_pos hp, bind_map_runs, collect_runs]
        simp only [parseEntry_runs, show p < 8 from hp, true_or, forall_const]
      · rw [if_neg hp]
        by_cases hst : st = 0
        · rw [if_pos hst, bind_map_runs, collect_runs]
          simp only [parseEntry_runs, hst, or_true, forall_const]
        · rw [if_neg hst]
          have hp8 : ¬ p < 8 := hp
          simp [hp8, hst]
    · rw [if_neg hN]
      simp [hN]
  | false =>
    simp only [Bool.false_eq_true, if_false]
    unfold putPoly
    by_cases hN : (splitBy ',' (strip text)).length ≤ c.pOrder + 1
    · rw [if_pos hN]
      simp only [hN, true_and]
      by_cases hp : p < nThermal
      · rw [if_pos hp, bind_map_runs, collect_runs]
        simp only [number_runs, show p < 8 from hp, true_or, forall_const]
      · rw [if_neg hp]
        by_cases hst : st = 0
        · rw [if_pos hst, bind_map_runs, collect_runs]
          simp only [number_runs, hst, or_true, forall_const]
        · rw [if_neg hst]
          have hp8 : ¬ p < 8 := hp
          simp [hp8, hst]
    · rw [if_neg hN]
      simp [hN]

theorem putProperty_runs (c : Config) (u : Bool) (m st : ℕ) (sd : Tree) (p : ℕ) (s : Store) :
    (∃ s', putProperty c u m st sd s p = .ok s') ↔
      ∀ text, sd.str? [statePropertyNames.getD p ""] = some text → Readable c u st p text := by
  unfold putProperty
  cases ht : sd.str? [statePropertyNames.getD p ""] with
  | some text =>
    simp only
    rw [put_runs]
    exact ⟨fun h t e => (by cases e; exact h), fun h => h text rfl⟩
  | none =>
    simp only
    refine ⟨fun _ t e => (by cases e), fun _ => ?_⟩
    split_ifs <;> exact ⟨_, rfl⟩

/-- **C102 (what is accepted).**  The material section is read successfully exactly if the format and the number of materials are
given, every material has a section, and every text of a state property can be read. -/
theorem C102_accepts (c : Config) (db : Tree) :
    (∃ r, fill c db = .ok r) ↔ ∃ f n, db.str? ["property_format"] = some f ∧ (db.str? ["n_materials"]).bind c.uint = some n ∧
      ∀ m < n, (db.child? ("material_" ++ toString m)).isSome ∧ ∀ st < c.nStates, ∀ p < 15, ∀ text,
        textOf db m st p = some text → Readable c (decide (f = "table")) st p text := by
  unfold fill
  cases hf : db.str? ["property_format"] with
  | none => simp
  | some f =>
    cases hn : (db.str? ["n_materials"]).bind c.uint with
    | none => simp
    | some n =>
      simp only
      rw [bind_map_runs]
      rw [loop_runs (putMaterial c (decide (f = "table")) db)
        (fun m => (db.child? ("material_" ++ toString m)).isSome ∧ ∀ st < c.nStates, ∀ p < 15, ∀ text,
          textOf db m st p = some text → Readable c (decide (f = "table")) st p text)]
      · constructor
        · intro h
          exact ⟨f, n, rfl, rfl, fun m hm => h m (List.mem_range.2 hm)⟩
        · rintro ⟨f', n', e1, e2, h⟩
          cases e1
          cases e2
          exact fun m hm => h m (List.mem_range.1 hm)
      · intro m s
        unfold putMaterial
        simp only [textOf_eq, stateSection_eq]
        cases hc : db.child? ("material_" ++ toString m) with
        | none => simp
        | some md =>
          simp only [Option.isSome_some, true_and, Option.bind_some]
          have hstate : ∀ st s, (∃ s', putState c (decide (f = "table")) m md s st = .ok s') ↔
              ∀ p < 15, ∀ text, ((md.child? (stateNames.getD st "")).bind fun sd =>
                sd.str? [statePropertyNames.getD p ""]) = some text → Readable c (decide (f = "table")) st p text := by
            intro st s
            unfold putState
            cases hd : md.child? (stateNames.getD st "") with
            | none => simp
            | some sd =>
              simp only [Option.bind_some]
              rw [loop_runs _ (fun p => ∀ text, sd.str? [statePropertyNames.getD p ""] = some text →
                Readable c (decide (f = "table")) st p text) (fun p s => putProperty_runs c _ m st sd p s)]
              simp only [List.mem_range, show statePropertyNames.length = 15 from rfl]
          have hloop := loop_runs (putState c (decide (f = "table")) m md) _ hstate (List.range c.nStates) s
          simp only [List.mem_range] at hloop
          rw [← hloop]
          constructor
          · rintro ⟨s', h⟩
            obtain ⟨t, ht, -⟩ := bind_ok h
            exact ⟨t, ht⟩
          · rintro ⟨t, ht⟩
            rw [ht]
            show ∃ s', loop (putConstant c m md) _ t = .ok s'
            rw [loop_runs (putConstant c m md) (fun _ => True) (fun p s => ⟨fun _ => trivial, fun _ => ⟨_, rfl⟩⟩)]
            simp

/-- **C102 (every correct input is accepted).**  If every material has a section and every property is a table of at most
`table_size` rows, respectively a polynomial of at most `p_order + 1` coefficients, as the format says, the section is accepted. -/
theorem C102_correct_accepted (c : Config) (db : Tree) (f : String) (n : ℕ) (hf : db.str? ["property_format"] = some f)
    (hn : (db.str? ["n_materials"]).bind c.uint = some n) (hm : ∀ m < n, (db.child? ("material_" ++ toString m)).isSome)
    (htext : ∀ m < n, ∀ st < c.nStates, ∀ p < 15, ∀ text, textOf db m st p = some text →
      (f = "table" → ∃ rows, IsTable c.stod text rows ∧ rows.length ≤ c.tableSize) ∧
      (f ≠ "table" → ∃ coefs, IsPolynomial c.stod text coefs ∧ coefs.length ≤ c.pOrder + 1)) :
    ∃ r, fill c db = .ok r := by
  rw [C102_accepts]
  refine ⟨f, n, hf, hn, fun m hm' => ⟨hm m hm', fun st hst p hp text ht => ?_⟩⟩
  obtain ⟨h1, h2⟩ := htext m hm' st hst p hp text ht
  unfold Readable
  by_cases hft : f = "table"
  · obtain ⟨rows, hr, hl⟩ := h1 hft
    obtain ⟨ha, hb⟩ := isTable_entries hr
    rw [if_pos (by simpa using hft), hb]
    exact ⟨hl, fun _ e he => parseEntry_runs.1 (collect_runs.1 ⟨rows, ha⟩ e he)⟩
  · obtain ⟨coefs, hr, hl⟩ := h2 hft
    obtain ⟨ha, hb⟩ := isPolynomial_pieces hr
    rw [if_neg (by simpa using hft), hb]
    exact ⟨hl, fun _ e he => number_runs.1 (collect_runs.1 ⟨coefs, ha⟩ e he)⟩

/-! ## What is not rejected -/

/-- A material section with one material whose solid has the given density, and nothing else. -/
def oneDensity (format text : String) : Tree :=
  .node "" [("property_format", .node format []), ("n_materials", .node "1" []),
    ("material_0", .node "" [("solid", .node "" [("density", .node text [])])])]

theorem oneDensity_child (format text : String) :
    (oneDensity format text).child? ("material_" ++ toString 0) =
      some (.node "" [("solid", .node "" [("density", .node text [])])]) := by
  have : "material_" ++ toString 0 = "material_0" := by decide
  rw [this]
  rfl

/-- The texts of `oneDensity`: the density is read twice (thermal 0, mechanical 11). -/
theorem oneDensity_text (format text : String) (st p : ℕ) (hst : st < 3) (hp : p < 15) :
    textOf (oneDensity format text) 0 st p = if st = 0 ∧ (p = 0 ∨ p = 11) then some text else none := by
  unfold textOf Tree.str?
  simp only [Tree.get?]
  rw [oneDensity_child]
  simp only [Option.bind_some]
  have h1 : st = 0 ∨ st = 1 ∨ st = 2 := by omega
  have h2 : p = 0 ∨ p = 1 ∨ p = 2 ∨ p = 3 ∨ p = 4 ∨ p = 5 ∨ p = 6 ∨ p = 7 ∨ p = 8 ∨ p = 9 ∨ p = 10 ∨ p = 11 ∨ p = 12 ∨
    p = 13 ∨ p = 14 := by omega
  rcases h1 with rfl | rfl | rfl
  · rcases h2 with rfl | rfl | rfl | rfl | rfl | rfl | rfl | rfl | rfl | rfl | rfl | rfl | rfl | rfl | rfl <;> rfl
  · simp [stateKey, Tree.child?, Tree.children]
  · simp [stateKey, Tree.child?, Tree.children]

theorem oneDensity_accepts (c : Config) (hs : c.nStates ≤ 3) (h1 : c.uint "1" = some 1) (format text : String)
    (hr : ∀ p, Readable c (decide (format = "table")) 0 p text) :
    ∃ r, fill c (oneDensity format text) = .ok r ∧ r.nMaterials = 1 ∧ r.useTable = decide (format = "table") := by
  have hacc : ∃ r, fill c (oneDensity format text) = .ok r := by
    rw [C102_accepts]
    refine ⟨format, 1, rfl, h1, fun m hm => ?_⟩
    obtain rfl : m = 0 := by omega
    refine ⟨by rw [oneDensity_child]; rfl, fun st hst p hp t ht => ?_⟩
    rw [oneDensity_text format text st p (by omega) hp] at ht
    split_ifs at ht with hh
    cases ht
    rw [hh.1]
    exact hr p
  obtain ⟨r, hr'⟩ := hacc
  have h := hr'
  unfold fill at h
  rw [show (oneDensity format text).str? ["property_format"] = some format from rfl,
    show (oneDensity format text).str? ["n_materials"] = some "1" from rfl] at h
  simp only [Option.bind_some, h1] at h
  obtain ⟨s, hs', h⟩ := bind_ok h
  cases h
  exact ⟨_, hr', rfl, rfl⟩

/-- **C102 fails: a number instead of a table is undefined behaviour.**  With the table format, a density given by a plain
number (no comma) is not rejected: the code reads past the end of a vector. -/
theorem C102_plain_number_refuted (c : Config) (hN : 1 ≤ c.tableSize) (hs : 0 < c.nStates) (h1 : c.uint "1" = some 1) (text : String)
    (hc : ',' ∉ strip text) (hb : '|' ∉ strip text) (x : ℝ) (hx : c.stod (strip text) = some x) :
    (match fill c (oneDensity "table" text) with | .ub => True | _ => False) := by
  have hentry : parseEntry c (strip text) = .ub := by
    unfold parseEntry
    rw [splitBy_none hc]
    simp only
    rw [number_ok.2 hx]
    rfl
  have hput : putTable c 0 0 0 text Store.empty = .ub := by
    unfold putTable
    rw [splitBy_none hb, if_pos (by simpa using hN), if_pos (by decide)]
    unfold collect
    rw [hentry]
    rfl
  have hprop : putProperty c true 0 0 (.node "" [("density", .node text [])]) Store.empty 0 = .ub := by
    unfold putProperty
    rw [show (Input.Tree.node "" [("density", .node text [])]).str? [statePropertyNames.getD 0 ""] = some text from rfl]
    exact hput
  have hstate : putState c true 0 (.node "" [("solid", .node "" [("density", .node text [])])]) Store.empty 0 = .ub := by
    unfold putState
    rw [show (Input.Tree.node "" [("solid", .node "" [("density", .node text [])])]).child? (stateNames.getD 0 "") =
      some (.node "" [("density", .node text [])]) from rfl]
    simp only
    rw [show List.range statePropertyNames.length = 0 :: List.range' 1 14 from rfl]
    unfold loop
    rw [hprop]
    rfl
  have hmat : putMaterial c true (oneDensity "table" text) Store.empty 0 = .ub := by
    unfold putMaterial
    rw [oneDensity_child]
    simp only
    obtain ⟨k, hk⟩ : ∃ k, c.nStates = k + 1 := ⟨c.nStates - 1, by omega⟩
    rw [hk, List.range_succ_eq_map]
    unfold loop
    rw [hstate]
    rfl
  have hfill : fill c (oneDensity "table" text) = .ub := by
    unfold fill
    rw [show (oneDensity "table" text).str? ["property_format"] = some "table" from rfl,
      show (oneDensity "table" text).str? ["n_materials"] = some "1" from rfl]
    simp only [Option.bind_some, h1, decide_true]
    rw [show List.range 1 = [0] from rfl]
    unfold loop
    rw [hmat]
    rfl
  rw [hfill]
  trivial

/-- **C102 fails: a third number in a row is ignored.**  With the table format, a density `T,v,w` is accepted as the row
`(T, v)`. -/
theorem C102_third_number_refuted (c : Config) (hN : 1 ≤ c.tableSize) (hs : 0 < c.nStates ∧ c.nStates ≤ 3)
    (h1 : c.uint "1" = some 1) (text : String) (a b w : List Char) (ht : strip text = a ++ ',' :: (b ++ ',' :: w))
    (hbar : '|' ∉ strip text) (ha : ',' ∉ a) (hb : ',' ∉ b) (x v : ℝ) (hx : c.stod a = some x) (hv : c.stod b = some v) :
    ∃ r, fill c (oneDensity "table" text) = .ok r ∧ ∀ T : ℝ, r.thermal c 0 0 0 T = v := by
  have hsplit : splitBy ',' (strip text) = a :: b :: splitBy ',' w := by
    rw [ht, splitBy_append ha, splitBy_append hb]
  have hread : EntryReadable c (strip text) := ⟨a, b, _, hsplit, by simp [hx], by simp [hv]⟩
  obtain ⟨r, hr, hn, hu⟩ := oneDensity_accepts c hs.2 h1 "table" text (fun p => by
    unfold Readable
    rw [splitBy_none hbar]
    simp only [decide_true, if_true, List.length_singleton]
    exact ⟨hN, fun _ e he => by rw [List.mem_singleton.1 he]; exact hread⟩)
  refine ⟨r, hr, fun T => ?_⟩
  have key := fill_slot c _ r hr 0 0 0 (by omega) hs.1 (by decide)
  rw [oneDensity_text _ _ 0 0 (by norm_num) (by norm_num), if_pos ⟨rfl, Or.inl rfl⟩] at key
  obtain ⟨s1, s2, k1, k2, k3⟩ := key
  simp only [decide_true] at hu
  rw [hu, if_pos rfl] at k3
  unfold putTable at k3
  rw [splitBy_none hbar, if_pos (by simpa using hN), if_pos (by decide)] at k3
  have hrow : collect (parseEntry c) [strip text] = .ok [(x, v)] := by
    rw [collect_ok]
    refine .cons ?_ .nil
    unfold parseEntry
    rw [hsplit]
    simp only
    rw [number_ok.2 hx, number_ok.2 hv]
    rfl
  rw [hrow] at k3
  cases k3
  have e : r.store.table 0 0 0 = tableRow c.tableSize [(x, v)] := by
    have := congrArg Prod.fst k2
    simpa [slot, set3] using this
  have hread' : readTable c.tableSize [(x, v)] = some (tableRow c.tableSize [(x, v)]) := by
    simp [readTable, hN, tableRow]
  have hinc : Increasing [(x, v)] := by
    intro i j p q hij hp hq
    have := (List.getElem?_eq_some_iff.1 hq).1
    simp at this
    omega
  unfold Filled.thermal
  rw [hu, if_pos rfl, e]
  have hI := C33_interpolates_partial _ _ _ hread' hinc (Or.inr rfl)
  rcases le_total T x with hT | hT
  · exact hI.before (x, v) rfl T hT
  · exact hI.after (x, v) rfl T hT

/-- **C102 fails: a table is accepted as a polynomial.**  If the format says polynomial and the density is the table
`T₀,v₀|T₁,v₁`, it is accepted as the polynomial `T₀ + v₀ T + v₁ T²`, because `std::stod` reads a prefix: from `v₀|T₁` it reads
`v₀`. -/
theorem C102_table_as_polynomial_refuted (c : Config) (hP : 2 ≤ c.pOrder) (hs : 0 < c.nStates ∧ c.nStates ≤ 3)
    (h1 : c.uint "1" = some 1) (text : String) (a0 b0 a1 b1 : List Char)
    (ht : strip text = a0 ++ ',' :: (b0 ++ '|' :: a1 ++ ',' :: b1)) (hno : ∀ l ∈ [a0, b0, a1, b1], ',' ∉ l)
    (T0 v0 v1 : ℝ) (h0 : c.stod a0 = some T0) (hv1 : c.stod b1 = some v1) (hprefix : c.stod (b0 ++ '|' :: a1) = some v0) :
    ∃ r, fill c (oneDensity "polynomial" text) = .ok r ∧ ∀ T : ℝ, r.thermal c 0 0 0 T = T0 + v0 * T + v1 * T ^ 2 := by
  have n0 := hno a0 (by simp)
  have n1 : ',' ∉ b0 ++ '|' :: a1 := by
    simp only [List.mem_append, List.mem_cons, not_or]
    exact ⟨hno b0 (by simp), by decide, hno a1 (by simp)⟩
  have hpoly : IsPolynomial c.stod text [T0, v0, v1] := by
    refine ⟨by simp, [a0, b0 ++ '|' :: a1, b1], ?_, ?_, .cons h0 (.cons hprefix (.cons hv1 .nil))⟩
    · rw [← strip_eq]
      rw [ht]
      simp [List.intercalate, List.intersperse]
    · intro p hp
      simp only [List.mem_cons, List.not_mem_nil, or_false] at hp
      rcases hp with rfl | rfl | rfl
      · exact n0
      · exact n1
      · exact hno _ (by simp)
  obtain ⟨hparse, hlen⟩ := isPolynomial_pieces hpoly
  obtain ⟨r, hr, hn, hu⟩ := oneDensity_accepts c hs.2 h1 "polynomial" text (fun p => by
    unfold Readable
    rw [if_neg (by decide), hlen]
    exact ⟨by simpa using hP, fun _ e he => number_runs.1 (collect_runs.1 ⟨_, hparse⟩ e he)⟩)
  refine ⟨r, hr, fun T => ?_⟩
  rw [C100_polynomial c _ r hr "polynomial" rfl (by decide) 0 0 0 (by omega) hs.1 (by norm_num) text
    (by rw [oneDensity_text _ _ 0 0 (by norm_num) (by norm_num), if_pos ⟨rfl, Or.inl rfl⟩]) _ hpoly T]
  simp [Finset.sum_range_succ]

/-! ## The driver chooses the polynomial order -/

theorem splitBy_strip_length (text : String) : (splitBy ',' (strip text)).length = (pieces text).length := by
  have hp : ∀ l : List Char, (splitComma l).length = l.count ',' + 1 := by
    intro l
    have e : splitComma l = splitBy ',' l := by
      induction l with
      | nil => rfl
      | cons c cs ih => simp only [splitComma, splitBy, ih]; rfl
    rw [e, splitBy_length]
  have hcount : (strip text).count ',' = text.toList.count ',' := by
    unfold strip
    rw [List.count_filter]
    decide
  unfold pieces
  rw [splitBy_length, hcount, List.length_map, hp]

theorem mem_scanIds (has : ℕ → Bool) (n : ℕ) (hall : ∀ i < n, has i = true) :
    ∀ (fuel id m : ℕ), id ≤ m → m < n → n - id ≤ fuel → m ∈ scanIds has n fuel id id := by
  intro fuel
  induction fuel with
  | zero => intro id m h1 h2 h3; omega
  | succ fuel ih =>
    intro id m h1 h2 h3
    have hid : has id = true := hall id (by omega)
    unfold scanIds
    simp only [hid, if_true]
    by_cases hm : m = id
    · rw [hm]; exact List.mem_cons_self
    · refine List.mem_cons_of_mem _ ?_
      rw [if_neg (by omega)]
      exact ih (id + 1) m (by omega) h2 (by omega)

/-- **C102 (order).**  The driver looks through the material section for the largest number of coefficients and builds the
`MaterialProperty` with that order. With that order no polynomial of the materials `0, …, n-1` has too many coefficients. -/
theorem C102_order (p : Parsers ℚ) (db : Tree) (n po ns : ℕ) (h : materialParams p db = some (n, po, ns)) (hn : n < 2 ^ 32)
    (f : String) (hf : db.str? ["property_format"] = some f) (hpoly : f ≠ "table")
    (hall : ∀ m < n, (db.child? ("material_" ++ toString m)).isSome) (m st k : ℕ) (hm : m < n) (hst : st < 3) (hk : k < 15)
    (text : String) (ht : textOf db m st k = some text) : (splitBy ',' (strip text)).length ≤ po + 1 := by
  unfold materialParams at h
  simp only [Option.bind_eq_bind, Option.bind_eq_some_iff] at h
  obtain ⟨f', hf', n', hn', _, -, _, -, h⟩ := h
  rw [hf] at hf'
  cases hf'
  simp only [Option.pure_def, Option.some.injEq, Prod.mk.injEq] at h
  obtain ⟨rfl, rfl, -⟩ := h
  rw [if_neg hpoly, splitBy_strip_length]
  have hid : m ∈ scanIds (fun id => decide (db.count (materialKey id) ≠ 0)) n' (2 ^ 32 - 1) 0 0 := by
    refine mem_scanIds _ n' (fun i hi => ?_) _ 0 m (Nat.zero_le _) hm (by omega)
    rw [decide_eq_true_eq, Tree.count_ne_zero]
    exact Option.isSome_iff_exists.1 (hall i hi)
  have htx : text ∈ propertyTexts db m (stateNames.getD st "") := by
    unfold propertyTexts
    refine List.mem_filterMap.2 ⟨statePropertyNames.getD k "", ?_, ht⟩
    rw [List.getD_eq_getElem _ _ (by simpa [statePropertyNames] using hk)]
    exact List.getElem_mem _
  have hz : (stateNames.getD st "", st) ∈ stateNames.zipIdx := by
    have : st = 0 ∨ st = 1 ∨ st = 2 := by omega
    rcases this with rfl | rfl | rfl <;> decide
  have hin : orderOf text ∈ ((scanIds (fun id => decide (db.count (materialKey id) ≠ 0)) n' (2 ^ 32 - 1) 0 0).flatMap
      (fun id => (stateNames.zipIdx).map (fun s => (id, s)))).flatMap (fun u => (propertyTexts db u.1 u.2.1).map orderOf) := by
    refine List.mem_flatMap.2 ⟨(m, (stateNames.getD st "", st)), List.mem_flatMap.2 ⟨m, hid, List.mem_map.2 ⟨_, hz, rfl⟩⟩, ?_⟩
    exact List.mem_map.2 ⟨text, htx, rfl⟩
  have := le_foldr_max hin
  unfold orderOf at this ⊢
  omega

/-! ## Concrete inputs -/

/-- Reading the longest prefix of decimal digits (what `std::stod` does for such texts). -/
def natDigits (l : List Char) : Option ℕ :=
  match l.takeWhile Char.isDigit with
  | [] => none
  | d => some (d.foldl (fun n ch => 10 * n + (ch.toNat - 48)) 0)

/-- The number as a `double`. -/
noncomputable def digits (l : List Char) : Option ℝ := (natDigits l).map fun n : ℕ => (n : ℝ)

theorem digits_eq {l : List Char} {n : ℕ} (h : natDigits l = some n) : digits l = some (n : ℝ) := by
  unfold digits
  rw [h]
  rfl

/-- A configuration with this number reader. -/
noncomputable def exConfig : Config :=
  ⟨12, 2, 3, digits, fun s => if s = "1" then some 1 else none, fun s => digits s.toList, 10 ^ 308⟩

/-- The table `300,10|1000,24`, written with blanks. -/
theorem exTable : IsTable digits "300, 10 | 1000, 24" [(300, 10), (1000, 24)] := by
  refine ⟨by simp, [("300".toList, "10".toList), ("1000".toList, "24".toList)], by decide, by decide, ?_⟩
  have h1 := digits_eq (l := "300".toList) (n := 300) (by decide)
  have h2 := digits_eq (l := "10".toList) (n := 10) (by decide)
  have h3 := digits_eq (l := "1000".toList) (n := 1000) (by decide)
  have h4 := digits_eq (l := "24".toList) (n := 24) (by decide)
  norm_num at h1 h2 h3 h4
  exact .cons ⟨h1, h2⟩ (.cons ⟨h3, h4⟩ .nil)

/-- An input that meets the hypotheses of C100, C101 and the positive part of C102: it is accepted and the density at 650 is the
mean of the two values; the mechanical density is the first one. -/
example : ∃ r, fill exConfig (oneDensity "table" "300, 10 | 1000, 24") = .ok r ∧ r.thermal exConfig 0 0 0 650 = 17 ∧
    r.mechanical 0 3 = ((10 : ℝ) : WithTop ℝ) ∧ r.thermal exConfig 0 1 0 650 = 0 ∧ r.mechanical 0 6 = ⊤ := by
  obtain ⟨hparse, hlen⟩ := isTable_entries (c := exConfig) exTable
  obtain ⟨r, hr, hn, hu⟩ := oneDensity_accepts exConfig (by simp [exConfig]) (by simp [exConfig]) "table" "300, 10 | 1000, 24"
    (fun p => by
      unfold Readable
      rw [if_pos (by decide), hlen]
      exact ⟨by simp [exConfig], fun _ e he => parseEntry_runs.1 (collect_runs.1 ⟨_, hparse⟩ e he)⟩)
  have htext := oneDensity_text "table" "300, 10 | 1000, 24"
  have hinc : Increasing [((300 : ℝ), (10 : ℝ)), (1000, 24)] := by
    intro i j p q hij hp hq
    have hj : j < 2 := by simpa using (List.getElem?_eq_some_iff.1 hq).1
    have : i = 0 ∧ j = 1 := by omega
    obtain ⟨rfl, rfl⟩ := this
    simp at hp hq
    subst hp; subst hq; norm_num
  refine ⟨r, hr, ?_, ?_, ?_, ?_⟩
  · obtain ⟨t, ht, hT⟩ := C100_table exConfig _ r hr rfl 0 0 0 (by omega) (by simp [exConfig]) (by norm_num) _
      (by rw [htext 0 0 (by norm_num) (by norm_num), if_pos ⟨rfl, Or.inl rfl⟩]) _ exTable
    rw [hT]
    have := (C33_interpolates_partial _ _ t ht hinc (Or.inl (by simp [exConfig]))).between 0 (300, 10) (1000, 24) rfl rfl (1 / 2)
      (by norm_num) (by norm_num)
    norm_num at this
    exact this
  · exact (C101_first_value_partial exConfig _ r hr 0 3 (by omega) (by simp [exConfig]) (by norm_num) _
      (by rw [htext 0 11 (by norm_num) (by norm_num), if_pos ⟨rfl, Or.inr rfl⟩])).1 rfl 300 10 _ exTable
  · exact C100_missing exConfig _ r hr 0 0 1 (by omega) (by simp [exConfig]) (by norm_num)
      (by rw [htext 0 1 (by norm_num) (by norm_num), if_neg (by decide)]) 650
  · exact (C101_missing exConfig _ r hr 0 6 (by omega) (by simp [exConfig]) (by norm_num)
      (by rw [htext 0 14 (by norm_num) (by norm_num), if_neg (by decide)])).1 rfl rfl

/-- Concrete texts for the refutations. -/
example : digits "10|1000".toList = some 10 ∧ digits "7800".toList = some 7800 ∧
    strip "300, 10 | 1000, 24" = "300".toList ++ ',' :: ("10".toList ++ '|' :: "1000".toList ++ ',' :: "24".toList) := by
  have h1 := digits_eq (l := "10|1000".toList) (n := 10) (by decide)
  have h2 := digits_eq (l := "7800".toList) (n := 7800) (by decide)
  norm_num at h1 h2
  exact ⟨h1, h2, by decide⟩

end Verif.Material.Fill
