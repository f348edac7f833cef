import Mathlib.Data.Real.Basic
import Mathlib.Algebra.BigOperators.Fin
import Mathlib.Algebra.BigOperators.Group.Finset.Basic
import Mathlib.Algebra.BigOperators.Ring.Finset
import Mathlib.Tactic.Linarith
import Mathlib.Tactic.NormNum
import Mathlib.Tactic.FieldSimp
import Mathlib.Tactic.Ring

/-!
# C33, C34: tabulated and polynomial material properties

Model of the reading of a property in `MaterialProperty::fill_properties` (after the text has been split into numbers), of
`compute_property_from_table` and of `compute_material_property`.  `double` is `ℝ`.
-/

namespace Verif.Material

/-! ## Tables -/

/-- One row of the table view: `(T, v)` for index `i < table_size`. -/
abbrev Table := ℕ → ℝ × ℝ

/-- "fill the rest with the last value", `source/MaterialProperty.templates.hh:975-984`: `for (i = from; i < N; ++i)
t(i) = t(i - 1)`; `r` is the number of iterations left. -/
def fillRest : ℕ → ℕ → Table → Table
  | 0, _, t => t
  | r + 1, i, t => fillRest r (i + 1) (Function.update t i (t (i - 1)))

/-- Reading a table, `source/MaterialProperty.templates.hh:940-986`: more entries than `table_size = N` throw (`none`), so does
an empty text (`std::stod("")`). -/
def readTable (N : ℕ) (entries : List (ℝ × ℝ)) : Option Table :=
  if entries = [] then none
  else if entries.length ≤ N then
    some (fillRest (N - entries.length) entries.length fun i => entries.getD i (0, 0))
  else none

open Classical in
/-- The search loop `for (; i < size; ++i) if (temperature < table(i, 0)) break;`,
`source/MaterialProperty.templates.hh:1181-1190`; `r = size - i`. -/
noncomputable def scan (t : Table) (T : ℝ) : ℕ → ℕ → ℕ
  | 0, i => i
  | r + 1, i => if T < (t i).1 then i else scan t T r (i + 1)

open Classical in
/-- `compute_property_from_table`, `source/MaterialProperty.templates.hh:1164-1212`, `N = table_size` (12). -/
noncomputable def lookup (N : ℕ) (t : Table) (T : ℝ) : ℝ :=
  if T ≤ (t 0).1 then (t 0).2
  else
    let i := scan t T N 0
    if N - 1 ≤ i then (t (N - 1)).2
    else (t (i - 1)).2 + (T - (t (i - 1)).1) * ((t i).2 - (t (i - 1)).2) / ((t i).1 - (t (i - 1)).1)

/-- The specification: `f` interpolates the given points linearly and is constant outside. -/
structure Interpolates (entries : List (ℝ × ℝ)) (f : ℝ → ℝ) : Prop where
  at_points : ∀ (i : ℕ) (p : ℝ × ℝ), entries[i]? = some p → f p.1 = p.2
  between : ∀ (i : ℕ) (p p' : ℝ × ℝ), entries[i]? = some p → entries[i + 1]? = some p' → ∀ s : ℝ, 0 ≤ s → s ≤ 1 →
    f ((1 - s) * p.1 + s * p'.1) = (1 - s) * p.2 + s * p'.2
  before : ∀ p : ℝ × ℝ, entries[0]? = some p → ∀ T ≤ p.1, f T = p.2
  after : ∀ p : ℝ × ℝ, entries.getLast? = some p → ∀ T ≥ p.1, f T = p.2

/-- Strictly increasing temperatures. -/
def Increasing (entries : List (ℝ × ℝ)) : Prop :=
  ∀ (i j : ℕ) (p q : ℝ × ℝ), i < j → entries[i]? = some p → entries[j]? = some q → p.1 < q.1

theorem fillRest_below (r : ℕ) : ∀ (i j : ℕ) (t : Table), j < i → fillRest r i t j = t j := by
  induction r with
  | zero => intro i j t _; rfl
  | succ r ih =>
    intro i j t h
    rw [fillRest, ih (i + 1) j _ (by omega), Function.update_of_ne (by omega)]

theorem fillRest_rest (r : ℕ) : ∀ (i j : ℕ) (t : Table), 0 < i → i ≤ j → j < i + r → fillRest r i t j = t (i - 1) := by
  induction r with
  | zero => intro i j t _ h1 h2; omega
  | succ r ih =>
    intro i j t h0 h1 h2
    rw [fillRest]
    by_cases h : j = i
    · subst h
      rw [fillRest_below r _ _ _ (by omega), Function.update_self]
    · rw [ih (i + 1) j _ (by omega) (by omega) (by omega), Nat.add_sub_cancel, Function.update_self]

theorem readTable_spec (N : ℕ) (entries : List (ℝ × ℝ)) (t : Table) (h : readTable N entries = some t) :
    entries ≠ [] ∧ entries.length ≤ N ∧ (∀ j < entries.length, entries[j]? = some (t j)) ∧
      ∀ j, entries.length ≤ j → j < N → t j = t (entries.length - 1) := by
  unfold readTable at h
  split_ifs at h with h1 h2
  have hlen : 0 < entries.length := List.length_pos_iff.2 h1
  cases h
  refine ⟨h1, h2, fun j hj => ?_, fun j hj hN => ?_⟩
  · rw [fillRest_below _ _ _ _ hj]
    simp [List.getD, List.getElem?_eq_getElem hj]
  · rw [fillRest_rest _ _ _ _ hlen hj (by omega), fillRest_below _ _ _ _ (by omega)]

theorem scan_eq (t : Table) (T : ℝ) (r : ℕ) : ∀ i j, i ≤ j → j < i + r → (∀ k, i ≤ k → k < j → ¬ T < (t k).1) →
    T < (t j).1 → scan t T r i = j := by
  induction r with
  | zero => intro i j h1 h2; omega
  | succ r ih =>
    intro i j h1 h2 h3 h4
    rw [scan]
    by_cases h : i = j
    · subst h; rw [if_pos h4]
    · rw [if_neg (h3 i (le_refl _) (by omega))]
      exact ih (i + 1) j (by omega) (by omega) (fun k hk hk' => h3 k (by omega) hk') h4

theorem scan_none (t : Table) (T : ℝ) (r : ℕ) : ∀ i, (∀ k, i ≤ k → k < i + r → ¬ T < (t k).1) →
    scan t T r i = i + r := by
  induction r with
  | zero => intro i _; rfl
  | succ r ih =>
    intro i h
    rw [scan, if_neg (h i (le_refl _) (by omega)), ih (i + 1) fun k h1 h2 => h k (by omega) (by omega)]
    omega

/-- What `lookup` returns above the last temperature. -/
theorem lookup_after (N : ℕ) (entries : List (ℝ × ℝ)) (t : Table) (h : readTable N entries = some t)
    (hinc : Increasing entries) (p : ℝ × ℝ) (hp : entries.getLast? = some p) (T : ℝ) (hT : p.1 ≤ T) :
    lookup N t T = p.2 := by
  obtain ⟨hne, hN, hrow, hrest⟩ := readTable_spec N entries t h
  have hlen : 0 < entries.length := List.length_pos_iff.2 hne
  have hlast : t (entries.length - 1) = p := by
    have := hrow (entries.length - 1) (by omega)
    rw [List.getLast?_eq_getElem?] at hp
    rw [hp] at this
    exact (Option.some.inj this).symm
  have hle : ∀ k < N, (t k).1 ≤ p.1 := by
    intro k hk
    by_cases hkl : k < entries.length
    · by_cases hke : k = entries.length - 1
      · rw [hke, hlast]
      · refine (hinc k (entries.length - 1) _ _ (by omega) (hrow k hkl) ?_).le
        rw [hrow _ (by omega), hlast]
    · rw [hrest k (by omega) hk, hlast]
  unfold lookup
  by_cases h0 : T ≤ (t 0).1
  · rw [if_pos h0]
    have h1 : entries.length = 1 := by
      by_contra hl
      have := hinc 0 (entries.length - 1) _ p (by omega) (hrow 0 hlen) (by rw [hrow _ (by omega), hlast])
      linarith
    rw [← hlast, h1]
  · rw [if_neg h0]
    have hs : scan t T N 0 = N := by
      rw [scan_none t T N 0 fun k _ hk => by have := hle k (by omega); linarith]
      omega
    rw [hs]
    simp only
    rw [if_pos (by omega)]
    by_cases hl : N - 1 < entries.length
    · have : N - 1 = entries.length - 1 := by omega
      rw [this, hlast]
    · rw [hrest (N - 1) (by omega) (by omega), hlast]

/-- What `lookup` returns between two neighbours, when the right one is not the last row of the view. -/
theorem lookup_between (N : ℕ) (entries : List (ℝ × ℝ)) (t : Table) (h : readTable N entries = some t)
    (hinc : Increasing entries) (i : ℕ) (p p' : ℝ × ℝ) (hp : entries[i]? = some p) (hp' : entries[i + 1]? = some p')
    (hi : i + 1 < N - 1) (T : ℝ) (h1 : p.1 ≤ T) (h2 : T < p'.1) :
    lookup N t T = p.2 + (T - p.1) * (p'.2 - p.2) / (p'.1 - p.1) := by
  obtain ⟨hne, hN, hrow, hrest⟩ := readTable_spec N entries t h
  have hil : i + 1 < entries.length := (List.getElem?_eq_some_iff.1 hp').1
  have ti : t i = p := by have := hrow i (by omega); rw [hp] at this; exact (Option.some.inj this).symm
  have ti' : t (i + 1) = p' := by have := hrow (i + 1) (by omega); rw [hp'] at this; exact (Option.some.inj this).symm
  unfold lookup
  by_cases h0 : T ≤ (t 0).1
  · rw [if_pos h0]
    have hi0 : i = 0 := by
      by_contra hi0
      have := hinc 0 i _ p (by omega) (hrow 0 (by omega)) hp
      linarith
    subst hi0
    rw [ti] at h0 ⊢
    have : T = p.1 := le_antisymm h0 h1
    rw [this]; ring
  · rw [if_neg h0]
    have hs : scan t T N 0 = i + 1 := by
      refine scan_eq t T N 0 (i + 1) (by omega) (by omega) (fun k _ hk => ?_) (by rw [ti']; exact h2)
      by_cases hki : k = i
      · rw [hki, ti]; linarith
      · have := hinc k i _ p (by omega) (hrow k (by omega)) hp
        linarith
    rw [hs]
    simp only
    rw [if_neg (by omega), Nat.add_sub_cancel, ti, ti']

/-- **C33** for tables that do not fill the view (at most 11 rows for `table_size = 12`): the property interpolates the table. -/
theorem C33_interpolates_partial (N : ℕ) (entries : List (ℝ × ℝ)) (t : Table) (h : readTable N entries = some t)
    (hinc : Increasing entries) (hsize : entries.length < N ∨ entries.length = 1) :
    Interpolates entries (lookup N t) := by
  obtain ⟨hne, hN, hrow, hrest⟩ := readTable_spec N entries t h
  have hlen : 0 < entries.length := List.length_pos_iff.2 hne
  have hlast : ∀ (i : ℕ) (p : ℝ × ℝ), i + 1 = entries.length → entries[i]? = some p → entries.getLast? = some p := by
    intro i p hi hp
    rw [List.getLast?_eq_getElem?, ← hi, Nat.add_sub_cancel, hp]
  have at_points : ∀ (i : ℕ) (p : ℝ × ℝ), entries[i]? = some p → lookup N t p.1 = p.2 := by
    intro i p hp
    have hil : i < entries.length := (List.getElem?_eq_some_iff.1 hp).1
    by_cases hi : i + 1 = entries.length
    · exact lookup_after N entries t h hinc p (hlast i p hi hp) p.1 (le_refl _)
    · have hp' := hrow (i + 1) (by omega)
      have := lookup_between N entries t h hinc i p _ hp hp' (by omega) p.1 (le_refl _)
        (hinc i (i + 1) _ _ (by omega) hp hp')
      rw [this]; ring
  refine ⟨at_points, ?_, ?_, fun p hp T hT => lookup_after N entries t h hinc p hp T hT⟩
  · intro i p p' hp hp' s h0 h1
    have hil : i + 1 < entries.length := (List.getElem?_eq_some_iff.1 hp').1
    have hlt := hinc i (i + 1) p p' (by omega) hp hp'
    have hd : 0 < p'.1 - p.1 := by linarith
    by_cases hs : s = 1
    · subst hs
      have := at_points (i + 1) p' hp'
      simpa using this
    · have hs1 : s < 1 := lt_of_le_of_ne h1 hs
      have e : (1 - s) * p.1 + s * p'.1 = p.1 + s * (p'.1 - p.1) := by ring
      rw [e, lookup_between N entries t h hinc i p p' hp hp' (by omega) _
        (by have := mul_nonneg h0 hd.le; linarith)
        (by have := mul_lt_mul_of_pos_right hs1 hd; linarith)]
      rw [add_sub_cancel_left]
      field_simp
      ring
  · intro p hp T hT
    have : t 0 = p := by have := hrow 0 hlen; rw [hp] at this; exact (Option.some.inj this).symm
    unfold lookup
    rw [this, if_pos hT]

/-- A table with too many rows is rejected, a non-empty table with at most `table_size` rows is accepted. -/
theorem C33_accepts (N : ℕ) (entries : List (ℝ × ℝ)) :
    (∃ t, readTable N entries = some t) ↔ entries ≠ [] ∧ entries.length ≤ N := by
  unfold readTable
  split_ifs with h1 h2 <;> simp [*]

/-- **C33 fails for full tables.**  In a table with exactly `table_size` rows (at least 2) the value jumps at the temperature
before the last: everywhere strictly between the last two temperatures the last value is returned. -/
theorem C33_full_table_refuted (N : ℕ) (hN2 : 2 ≤ N) (entries : List (ℝ × ℝ)) (hfull : entries.length = N)
    (hinc : Increasing entries) (p p' : ℝ × ℝ) (hp : entries[N - 2]? = some p) (hp' : entries[N - 1]? = some p') :
    ∃ t, readTable N entries = some t ∧ ∀ s : ℝ, 0 < s → s < 1 →
      lookup N t ((1 - s) * p.1 + s * p'.1) = p'.2 ∧
      (p.2 ≠ p'.2 → lookup N t ((1 - s) * p.1 + s * p'.1) ≠ (1 - s) * p.2 + s * p'.2) := by
  obtain ⟨t, ht⟩ := (C33_accepts N entries).2 ⟨by intro h; subst h; simp at hfull; omega, hfull.le⟩
  refine ⟨t, ht, fun s h0 h1 => ?_⟩
  obtain ⟨hne, hN, hrow, hrest⟩ := readTable_spec N entries t ht
  have tp : t (N - 2) = p := by have := hrow (N - 2) (by omega); rw [hp] at this; exact (Option.some.inj this).symm
  have tp' : t (N - 1) = p' := by have := hrow (N - 1) (by omega); rw [hp'] at this; exact (Option.some.inj this).symm
  have hlt := hinc (N - 2) (N - 1) p p' (by omega) hp hp'
  have hd : 0 < p'.1 - p.1 := by linarith
  have hT1 : p.1 < (1 - s) * p.1 + s * p'.1 := by have := mul_pos h0 hd; linarith
  have hT2 : (1 - s) * p.1 + s * p'.1 < p'.1 := by have := mul_lt_mul_of_pos_right h1 hd; linarith
  have key : lookup N t ((1 - s) * p.1 + s * p'.1) = p'.2 := by
    have h00 : (t 0).1 ≤ p.1 := by
      by_cases hz : N - 2 = 0
      · rw [← tp, hz]
      · exact (hinc 0 (N - 2) _ p (by omega) (hrow 0 (by omega)) hp).le
    unfold lookup
    rw [if_neg (by linarith)]
    have hs : scan t ((1 - s) * p.1 + s * p'.1) N 0 = N - 1 := by
      refine scan_eq t _ N 0 (N - 1) (by omega) (by omega) (fun k _ hk => ?_) (by rw [tp']; exact hT2)
      by_cases hki : k = N - 2
      · rw [hki, tp]; linarith
      · have := hinc k (N - 2) _ p (by omega) (hrow k (by omega)) hp
        linarith
    rw [hs]
    simp only [le_refl, if_true, tp']
  refine ⟨key, fun hv he => hv ?_⟩
  rw [key] at he
  have h3 : (1 - s) * (p.2 - p'.2) = 0 := by linarith
  rcases mul_eq_zero.1 h3 with h | h
  · linarith
  · linarith

/-- A table with two rows meets the hypotheses of the positive theorem for `table_size = 12`. -/
example : ∃ t, readTable 12 [(300, 10), (1000, 24)] = some t ∧ lookup 12 t 650 = 17 := by
  have hinc : Increasing [((300 : ℝ), (10 : ℝ)), (1000, 24)] := by
    intro i j p q hij hp hq
    have hj : j < 2 := by simpa using (List.getElem?_eq_some_iff.1 hq).1
    have : i = 0 ∧ j = 1 := by omega
    obtain ⟨rfl, rfl⟩ := this
    simp at hp hq
    subst hp; subst hq; norm_num
  obtain ⟨t, ht⟩ := (C33_accepts 12 [((300 : ℝ), (10 : ℝ)), (1000, 24)]).2 ⟨by simp, by simp⟩
  refine ⟨t, ht, ?_⟩
  have := (C33_interpolates_partial 12 _ t ht hinc (Or.inl (by simp))).between 0 (300, 10) (1000, 24) rfl rfl (1 / 2)
    (by norm_num) (by norm_num)
  norm_num at this
  exact this

/-- A twelve-row table: halfway between the last two rows the value is the last one, not the mean. -/
example : ∃ entries : List (ℝ × ℝ), entries.length = 12 ∧ Increasing entries ∧ entries[10]? = some (10, 10) ∧
    entries[11]? = some (11, 11) := by
  refine ⟨(List.range 12).map fun i : ℕ => ((i : ℝ), (i : ℝ)), by simp, ?_, by simp, by simp⟩
  intro i j p q hij hp hq
  simp only [List.getElem?_map, Option.map_eq_some_iff] at hp hq
  obtain ⟨a, ha, rfl⟩ := hp
  obtain ⟨b, hb, rfl⟩ := hq
  obtain ⟨ha', rfl⟩ := List.getElem?_eq_some_iff.1 ha
  obtain ⟨hb', rfl⟩ := List.getElem?_eq_some_iff.1 hb
  simp only [List.getElem_range]
  exact_mod_cast hij

/-! ## Polynomials -/

/-- Reading polynomial coefficients, `source/MaterialProperty.templates.hh:1006-1021`: the view is zero-initialised, more than
`p_order + 1` coefficients throw. -/
def readPolynomial (p : ℕ) (coefs : List ℝ) : Option (ℕ → ℝ) :=
  if coefs = [] then none
  else if coefs.length ≤ p + 1 then some fun i => coefs.getD i 0 else none

/-- `temperature_powers`, `source/ThermalOperator.templates.hh:525-530`. -/
def temperaturePowers (T : ℝ) : ℕ → ℝ
  | 0 => 1
  | i + 1 => temperaturePowers T i * T

/-- The hand-unrolled sum for one material in the vectorised code (one lane), `source/MaterialProperty.hh:572-777`; `c st i` is
the coefficient `i` of state `st` (solid 0, liquid 1, powder 2), `x` the ratios, `tp` the temperature powers. -/
noncomputable def unrolled (p nStates : ℕ) (c : ℕ → ℕ → ℝ) (x tp : ℕ → ℝ) : ℝ :=
  let add (v : ℝ) (st i : ℕ) : ℝ := v + x st * c st i * tp i
  let v : ℝ := 0
  let v :=
    if nStates = 1 then
      let v := add v 0 0
      let v := if 1 ≤ p then add v 0 1 else v
      let v := if 2 ≤ p then add v 0 2 else v
      let v := if 3 ≤ p then add v 0 3 else v
      if p = 4 then add v 0 4 else v
    else v
  let v :=
    if nStates = 2 then
      let v := add (add v 0 0) 1 0
      let v := if 1 ≤ p then add (add v 0 1) 1 1 else v
      let v := if 2 ≤ p then add (add v 0 2) 1 2 else v
      let v := if 3 ≤ p then add (add v 0 3) 1 3 else v
      if p = 4 then add (add v 0 4) 1 4 else v
    else v
  if nStates = 3 then
    let v := add (add (add v 0 0) 1 0) 2 0
    let v := if 1 ≤ p then add (add (add v 0 1) 1 1) 2 1 else v
    let v := if 2 ≤ p then add (add (add v 0 2) 1 2) 2 2 else v
    let v := if 3 ≤ p then add (add (add v 0 3) 1 3) 2 3 else v
    if p = 4 then add (add (add v 0 4) 1 4) 2 4 else v
  else v

/-- The generic loops of the vectorised code (one lane), `source/MaterialProperty.hh:780-795`, and of the scalar code
(`source/MaterialProperty.hh:830-842`, `source/ThermalOperatorDevice.templates.hh:308-320`): `for` over the states, `for` over
the powers. -/
noncomputable def looped (p nStates : ℕ) (c : ℕ → ℕ → ℝ) (x tp : ℕ → ℝ) : ℝ :=
  (List.range nStates).foldl (fun v st => (List.range (p + 1)).foldl (fun v i => v + x st * c st i * tp i) v) 0

/-- The vectorised code for one (`n_materials = 1`) or several materials. -/
noncomputable def vectorised (nMaterials p nStates : ℕ) (c : ℕ → ℕ → ℝ) (x : ℕ → ℝ) (T : ℝ) : ℝ :=
  if nMaterials = 1 then unrolled p nStates c x (temperaturePowers T)
  else looped p nStates c x (temperaturePowers T)

/-- The scalar code uses `std::pow`. -/
noncomputable def scalar (p nStates : ℕ) (c : ℕ → ℕ → ℝ) (x : ℕ → ℝ) (T : ℝ) : ℝ :=
  looped p nStates c x fun i => T ^ i

theorem temperaturePowers_eq (T : ℝ) (i : ℕ) : temperaturePowers T i = T ^ i := by
  induction i with
  | zero => simp [temperaturePowers]
  | succ i ih => rw [temperaturePowers, ih, pow_succ]

theorem foldl_add (f : ℕ → ℝ) (n : ℕ) (v : ℝ) : (List.range n).foldl (fun v i => v + f i) v = v + ∑ i ∈ Finset.range n, f i := by
  induction n with
  | zero => simp
  | succ n ih => rw [List.range_succ, List.foldl_append, ih, Finset.sum_range_succ]; simp [add_assoc]

theorem looped_eq (p nStates : ℕ) (c : ℕ → ℕ → ℝ) (x tp : ℕ → ℝ) :
    looped p nStates c x tp = ∑ st ∈ Finset.range nStates, x st * ∑ i ∈ Finset.range (p + 1), c st i * tp i := by
  unfold looped
  have : ∀ (st : ℕ) (v : ℝ), (List.range (p + 1)).foldl (fun v i => v + x st * c st i * tp i) v =
      v + x st * ∑ i ∈ Finset.range (p + 1), c st i * tp i := by
    intro st v
    rw [foldl_add, Finset.mul_sum]
    congr 1
    exact Finset.sum_congr rfl fun i _ => by ring
  simp only [this]
  rw [foldl_add, zero_add]

theorem unrolled_eq (p nStates : ℕ) (hp : p ≤ 4) (hs : 1 ≤ nStates ∧ nStates ≤ 3) (c : ℕ → ℕ → ℝ) (x tp : ℕ → ℝ) :
    unrolled p nStates c x tp = looped p nStates c x tp := by
  rw [looped_eq]
  have h1 : nStates = 1 ∨ nStates = 2 ∨ nStates = 3 := by omega
  have h2 : p = 0 ∨ p = 1 ∨ p = 2 ∨ p = 3 ∨ p = 4 := by omega
  rcases h1 with rfl | rfl | rfl <;> rcases h2 with rfl | rfl | rfl | rfl | rfl <;>
    simp [unrolled, Finset.sum_range_succ] <;> ring

/-- **C34.**  Let every state `st` of a material be given by the coefficients `coefs st` (at most `p_order + 1` of them, with
`p_order ≤ 4` as the code requires). Then the scalar code and the vectorised code (for one and for several materials) both
compute the mean of the polynomials of the states, weighted by the state ratios, at the temperature. -/
theorem C34_polynomial (p nStates nMaterials : ℕ) (hp : p ≤ 4) (hs : 1 ≤ nStates ∧ nStates ≤ 3) (coefs : ℕ → List ℝ)
    (c : ℕ → ℕ → ℝ) (hc : ∀ st < nStates, readPolynomial p (coefs st) = some (c st)) (x : ℕ → ℝ) (T : ℝ) :
    scalar p nStates c x T =
      ∑ st ∈ Finset.range nStates, x st * ∑ i ∈ Finset.range (coefs st).length, (coefs st).getD i 0 * T ^ i ∧
    vectorised nMaterials p nStates c x T = scalar p nStates c x T := by
  have htp : temperaturePowers T = fun i => T ^ i := funext (temperaturePowers_eq T)
  constructor
  · unfold scalar
    rw [looped_eq]
    refine Finset.sum_congr rfl fun st hst => ?_
    have h := hc st (Finset.mem_range.1 hst)
    unfold readPolynomial at h
    split_ifs at h with h1 h2
    have h := Option.some.inj h
    rw [← h]
    congr 1
    symm
    refine Finset.sum_subset (Finset.range_subset_range.2 h2) fun i _ hi => ?_
    rw [Finset.mem_range, not_lt] at hi
    simp [List.getD, List.getElem?_eq_none hi]
  · unfold vectorised scalar
    rw [htp]
    split_ifs with h
    · exact unrolled_eq p nStates hp hs c x _
    · rfl

/-- Coefficients are accepted exactly when there is at least one and at most `p_order + 1`. -/
theorem C34_accepts (p : ℕ) (coefs : List ℝ) :
    (∃ c, readPolynomial p coefs = some c) ↔ coefs ≠ [] ∧ coefs.length ≤ p + 1 := by
  unfold readPolynomial
  split_ifs with h1 h2 <;> simp [*]

example : ∀ st < 2, ∃ c, readPolynomial 4 ((fun st => if st = 0 then [1, 2, 3] else [5]) st) = some c := by
  intro st _
  by_cases h : st = 0 <;> simp [readPolynomial, h]

end Verif.Material
