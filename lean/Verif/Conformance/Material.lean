import Verif.Material.Phase
import Verif.Material.Tables
import Verif.Material.Update

/-!
# The material property tests of the project, on the model

`/repo/tests/test_material_property.hh`, `ratios`, `material_property_table` and `material_property_polynomials`, from the
numbers of the input files.  Tests of the model, not proofs of properties.
-/

namespace Verif.Conformance

open Verif.Material Verif.Material.Fill

/-- `ratios`: powder at 0, then molten at 100000, then solid at 0. -/
theorem test_ratios : updateCell .solidLiquidPowder ⟨50, 100⟩ ⟨0, 0, 1⟩ 0 = some ⟨0, 0, 1⟩ ∧
    updateCell .solidLiquidPowder ⟨50, 100⟩ ⟨0, 0, 1⟩ 100000 = some ⟨0, 1, 0⟩ ∧
    updateCell .solidLiquidPowder ⟨50, 100⟩ ⟨0, 1, 0⟩ 0 = some ⟨1, 0, 0⟩ := by
  have hk : Kind.solidLiquidPowder ≠ Kind.solid := by decide
  refine ⟨?_, ?_, ?_⟩ <;> norm_num [updateCell, liquidRatio, phase, hk]

/-- `ratios`: the density 10, 1, 1 and the conductivity 10, 20, 1 (solid, liquid, powder) of the three cells. -/
theorem test_ratios_values :
    looped 0 3 (fun st _ => [10, 1, 1].getD st 0) (ratioOf ⟨0, 0, 1⟩) (fun i => (0 : ℝ) ^ i) = 1 ∧
    looped 0 3 (fun st _ => [10, 1, 1].getD st 0) (ratioOf ⟨0, 1, 0⟩) (fun i => (100000 : ℝ) ^ i) = 1 ∧
    looped 0 3 (fun st _ => [10, 1, 1].getD st 0) (ratioOf ⟨1, 0, 0⟩) (fun i => (0 : ℝ) ^ i) = 10 ∧
    looped 0 3 (fun st _ => [10, 20, 1].getD st 0) (ratioOf ⟨0, 0, 1⟩) (fun i => (0 : ℝ) ^ i) = 1 ∧
    looped 0 3 (fun st _ => [10, 20, 1].getD st 0) (ratioOf ⟨0, 1, 0⟩) (fun i => (100000 : ℝ) ^ i) = 20 ∧
    looped 0 3 (fun st _ => [10, 20, 1].getD st 0) (ratioOf ⟨1, 0, 0⟩) (fun i => (0 : ℝ) ^ i) = 10 := by
  refine ⟨?_, ?_, ?_, ?_, ?_, ?_⟩ <;> norm_num [looped, List.range_succ, ratioOf]

/-- The table view of a text with `n` rows: the rows, then copies of the last one. -/
theorem rows_of_text (rows : List (ℝ × ℝ)) (h0 : rows ≠ []) (h : rows.length ≤ 12) (v : ℝ)
    (hv : ∀ t : Table, (∀ j < rows.length, rows[j]? = some (t j)) →
      (∀ j, rows.length ≤ j → j < 12 → t j = t (rows.length - 1)) → lookup 12 t 15 = v) :
    (readTable 12 rows).map (lookup 12 · 15) = some v := by
  cases ht : readTable 12 rows with
  | none => simp [readTable, h0, h] at ht
  | some t =>
    obtain ⟨-, -, h1, h2⟩ := readTable_spec 12 rows t ht
    exact congrArg some (hv t h1 h2)

/-- `material_property_table`: the tables of the input file at temperature 15, with `table_size = 12`. -/
theorem test_tables :
    (readTable 12 [(0, 1)]).map (lookup 12 · 15) = some 1 ∧
    (readTable 12 [(0, 10), (10, 100)]).map (lookup 12 · 15) = some 100 ∧
    (readTable 12 [(0, 1), (20, 2), (30, 3)]).map (lookup 12 · 15) = some (175 / 100) ∧
    (readTable 12 [(0, 10), (10, 100), (20, 200)]).map (lookup 12 · 15) = some 150 ∧
    (readTable 12 [(0, 1), (15, 2), (30, 3)]).map (lookup 12 · 15) = some 2 ∧
    (readTable 12 [(0, 10), (10, 100), (18, 200)]).map (lookup 12 · 15) = some (1625 / 10) := by
  refine ⟨?_, ?_, ?_, ?_, ?_, ?_⟩
  · refine rows_of_text _ (by simp) (by simp) _ fun t h r => ?_
    have a0 := h 0 (by simp)
    have e : ∀ j, 1 ≤ j → j < 12 → t j = t 0 := r
    simp only [List.getElem?_cons_zero, Option.some_inj] at a0
    norm_num [lookup, scan, ← a0, e]
  · refine rows_of_text _ (by simp) (by simp) _ fun t h r => ?_
    have a0 := h 0 (by simp)
    have a1 := h 1 (by simp)
    have e : ∀ j, 2 ≤ j → j < 12 → t j = t 1 := r
    simp only [List.getElem?_cons_zero, List.getElem?_cons_succ, Option.some_inj] at a0 a1
    norm_num [lookup, scan, ← a0, ← a1, e]
  all_goals
    refine rows_of_text _ (by simp) (by simp) _ fun t h r => ?_
    have a0 := h 0 (by simp)
    have a1 := h 1 (by simp)
    have a2 := h 2 (by simp)
    have e : ∀ j, 3 ≤ j → j < 12 → t j = t 2 := r
    simp only [List.getElem?_cons_zero, List.getElem?_cons_succ, Option.some_inj] at a0 a1 a2
    norm_num [lookup, scan, ← a0, ← a1, ← a2, e]

/-- `material_property_polynomials`: the polynomials of the input file at temperature 15, both ways of evaluating them. -/
theorem test_polynomials (solid : ℕ → ℝ) (hs : solid = ratioOf ⟨1, 0, 0⟩) (powder : ℕ → ℝ) (hp : powder = ratioOf ⟨0, 0, 1⟩)
    (f : List ℝ → (ℕ → ℝ) → ℝ)
    (hf : (∀ l x, f l x = scalar 4 3 (fun _ i => l.getD i 0) x 15) ∨
      ∀ l x, f l x = vectorised 2 4 3 (fun _ i => l.getD i 0) x 15) :
    f [0, 1] solid = 15 ∧ f [0, 1, 2] solid = 465 ∧ f [1, 2, 3] solid = 706 ∧ f [1, 100, 20, 200] solid = 681001 ∧
      f [15, 2, 3] powder = 720 ∧ f [10, 18, 200] powder = 45280 := by
  subst hs
  subst hp
  rcases hf with hf | hf
  · simp only [hf]
    refine ⟨?_, ?_, ?_, ?_, ?_, ?_⟩ <;> norm_num [scalar, looped, List.range_succ, ratioOf]
  · simp only [hf]
    refine ⟨?_, ?_, ?_, ?_, ?_, ?_⟩ <;>
      norm_num [vectorised, looped, List.range_succ, ratioOf, temperaturePowers]

end Verif.Conformance
