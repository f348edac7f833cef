import Verif.Text.Split
import Verif.Deposition.ListProps

/-!
# C125: the text of a deposition file

`read_material_deposition`, `source/material_deposition.cc:56-127`, from the characters of the file.  A file is the list of its lines
(at least one); `std::stod` and `std::stoi` are parameters, waiting for the file is not modelled.
-/

namespace Verif.Deposition

open Verif.Text

/-! ## Model -/

/-- `boost::is_any_of(" ")`, `material_deposition.cc:85`. -/
def blankSep (c : Char) : Bool := c == ' '

/-- `for (int d = 0; d < dim; ++d) center[d] = std::stod(split_line[d])`, `material_deposition.cc:89-98`: `m` numbers from token `k`. -/
def readMany (r : Numbers) (ts : List (List Char)) : ℕ → ℕ → Out (List ℝ)
  | _, 0 => .ok []
  | k, m + 1 => (num r ts k).bind fun x => (readMany r ts (k + 1) m).map fun xs => x :: xs

/-- The `dim` numbers as a vector. -/
def vecOf (n : ℕ) (xs : List ℝ) (d : Fin n) : ℝ := xs.getD d 0

open Classical in
/-- The loop over the lines, `material_deposition.cc:82-121`: the time is compared with the previous one before the angle is read. -/
noncomputable def textLoop (r : Numbers) (n : ℕ) : Lists (Box n) → List (List Char) → Out (Lists (Box n))
  | acc, [] => .ok acc
  | acc, l :: ls =>
    let ts := split blankSep l
    (readMany r ts 0 n).bind fun cs => (readMany r ts n n).bind fun ss => (num r ts (2 * n)).bind fun t =>
      if acc.times.getLast? = none ∨ ∃ t0 : ℝ, acc.times.getLast? = some (some t0) ∧ t0 ≤ t then
        (num r ts (2 * n + 1)).bind fun a =>
          textLoop r n ⟨acc.boxes ++ [⟨fun d => vecOf n cs d - 0.5 * vecOf n ss d, fun d => vecOf n cs d + 0.5 * vecOf n ss d⟩],
            acc.times ++ [some t], acc.cosines ++ [Real.cos a], acc.sines ++ [Real.sin a]⟩ ls
      else .thrown

/-- `read_material_deposition<dim>`, `material_deposition.cc:56-127`; `first` is the first line. -/
noncomputable def readText (r : Numbers) (n : ℕ) (first : List Char) (lines : List (List Char)) : Out (Lists (Box n)) :=
  match r.stoi first with
  | none => .thrown
  | some d => if d = n then textLoop r n .empty lines else .thrown

/-! ## Specification -/

/-- The line spells the record: centre, edge lengths, time and angle, separated by blanks; blanks may follow. -/
def Spells {n : ℕ} (r : Numbers) (line : List Char) (e : Record n) : Prop :=
  ∃ (fs : List (List Char)) (body tail : List Char), line = body ++ tail ∧ (∀ c ∈ tail, c = ' ') ∧ Fields blankSep fs body ∧
    fs.map r.stod = (List.ofFn e.center ++ List.ofFn e.size ++ [e.time, e.angle]).map some

/-! ## Proofs -/

theorem readMany_eq {r : Numbers} {ts : List (List Char)} (xs : List ℝ) (k : ℕ)
    (h : ∀ (i : ℕ) (x : ℝ), xs[i]? = some x → num r ts (k + i) = .ok x) : readMany r ts k xs.length = .ok xs := by
  induction xs generalizing k with
  | nil => rfl
  | cons x xs ih =>
    have h0 := h 0 x rfl
    rw [Nat.add_zero] at h0
    rw [List.length_cons, readMany, h0, Out.bind_ok, ih (k + 1) fun i y hy => by
      have := h (i + 1) y (by simpa using hy)
      rwa [show k + (i + 1) = k + 1 + i by omega] at this]
    rfl

/-- The tokens of a line that spells a record. -/
theorem spells_tokens {n : ℕ} {r : Numbers} {line : List Char} {e : Record n} (h : Spells r line e) :
    readMany r (split blankSep line) 0 n = .ok (List.ofFn e.center) ∧ readMany r (split blankSep line) n n = .ok (List.ofFn e.size) ∧
      num r (split blankSep line) (2 * n) = .ok e.time ∧ num r (split blankSep line) (2 * n + 1) = .ok e.angle := by
  obtain ⟨fs, body, tail, rfl, htail, hfs, hn⟩ := h
  have hlen : fs.length = 2 * n + 2 := by
    have := congrArg List.length hn
    simp only [List.length_map, List.length_append, List.length_ofFn, List.length_cons, List.length_nil] at this
    omega
  have hnum : ∀ (k : ℕ) (x : ℝ), (List.ofFn e.center ++ List.ofFn e.size ++ [e.time, e.angle])[k]? = some x →
      num r (split blankSep (body ++ tail)) k = .ok x := by
    intro k x hk
    have hk' : k < fs.length := by
      by_contra hc
      rw [List.getElem?_eq_none (by simp only [List.length_append, List.length_ofFn, List.length_cons, List.length_nil]; omega)] at hk
      cases hk
    have hget : (split blankSep (body ++ tail))[k]? = fs[k]? := by
      by_cases ht : tail = []
      · rw [ht, List.append_nil, split_eq blankSep hfs]
      · rw [split_trailing blankSep hfs ht fun c hc => by rw [htail c hc]; rfl, List.getElem?_append_left hk']
    have := num_of_map hn hk
    simp only [num, token] at this ⊢
    rw [hget]
    exact this
  have hc := readMany_eq (r := r) (ts := split blankSep (body ++ tail)) (List.ofFn e.center) 0 fun i x hi => by
    have hin : i < n := by
      by_contra hcn
      rw [List.getElem?_eq_none (by simp; omega)] at hi
      cases hi
    rw [Nat.zero_add]
    refine hnum i x ?_
    rw [List.append_assoc, List.getElem?_append_left (by simpa using hin)]
    exact hi
  have hs := readMany_eq (r := r) (ts := split blankSep (body ++ tail)) (List.ofFn e.size) n fun i x hi => by
    have hin : i < n := by
      by_contra hcn
      rw [List.getElem?_eq_none (by simp; omega)] at hi
      cases hi
    refine hnum (n + i) x ?_
    rw [List.append_assoc, List.getElem?_append_right (by simp), List.length_ofFn, Nat.add_sub_cancel_left,
      List.getElem?_append_left (by simpa using hin)]
    exact hi
  rw [List.length_ofFn] at hc hs
  refine ⟨hc, hs, hnum _ _ ?_, hnum _ _ ?_⟩
  · rw [List.getElem?_append_right (by simp; omega)]
    simp only [List.length_append, List.length_ofFn]
    rw [show 2 * n - (n + n) = 0 by omega]
    rfl
  · rw [List.getElem?_append_right (by simp; omega)]
    simp only [List.length_append, List.length_ofFn]
    rw [show 2 * n + 1 - (n + n) = 1 by omega]
    rfl

theorem vecOf_ofFn {n : ℕ} (f : Fin n → ℝ) : vecOf n (List.ofFn f) = f := by
  funext d
  simp [vecOf]

/-- Every time in the accumulated lists is a number. -/
def Timed {β : Type} (l : Lists β) : Prop := ∀ t, l.times.getLast? = some t → t.isSome

theorem textLoop_spells {n : ℕ} {r : Numbers} (lines : List (List Char)) (recs : List (Record n)) (acc : Lists (Box n))
    (h : List.Forall₂ (Spells r) lines recs) (ha : Timed acc) :
    textLoop r n acc lines = (match readLoop acc recs with | some l => .ok l | none => .thrown) := by
  induction h generalizing acc with
  | nil => rfl
  | cons hl hrest ih =>
    rename_i l e ls es
    obtain ⟨h1, h2, h3, h4⟩ := spells_tokens hl
    rw [textLoop, readLoop]
    simp only [h1, h2, h3, h4, Out.bind_ok, vecOf_ofFn]
    cases hlast : acc.times.getLast? with
    | none =>
      rw [if_pos (Or.inl rfl), if_pos trivial]
      refine ih _ ?_
      intro t ht
      simp only [List.getLast?_append, List.getLast?_singleton, Option.some_or, Option.some.injEq] at ht
      rw [← ht]
      rfl
    | some t0 =>
      have := ha t0 hlast
      obtain ⟨t, rfl⟩ := Option.isSome_iff_exists.1 this
      dsimp only
      by_cases hle : t ≤ e.time
      · rw [if_pos (Or.inr ⟨t, rfl, hle⟩), if_pos hle]
        refine ih _ ?_
        intro t' ht
        simp only [List.getLast?_append, List.getLast?_singleton, Option.some_or, Option.some.injEq] at ht
        rw [← ht]
        rfl
      · rw [if_neg hle, if_neg]
        rintro (hc | ⟨t1, hc, hle'⟩)
        · cases hc
        · rw [Option.some.injEq, Option.some.injEq] at hc
          rw [← hc] at hle'
          exact hle hle'

/-- **C125, accepted files.**  A file with the right dimension on its first line, and whose other lines spell the records `recs` with
times that do not decrease, is read as exactly these records, in the order of the file. -/
theorem C125_read_partial (r : Numbers) (n : ℕ) (first : List Char) (lines : List (List Char)) (recs : List (Record n))
    (hd : r.stoi first = some (n : ℤ)) (h : List.Forall₂ (Spells r) lines recs) (ht : recs.Pairwise fun a b => a.time ≤ b.time) :
    ∃ l, readText r n first lines = .ok l ∧ Parallel l ∧ l.boxes.length = recs.length ∧
      ∀ (i : ℕ) (e : Record n), recs[i]? = some e →
        (∃ b : Box n, l.boxes[i]? = some b ∧ b.CentredAt e.center e.size) ∧ l.times[i]? = some (some e.time) ∧
        l.cosines[i]? = some (Real.cos e.angle) ∧ l.sines[i]? = some (Real.sin e.angle) := by
  have hs := (C11_accepted_iff n (n : ℤ) recs).2 ⟨rfl, ht⟩
  obtain ⟨l, hl⟩ := Option.isSome_iff_exists.1 hs
  refine ⟨l, ?_, C11_read n n recs l hl⟩
  rw [readDeposition, if_pos rfl] at hl
  rw [readText, hd]
  dsimp only
  rw [if_pos rfl, textLoop_spells lines recs .empty h (by intro t ht; simp [Lists.empty] at ht), hl]

/-- **C125, rejected files.**  A file for another dimension, and one whose times decrease somewhere, is rejected. -/
theorem C125_rejected (r : Numbers) (n : ℕ) (first : List Char) (lines : List (List Char)) (recs : List (Record n)) (d : ℤ)
    (hd : r.stoi first = some d) (h : List.Forall₂ (Spells r) lines recs)
    (hbad : d ≠ n ∨ ¬ recs.Pairwise fun a b => a.time ≤ b.time) : readText r n first lines = .thrown := by
  rw [readText, hd]
  dsimp only
  by_cases hdn : d = n
  · rw [if_pos hdn, textLoop_spells lines recs .empty h (by intro t ht; simp [Lists.empty] at ht)]
    have hn : readDeposition n (n : ℤ) recs = none := by
      rw [← Option.not_isSome_iff_eq_none, C11_accepted_iff]
      rintro ⟨-, hp⟩
      exact hbad.elim (fun hc => hc hdn) fun hc => hc hp
    rw [readDeposition, if_pos rfl] at hn
    rw [hn]
  · rw [if_neg hdn]

/-- **C125 fails for empty lines**: every file with one, however acceptable otherwise, is rejected (`std::stod` throws for the empty token), for
instance when its last line is followed by an empty one. -/
theorem C125_empty_line_refuted (r : Numbers) (hr : r.stod [] = none) (n : ℕ) (hn : 0 < n) (first : List Char)
    (lines rest : List (List Char)) (recs : List (Record n)) (hd : r.stoi first = some (n : ℤ)) (h : List.Forall₂ (Spells r) lines recs) :
    readText r n first (lines ++ [] :: rest) = .thrown := by
  have key : ∀ (lines : List (List Char)) (recs : List (Record n)) (acc : Lists (Box n)), List.Forall₂ (Spells r) lines recs →
      textLoop r n acc (lines ++ [] :: rest) = .thrown ∨ ∃ acc', textLoop r n acc (lines ++ [] :: rest) = textLoop r n acc' ([] :: rest) := by
    intro lines recs acc h
    induction h generalizing acc with
    | nil => exact Or.inr ⟨acc, rfl⟩
    | cons hl hrest ih =>
      obtain ⟨h1, h2, h3, h4⟩ := spells_tokens hl
      rw [List.cons_append, textLoop]
      simp only [h1, h2, h3, h4, Out.bind_ok]
      split
      · exact ih _
      · exact Or.inl rfl
  have hempty : ∀ acc : Lists (Box n), textLoop r n acc ([] :: rest) = .thrown := by
    intro acc
    obtain ⟨m, rfl⟩ : ∃ m, n = m + 1 := ⟨n - 1, by omega⟩
    have h0 : num r (split blankSep []) 0 = .thrown := num_none (t := []) rfl hr
    rw [textLoop]
    rw [readMany, h0]
    rfl
  rw [readText, hd]
  dsimp only
  rw [if_pos rfl]
  rcases key lines recs .empty h with hk | ⟨acc', hk⟩
  · exact hk
  · rw [hk, hempty]

/-- **C125 fails for a line without angle**: the token is read outside of the vector (undefined behaviour). -/
theorem C125_missing_angle_refuted (r : Numbers) (n : ℕ) (first body : List Char) (rest : List (List Char)) (fs : List (List Char))
    (cs ss : Fin n → ℝ) (t : ℝ) (hd : r.stoi first = some (n : ℤ)) (hf : Fields blankSep fs body)
    (hn : fs.map r.stod = (List.ofFn cs ++ List.ofFn ss ++ [t]).map some) : readText r n first (body :: rest) = .ub := by
  have hlen : fs.length = 2 * n + 1 := by
    have := congrArg List.length hn
    simp only [List.length_map, List.length_append, List.length_ofFn, List.length_cons, List.length_nil] at this
    omega
  have hc := readMany_eq (r := r) (ts := fs) (List.ofFn cs) 0 fun i x hi => by
    have hin : i < n := by
      by_contra hcn
      rw [List.getElem?_eq_none (by simp; omega)] at hi
      cases hi
    rw [Nat.zero_add]
    refine num_of_map hn ?_
    rw [List.append_assoc, List.getElem?_append_left (by simpa using hin)]
    exact hi
  have hs := readMany_eq (r := r) (ts := fs) (List.ofFn ss) n fun i x hi => by
    have hin : i < n := by
      by_contra hcn
      rw [List.getElem?_eq_none (by simp; omega)] at hi
      cases hi
    refine num_of_map hn ?_
    rw [List.append_assoc, List.getElem?_append_right (by simp), List.length_ofFn, Nat.add_sub_cancel_left,
      List.getElem?_append_left (by simpa using hin)]
    exact hi
  have ht : num r fs (2 * n) = .ok t := by
    refine num_of_map hn ?_
    rw [List.getElem?_append_right (by simp; omega)]
    simp only [List.length_append, List.length_ofFn]
    rw [show 2 * n - (n + n) = 0 by omega]
    rfl
  have ha : num r fs (2 * n + 1) = .ub := by
    simp only [num, token]
    rw [List.getElem?_eq_none (by omega)]
    rfl
  rw [List.length_ofFn] at hc hs
  rw [readText, hd]
  dsimp only
  rw [if_pos rfl, textLoop]
  rw [split_eq blankSep hf, hc, Out.bind_ok, hs, Out.bind_ok, ht, Out.bind_ok]
  have hnone : (Lists.empty : Lists (Box n)).times.getLast? = none := rfl
  rw [if_pos (Or.inl hnone), ha]
  rfl

/-- Numbers of one digit. -/
noncomputable def oneDigit : Numbers where
  stod
    | [c] => if c.isDigit then some ((c.toNat - 48 : ℕ) : ℝ) else none
    | _ => none
  stoi
    | [c] => if c.isDigit then some ((c.toNat - 48 : ℕ) : ℤ) else none
    | _ => none

/-- A line for a box in two dimensions, with a blank at its end, spells its record; the first line gives the dimension. -/
example : Spells oneDigit "1 2  3 4 5 0 ".toList ⟨![((1 : ℕ) : ℝ), ((2 : ℕ) : ℝ)], ![((3 : ℕ) : ℝ), ((4 : ℕ) : ℝ)], ((5 : ℕ) : ℝ), ((0 : ℕ) : ℝ)⟩ ∧
    oneDigit.stoi ['2'] = some ((2 : ℕ) : ℤ) ∧ oneDigit.stod [] = none := by
  have hone : ∀ c : Char, blankSep c = false → Fields blankSep [[c]] [c] := by
    intro c h
    refine .one [c] (by simp) ?_
    intro d hd
    rw [List.mem_singleton.1 hd]
    exact h
  have hcons : ∀ (c : Char) (gap : List Char) (fs : List (List Char)) (rest : List Char), blankSep c = false → gap ≠ [] →
      (∀ d ∈ gap, blankSep d = true) → Fields blankSep fs rest → Fields blankSep ([c] :: fs) ([c] ++ gap ++ rest) := by
    intro c gap fs rest h hg hgs hr
    refine .cons [c] gap fs rest (by simp) ?_ hg hgs hr
    intro d hd
    rw [List.mem_singleton.1 hd]
    exact h
  refine ⟨⟨[['1'], ['2'], ['3'], ['4'], ['5'], ['0']], "1 2  3 4 5 0".toList, [' '], by decide, by simp, ?_, rfl⟩, rfl, rfl⟩
  exact hcons '1' [' '] _ _ rfl (by simp) (by decide) (hcons '2' [' ', ' '] _ _ rfl (by simp) (by decide)
    (hcons '3' [' '] _ _ rfl (by simp) (by decide) (hcons '4' [' '] _ _ rfl (by simp) (by decide)
    (hcons '5' [' '] _ _ rfl (by simp) (by decide) (hone '0' rfl)))))

end Verif.Deposition
