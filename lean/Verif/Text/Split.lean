import Mathlib.Data.Real.Basic
import Mathlib.Data.List.Basic
import Mathlib.Data.List.Forall2

/-!
# Text files: lines, tokens, numbers

The C++ standard library conversions are parameters: `std::stod` and `std::stoi` read the number at the start of a text, or throw.
-/

namespace Verif.Text

/-- `std::stod` and `std::stoi`: a number, or `none` if they throw (`std::invalid_argument`, `std::out_of_range`). -/
structure Numbers where
  stod : List Char → Option ℝ
  stoi : List Char → Option ℤ

/-- What reading a file does: it returns a result, throws, or reads a token that is not there (`split_line[k]` outside the vector:
undefined behaviour). -/
inductive Out (α : Type)
  | ok (a : α)
  | thrown
  | ub

/-- Sequencing: an exception or undefined behaviour ends the reading. -/
def Out.bind {α β : Type} : Out α → (α → Out β) → Out β
  | .ok a, f => f a
  | .thrown, _ => .thrown
  | .ub, _ => .ub

/-- Apply a function to the result. -/
def Out.map {α β : Type} (f : α → β) (x : Out α) : Out β := x.bind fun a => .ok (f a)

@[simp] theorem Out.bind_ok {α β : Type} (a : α) (f : α → Out β) : (Out.ok a).bind f = f a := rfl
@[simp] theorem Out.bind_thrown {α β : Type} (f : α → Out β) : (Out.thrown : Out α).bind f = .thrown := rfl
@[simp] theorem Out.bind_ub {α β : Type} (f : α → Out β) : (Out.ub : Out α).bind f = .ub := rfl
@[simp] theorem Out.map_ok {α β : Type} (f : α → β) (a : α) : (Out.ok a).map f = .ok (f a) := rfl
@[simp] theorem Out.map_thrown {α β : Type} (f : α → β) : (Out.thrown : Out α).map f = .thrown := rfl
@[simp] theorem Out.map_ub {α β : Type} (f : α → β) : (Out.ub : Out α).map f = .ub := rfl

/-- The pieces after a part `cur` of the current one (in reverse) has been seen; `run` says that the last character was a separator. -/
def splitFrom (sep : Char → Bool) : List Char → Bool → List Char → List (List Char)
  | cur, _, [] => [cur.reverse]
  | cur, run, c :: cs =>
    if sep c then
      if run then splitFrom sep cur true cs else cur.reverse :: splitFrom sep [] true cs
    else splitFrom sep (c :: cur) false cs

/-- `boost::split(split_line, line, boost::is_any_of(…), boost::token_compress_on)`, as used in `source/ScanPath.cc:83-85, 167-169` and
`source/material_deposition.cc:84-86`: a run of separators counts as one.  Separators at the start or the end of the line give an
empty first or last token, the empty line one empty token. -/
def split (sep : Char → Bool) (line : List Char) : List (List Char) := splitFrom sep [] false line

/-- `split_line[k]`. -/
def token (ts : List (List Char)) (k : ℕ) : Out (List Char) :=
  match ts[k]? with
  | some t => .ok t
  | none => .ub

/-- `std::stod(split_line[k])`. -/
def num (r : Numbers) (ts : List (List Char)) (k : ℕ) : Out ℝ :=
  (token ts k).bind fun t =>
    match r.stod t with
    | some x => .ok x
    | none => .thrown

/-! ## Specification -/

/-- The line consists of the given fields, separated by one or more separators, without separators before the first and after the
last field. -/
inductive Fields (sep : Char → Bool) : List (List Char) → List Char → Prop
  | one (f : List Char) (hf : f ≠ []) (hs : ∀ c ∈ f, sep c = false) : Fields sep [f] f
  | cons (f gap : List Char) (fs : List (List Char)) (rest : List Char) (hf : f ≠ []) (hs : ∀ c ∈ f, sep c = false)
      (hg : gap ≠ []) (hgs : ∀ c ∈ gap, sep c = true) (hr : Fields sep fs rest) : Fields sep (f :: fs) (f ++ gap ++ rest)

/-! ## Lemmas -/

theorem splitFrom_field (sep : Char → Bool) (f s cur : List Char) (run : Bool) (hf : f ≠ []) (hs : ∀ c ∈ f, sep c = false) :
    splitFrom sep cur run (f ++ s) = splitFrom sep (f.reverse ++ cur) false s := by
  induction f generalizing cur run with
  | nil => exact absurd rfl hf
  | cons c cs ih =>
    have hc : sep c = false := hs c (by simp)
    rw [List.cons_append, splitFrom, hc]
    simp only [Bool.false_eq_true, if_false]
    by_cases h : cs = []
    · subst h; simp
    · rw [ih (c :: cur) false h fun d hd => hs d (List.mem_cons_of_mem _ hd)]
      simp

theorem splitFrom_run (sep : Char → Bool) (gap s : List Char) (hs : ∀ c ∈ gap, sep c = true) :
    splitFrom sep [] true (gap ++ s) = splitFrom sep [] true s := by
  induction gap with
  | nil => rfl
  | cons c cs ih =>
    rw [List.cons_append, splitFrom, hs c (by simp)]
    simp only [if_true]
    exact ih fun d hd => hs d (List.mem_cons_of_mem _ hd)

theorem splitFrom_gap (sep : Char → Bool) (gap s cur : List Char) (hg : gap ≠ []) (hs : ∀ c ∈ gap, sep c = true) :
    splitFrom sep cur false (gap ++ s) = cur.reverse :: splitFrom sep [] true s := by
  cases gap with
  | nil => exact absurd rfl hg
  | cons c cs =>
    rw [List.cons_append, splitFrom, hs c (by simp)]
    simp only [if_true, Bool.false_eq_true, if_false]
    rw [splitFrom_run sep cs s fun d hd => hs d (List.mem_cons_of_mem _ hd)]

/-- The pieces of a line with the given fields, possibly followed by separators. -/
theorem split_fields (sep : Char → Bool) {fs : List (List Char)} {line : List Char} (h : Fields sep fs line) (tail : List Char)
    (ht : ∀ c ∈ tail, sep c = true) (run : Bool) :
    splitFrom sep [] run (line ++ tail) = fs ++ (if tail = [] then [] else [[]]) := by
  induction h generalizing run with
  | one f hf hs =>
    rw [splitFrom_field sep f tail [] run hf hs]
    by_cases h : tail = []
    · subst h; simp [splitFrom]
    · have := splitFrom_gap sep tail [] (f.reverse ++ []) h ht
      rw [List.append_nil tail] at this
      rw [this]
      simp [splitFrom, h]
  | cons f gap fs rest hf hs hg hgs hr ih =>
    rw [List.append_assoc, List.append_assoc, splitFrom_field sep f _ [] run hf hs, splitFrom_gap sep gap _ _ hg hgs, ih true]
    simp

/-- A line is split into its fields. -/
theorem split_eq (sep : Char → Bool) {fs : List (List Char)} {line : List Char} (h : Fields sep fs line) : split sep line = fs := by
  have := split_fields sep h [] (by simp) false
  simpa [split] using this

/-- Separators after the last field give an empty last token. -/
theorem split_trailing (sep : Char → Bool) {fs : List (List Char)} {line tail : List Char} (h : Fields sep fs line) (ht : tail ≠ [])
    (hs : ∀ c ∈ tail, sep c = true) : split sep (line ++ tail) = fs ++ [[]] := by
  have := split_fields sep h tail hs false
  rwa [if_neg ht] at this

/-- Separators before the first field give an empty first token. -/
theorem split_leading (sep : Char → Bool) {fs : List (List Char)} {line head : List Char} (h : Fields sep fs line) (hh : head ≠ [])
    (hs : ∀ c ∈ head, sep c = true) : split sep (head ++ line) = [] :: fs := by
  rw [split, splitFrom_gap sep head line [] hh hs]
  have := split_fields sep h [] (by simp) true
  rw [List.append_nil] at this
  rw [this]
  simp

theorem num_some {r : Numbers} {ts : List (List Char)} {k : ℕ} {t : List Char} {x : ℝ} (ht : ts[k]? = some t)
    (hx : r.stod t = some x) : num r ts k = .ok x := by
  simp only [num, token, ht, Out.bind_ok, hx]

theorem num_none {r : Numbers} {ts : List (List Char)} {k : ℕ} {t : List Char} (ht : ts[k]? = some t)
    (hx : r.stod t = none) : num r ts k = .thrown := by
  simp only [num, token, ht, Out.bind_ok, hx]

/-- If the tokens spell the numbers, the `k`-th number is read. -/
theorem num_of_map {r : Numbers} {ts : List (List Char)} {xs : List ℝ} (h : ts.map r.stod = xs.map some) {k : ℕ} {x : ℝ}
    (hk : xs[k]? = some x) : num r ts k = .ok x := by
  have e : (ts.map r.stod)[k]? = some (some x) := by rw [h, List.getElem?_map, hk]; rfl
  rw [List.getElem?_map] at e
  cases ht : ts[k]? with
  | none => rw [ht] at e; cases e
  | some t =>
    rw [ht] at e
    exact num_some ht (Option.some.inj e)

theorem fields_ne_nil {sep : Char → Bool} {fs : List (List Char)} {line : List Char} (h : Fields sep fs line) : line ≠ [] := by
  cases h with
  | one f hf hs => exact hf
  | cons f gap fs rest hf hs hg hgs hr => simp [hf]

/-- Every text is the spelling of its pieces. -/
example : split (fun c => c == ' ') " ab  c ".toList = ["".toList, "ab".toList, "c".toList, "".toList] := by decide
example : split (fun c => c == ' ' || c == ',') "1, 2,3".toList = ["1".toList, "2".toList, "3".toList] := by decide
example : split (fun c => c == ' ') [] = [[]] := by decide

end Verif.Text
