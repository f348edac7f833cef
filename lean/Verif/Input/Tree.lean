/-
Property trees and the text handling shared by the input code.

The input of adamantine is a `boost::property_tree::ptree`: a node has a text and
an ordered list of named children.  Only the operations that the modelled code uses
are defined: following a path, reading the text, counting the children of a name,
splitting a text at commas and comparing two texts without regard to case.
-/

namespace Verif.Input

/-- A `boost::property_tree::ptree`: the text of the node and its named children, in the
order of the input file.  (Library type; names containing a dot cannot be reached by a
path, which is why paths are lists of names here.) -/
inductive Tree where
  | node (data : String) (children : List (String × Tree)) : Tree

namespace Tree

/-- `ptree::data()`. -/
def data : Tree → String
  | node d _ => d

/-- The named children in order. -/
def children : Tree → List (String × Tree)
  | node _ c => c

/-- `ptree::get_child_optional` for a path of one name: the first child of that name. -/
def child? (t : Tree) (k : String) : Option Tree :=
  (t.children.find? (fun c => decide (c.1 = k))).map (·.2)

/-- `ptree::get_child_optional(path)`. -/
def get? (t : Tree) : List String → Option Tree
  | [] => some t
  | k :: ks => (t.child? k).bind (fun c => c.get? ks)

/-- `ptree::get_optional<std::string>(path)`: the text found at the path. -/
def str? (t : Tree) (path : List String) : Option String := (t.get? path).map data

/-- `ptree::count(key)`: the number of direct children of that name. -/
def count (t : Tree) (k : String) : Nat := (t.children.filter (fun c => decide (c.1 = k))).length

end Tree

/-- The conversions `get<T>` uses for numbers and truth values (stream extraction in the
C++ library).  They are parameters of the model: nothing is assumed about them. -/
structure Parsers (R : Type) where
  /-- `get<unsigned int>` -/
  uint : String → Option Nat
  /-- `get<double>` -/
  dbl : String → Option R
  /-- `get<bool>` -/
  bool : String → Option Bool

/-- The pieces of a text between commas (the loop `find(",")`/`substr`/`erase` of
source/Boundary.cc:97-105 and source/validate_input_database.cc:107-115, including the
last piece after the loop). -/
def splitComma : List Char → List (List Char)
  | [] => [[]]
  | c :: cs =>
    if c = ',' then [] :: splitComma cs
    else
      match splitComma cs with
      | [] => [[c]]
      | p :: ps => (c :: p) :: ps

/-- The names in a comma separated text. -/
def pieces (s : String) : List String := (splitComma s.toList).map String.ofList

/-- `s` is the text obtained by writing the given names one after the other, with a comma
between two names.  (Specification.) -/
def IsLine (s : String) (names : List String) : Prop :=
  s.toList = List.intercalate [','] (names.map String.toList)

/-- A text compared letter by letter in lower case (`std::tolower`, ASCII). -/
def lower (s : String) : List Char := s.toList.map Char.toLower

/-- `boost::iequals` (ASCII): equality up to the case of the letters. -/
def iequals (a b : String) : Bool := decide (lower a = lower b)

theorem splitComma_nocomma {l : List Char} (h : ',' ∉ l) : splitComma l = [l] := by
  induction l with
  | nil => rfl
  | cons c cs ih =>
    have hc : c ≠ ',' := fun e => h (by simp [e])
    have hcs : ',' ∉ cs := fun e => h (by simp [e])
    simp [splitComma, hc, ih hcs]

theorem splitComma_append {l r : List Char} (h : ',' ∉ l) :
    splitComma (l ++ ',' :: r) = l :: splitComma r := by
  induction l with
  | nil => simp [splitComma]
  | cons c cs ih =>
    have hc : c ≠ ',' := fun e => h (by simp [e])
    have hcs : ',' ∉ cs := fun e => h (by simp [e])
    simp [splitComma, hc, ih hcs]

theorem splitComma_intercalate (ls : List (List Char)) (hne : ls ≠ [])
    (h : ∀ l ∈ ls, ',' ∉ l) : splitComma (List.intercalate [','] ls) = ls := by
  induction ls with
  | nil => exact absurd rfl hne
  | cons a t ih =>
    cases t with
    | nil => simpa [List.intercalate] using splitComma_nocomma (h a (by simp))
    | cons b t' =>
      have e : List.intercalate [','] (a :: b :: t')
          = a ++ ',' :: List.intercalate [','] (b :: t') := by
        simp [List.intercalate, List.intersperse]
      rw [e, splitComma_append (h a (by simp)), ih (by simp) (fun l hl => h l (by simp [hl]))]

/-- Splitting a line gives back its names. -/
theorem pieces_of_isLine {s : String} {names : List String} (hs : IsLine s names)
    (hne : names ≠ []) (h : ∀ n ∈ names, ',' ∉ n.toList) : pieces s = names := by
  unfold pieces
  rw [hs, splitComma_intercalate]
  · simp
  · simpa using hne
  · intro l hl
    obtain ⟨n, hn, rfl⟩ := List.mem_map.1 hl
    exact h n hn

theorem splitComma_ne_nil (l : List Char) : splitComma l ≠ [] := by
  cases l with
  | nil => simp [splitComma]
  | cons c cs =>
    by_cases h : c = ','
    · simp [splitComma, h]
    · simp only [splitComma, h, if_false]
      cases splitComma cs <;> simp

theorem pieces_ne_nil (s : String) : pieces s ≠ [] := by
  simp [pieces, splitComma_ne_nil]

theorem Tree.count_ne_zero (t : Tree) (k : String) :
    t.count k ≠ 0 ↔ ∃ c, t.child? k = some c := by
  unfold Tree.count Tree.child?
  cases h : t.children.find? (fun c => decide (c.1 = k)) with
  | none =>
    have : t.children.filter (fun c => decide (c.1 = k)) = [] := by
      rw [List.filter_eq_nil_iff]
      intro a ha
      exact List.find?_eq_none.1 h a ha
    simp [this]
  | some a =>
    have h1 := List.find?_some h
    have h2 := List.mem_of_find?_eq_some h
    have : a ∈ t.children.filter (fun c => decide (c.1 = k)) := List.mem_filter.2 ⟨h2, h1⟩
    have h3 : t.children.filter (fun c => decide (c.1 = k)) ≠ [] := fun e => by
      rw [e] at this; exact absurd this (by simp)
    simp [h3]

theorem iequals_iff (a b : String) : iequals a b = true ↔ lower a = lower b := by
  simp [iequals]

end Verif.Input
