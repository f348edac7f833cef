import Mathlib.Data.Nat.Digits.Defs
import Mathlib.Data.Real.Basic
import Mathlib.Data.List.Nodup
import Mathlib.Tactic.Linarith
import Mathlib.Tactic.NormNum

/-
source/Geometry.cc: reading a binary STL file, the extents of the mesh, and the assignment of
the initial material state (with source/MaterialProperty.templates.hh: set_initial_state).
-/

namespace Verif.Input

/-! ## Reading an STL file -/

/-- A point of the shape. -/
structure Pt where
  x : ℝ
  y : ℝ
  z : ℝ

/-- A triangle. -/
structure Tri where
  a : Pt
  b : Pt
  c : Pt

/-- The state of a `std::ifstream`: the bytes not yet read and whether an earlier read was
short (`failbit`, after which every read returns nothing). -/
structure Stream where
  rest : List UInt8
  good : Bool

/-- `file.read(buffer, n)`: the bytes obtained (`gcount` of them) and the new state. -/
def Stream.read (s : Stream) (n : ℕ) : List UInt8 × Stream :=
  if s.good then (s.rest.take n, ⟨s.rest.drop n, decide (n ≤ s.rest.length)⟩)
  else ([], s)

/-- The value of four bytes as a little-endian `unsigned int` (`memcpy`). -/
def le32 : List UInt8 → ℕ
  | [a, b, c, d] => a.toNat + 256 * b.toNat + 65536 * c.toNat + 16777216 * d.toNat
  | _ => 0

/-- `read_point` (source/Geometry.cc:33-46); `flt` is the value of four bytes as a `float`. -/
def readPoint (flt : List UInt8 → ℝ) (sc : ℝ) (f : List UInt8) : Pt :=
  ⟨flt (f.take 4) * sc, flt ((f.drop 4).take 4) * sc, flt ((f.drop 8).take 4) * sc⟩

/-- The loop over the triangles (source/Geometry.cc:379-398). -/
def readTriangles (flt : List UInt8 → ℝ) (sc : ℝ) : ℕ → Stream → Option (List Tri)
  | 0, _ => some []
  | n + 1, s =>
    let r := s.read 50
    if r.1.length = 50 then
      (readTriangles flt sc n r.2).map
        (⟨readPoint flt sc (r.1.drop 12), readPoint flt sc (r.1.drop 24),
          readPoint flt sc (r.1.drop 36)⟩ :: ·)
    else none

/-- `Geometry::read_stl` (source/Geometry.cc:355-400) on the content of the file.  `n_tri` is
not initialised: `junk` is what its four bytes contain before the read, and a short read
replaces only the first bytes. -/
def readStl (flt : List UInt8 → ℝ) (sc : ℝ) (junk file : List UInt8) : Option (List Tri) :=
  let s0 : Stream := ⟨file, true⟩
  let s1 := (s0.read 80).2
  let r := s1.read 4
  let n := le32 ((r.1 ++ junk.drop r.1.length).take 4)
  readTriangles flt sc n r.2

/-! ### Specification -/

/-- The four bytes at an offset of a file. -/
def bytesAt (file : List UInt8) (off : ℕ) : List UInt8 := (file.drop off).take 4

/-- The triangle `t` is the one stored in facet number `i`: after the normal of 12 bytes come
the three vertices, each with three coordinates of four bytes, scaled. -/
def StoredAt (flt : List UInt8 → ℝ) (sc : ℝ) (file : List UInt8) (i : ℕ) (t : Tri) : Prop :=
  let o := 84 + 50 * i + 12
  t.a = ⟨flt (bytesAt file o) * sc, flt (bytesAt file (o + 4)) * sc, flt (bytesAt file (o + 8)) * sc⟩
  ∧ t.b = ⟨flt (bytesAt file (o + 12)) * sc, flt (bytesAt file (o + 16)) * sc,
      flt (bytesAt file (o + 20)) * sc⟩
  ∧ t.c = ⟨flt (bytesAt file (o + 24)) * sc, flt (bytesAt file (o + 28)) * sc,
      flt (bytesAt file (o + 32)) * sc⟩

theorem take_drop_take {l : List UInt8} {m a k : ℕ} (h : a + k ≤ m) :
    ((l.take m).drop a).take k = (l.drop a).take k := by
  rw [List.drop_take, List.take_take]
  congr 1
  omega

theorem readTriangles_none (flt : List UInt8 → ℝ) (sc : ℝ) (n : ℕ) (s : Stream)
    (hs : s.good = true) (h : s.rest.length < 50 * n) : readTriangles flt sc n s = none := by
  induction n generalizing s with
  | zero => omega
  | succ n ih =>
    simp only [readTriangles, Stream.read, hs, if_true, List.length_take]
    split
    · rename_i h50
      have : 50 ≤ s.rest.length := by omega
      have hn := ih ⟨s.rest.drop 50, decide (50 ≤ s.rest.length)⟩ (by simpa using this)
        (by simp; omega)
      rw [hn]
      rfl
    · rfl

theorem readTriangles_some (flt : List UInt8 → ℝ) (sc : ℝ) (n : ℕ) (s : Stream)
    (hs : s.good = true) (h : 50 * n ≤ s.rest.length) :
    ∃ ts, readTriangles flt sc n s = some ts ∧ ts.length = n
      ∧ ∀ (i : ℕ) (t : Tri), ts[i]? = some t →
        t.a = readPoint flt sc (((s.rest.drop (50 * i)).take 50).drop 12)
        ∧ t.b = readPoint flt sc (((s.rest.drop (50 * i)).take 50).drop 24)
        ∧ t.c = readPoint flt sc (((s.rest.drop (50 * i)).take 50).drop 36) := by
  induction n generalizing s with
  | zero => exact ⟨[], rfl, rfl, by simp⟩
  | succ n ih =>
    have h50 : 50 ≤ s.rest.length := by omega
    obtain ⟨ts, hts, hlen, hspec⟩ := ih ⟨s.rest.drop 50, decide (50 ≤ s.rest.length)⟩
      (by simpa using h50) (by simp; omega)
    have hl : (s.rest.take 50).length = 50 := by simp [h50]
    refine ⟨⟨readPoint flt sc ((s.rest.take 50).drop 12), readPoint flt sc ((s.rest.take 50).drop 24),
      readPoint flt sc ((s.rest.take 50).drop 36)⟩ :: ts, ?_, by simp [hlen], ?_⟩
    · simp only [readTriangles, Stream.read, hs, if_true, hl, hts, Option.map_some]
    · intro i t hi
      cases i with
      | zero =>
        simp only [List.getElem?_cons_zero, Option.some.injEq] at hi
        subst hi
        simp
      | succ i =>
        simp only [List.getElem?_cons_succ] at hi
        have := hspec i t hi
        simp only [List.drop_drop] at this
        have e : 50 + 50 * i = 50 * (i + 1) := by omega
        rw [e] at this
        exact this

theorem readPoint_stored (flt : List UInt8 → ℝ) (sc : ℝ) (file : List UInt8) (b a : ℕ)
    (h : a + 12 ≤ 50) :
    readPoint flt sc (((file.drop b).take 50).drop a)
      = ⟨flt (bytesAt file (b + a)) * sc, flt (bytesAt file (b + a + 4)) * sc,
          flt (bytesAt file (b + a + 8)) * sc⟩ := by
  unfold readPoint bytesAt
  rw [take_drop_take (by omega), List.drop_drop, List.drop_drop, List.drop_drop]
  rw [take_drop_take (by omega), take_drop_take (by omega)]
  rw [List.drop_drop, List.drop_drop]
  simp only [Nat.add_assoc]

/-- The count of a file that is long enough does not depend on uninitialised memory. -/
theorem readStl_long (flt : List UInt8 → ℝ) (sc : ℝ) (junk file : List UInt8)
    (h : 84 ≤ file.length) :
    readStl flt sc junk file
      = readTriangles flt sc (le32 (bytesAt file 80)) ⟨file.drop 84, true⟩ := by
  unfold readStl
  have h80 : 80 ≤ file.length := by omega
  have h4 : 4 ≤ file.length - 80 := by omega
  have hl : ((file.drop 80).take 4).length = 4 := by simp [h4]
  have h80' : decide (80 ≤ file.length) = true := decide_eq_true h80
  have h4' : decide (4 ≤ (file.drop 80).length) = true := decide_eq_true (by simp; omega)
  simp only [Stream.read, if_true, h80', h4', hl, List.drop_drop]
  have ht : ((file.drop 80).take 4 ++ junk.drop 4).take 4 = (file.drop 80).take 4 := by
    rw [List.take_append_of_le_length (by omega), List.take_take]
    simp
  rw [ht]
  rfl

theorem le32_eq (l : List UInt8) (h : l.length = 4) : le32 l = Nat.ofDigits 256 (l.map UInt8.toNat) := by
  match l, h with
  | [a, b, c, d], _ =>
    simp only [le32, List.map_cons, List.map_nil, Nat.ofDigits_cons, Nat.ofDigits_nil]
    omega

/-- The number of facets announced by a file: bytes 80 to 83 in little-endian order. -/
def announced (file : List UInt8) : ℕ := Nat.ofDigits 256 ((bytesAt file 80).map UInt8.toNat)

/-- **C63 (partial).** For every file of at least 84 bytes (header and count), every content
and every scaling: if the file holds the announced number of facets, exactly that many
triangles are returned, the i-th one with the scaled vertices stored in the i-th facet;
otherwise the function throws.  The result does not depend on uninitialised memory.  (For
shorter files see `C63_short_file_refuted`.) -/
theorem C63_stl_partial (flt : List UInt8 → ℝ) (sc : ℝ) (junk file : List UInt8)
    (h : 84 ≤ file.length) :
    (84 + 50 * announced file ≤ file.length →
      ∃ ts : List Tri, readStl flt sc junk file = some ts
        ∧ ts.length = announced file
        ∧ ∀ (i : ℕ) (t : Tri), ts[i]? = some t → StoredAt flt sc file i t)
    ∧ (file.length < 84 + 50 * announced file → readStl flt sc junk file = none) := by
  have hle : announced file = le32 (bytesAt file 80) := (le32_eq _ (by simp [bytesAt]; omega)).symm
  rw [hle]
  rw [readStl_long flt sc junk file h]
  constructor
  · intro hlen
    obtain ⟨ts, hts, hl, hspec⟩ := readTriangles_some flt sc (le32 (bytesAt file 80))
      ⟨file.drop 84, true⟩ rfl (by simp; omega)
    refine ⟨ts, hts, hl, fun i t hi => ?_⟩
    obtain ⟨ha, hb, hc⟩ := hspec i t hi
    simp only [List.drop_drop] at ha hb hc
    rw [readPoint_stored _ _ _ _ _ (by omega)] at ha hb hc
    exact ⟨ha, hb, hc⟩
  · intro hlen
    exact readTriangles_none _ _ _ _ rfl (by simp; omega)

/-- **C63 (never past the end).** Every successful read returns triangles whose facets lie
inside the file. -/
theorem C63_inside (flt : List UInt8 → ℝ) (sc : ℝ) (junk file : List UInt8) (ts : List Tri)
    (h : readStl flt sc junk file = some ts) (hne : ts ≠ []) :
    84 + 50 * ts.length ≤ file.length := by
  by_cases hl : 84 ≤ file.length
  · have := C63_stl_partial flt sc junk file hl
    by_cases hc : 84 + 50 * announced file ≤ file.length
    · obtain ⟨ts', h', hlen, -⟩ := this.1 hc
      rw [h] at h'
      simp at h'
      subst h'
      omega
    · rw [this.2 (by omega)] at h
      cases h
  · exfalso
    -- after a short read nothing is read any more
    have hbad : ∀ (n : ℕ) (s : Stream), s.good = false → readTriangles flt sc n s = some ts → ts = [] := by
      intro n s hs hr
      cases n with
      | zero => simpa [readTriangles] using hr.symm
      | succ n => simp [readTriangles, Stream.read, hs] at hr
    unfold readStl at h
    by_cases h80 : 80 ≤ file.length
    · have h4 : decide (4 ≤ (file.drop 80).length) = false := decide_eq_false (by simp; omega)
      simp only [Stream.read, if_true, decide_eq_true h80, h4] at h
      exact hne (hbad _ _ rfl h)
    · have h8 : decide (80 ≤ file.length) = false := decide_eq_false h80
      simp only [Stream.read, if_true, h8, Bool.false_eq_true, if_false] at h
      exact hne (hbad _ _ rfl h)

/-- **C63 refuted for short files.** A file without a complete count is not always rejected:
the count is then taken from uninitialised memory, and if that memory is zero an empty shape
is returned; with other memory contents the same file is rejected. -/
theorem C63_short_file_refuted (flt : List UInt8 → ℝ) (sc : ℝ) :
    readStl flt sc [0, 0, 0, 0] [] = some [] ∧ readStl flt sc [1, 0, 0, 0] [] = none := by
  constructor <;> simp [readStl, Stream.read, le32, readTriangles]

/-- Non-vacuity of C63: a file of 134 bytes announcing one triangle. -/
example : announced (List.replicate 80 0 ++ [1, 0, 0, 0] ++ List.replicate 50 7) = 1
    ∧ 84 + 50 * 1 ≤ (List.replicate 80 (0 : UInt8) ++ [1, 0, 0, 0] ++ List.replicate 50 7).length := by
  decide +kernel

/-! ## The extents of the mesh (C86) -/

/-- The running minima and maxima of source/Geometry.cc:203-219 for one coordinate. -/
def extents (coord : Pt → ℝ) (lo hi : ℝ) : List Tri → ℝ × ℝ
  | [] => (lo, hi)
  | t :: ts =>
    extents coord (min (min (min lo (coord t.a)) (coord t.b)) (coord t.c))
      (max (max (max hi (coord t.a)) (coord t.b)) (coord t.c)) ts

/-- The vertices of a list of triangles. -/
def vertices (ts : List Tri) : List Pt := ts.flatMap (fun t => [t.a, t.b, t.c])

theorem extents_spec (coord : Pt → ℝ) (lo hi : ℝ) (ts : List Tri) :
    (extents coord lo hi ts).1 ≤ lo ∧ hi ≤ (extents coord lo hi ts).2
    ∧ (∀ v ∈ vertices ts, (extents coord lo hi ts).1 ≤ coord v ∧ coord v ≤ (extents coord lo hi ts).2)
    ∧ ((extents coord lo hi ts).1 = lo ∨ ∃ v ∈ vertices ts, coord v = (extents coord lo hi ts).1)
    ∧ ((extents coord lo hi ts).2 = hi ∨ ∃ v ∈ vertices ts, coord v = (extents coord lo hi ts).2) := by
  induction ts generalizing lo hi with
  | nil => simp [extents, vertices]
  | cons t ts ih =>
    obtain ⟨h1, h2, h3, h4, h5⟩ := ih (min (min (min lo (coord t.a)) (coord t.b)) (coord t.c))
      (max (max (max hi (coord t.a)) (coord t.b)) (coord t.c))
    have hv : ∀ v, v ∈ vertices (t :: ts) ↔ v = t.a ∨ v = t.b ∨ v = t.c ∨ v ∈ vertices ts := by
      intro v; simp [vertices, or_assoc]
    simp only [extents]
    set E := extents coord (min (min (min lo (coord t.a)) (coord t.b)) (coord t.c))
      (max (max (max hi (coord t.a)) (coord t.b)) (coord t.c)) ts
    have hmin := le_min_iff.1 h1
    have hmin2 := le_min_iff.1 hmin.1
    have hmin3 := le_min_iff.1 hmin2.1
    have hmax := max_le_iff.1 h2
    have hmax2 := max_le_iff.1 hmax.1
    have hmax3 := max_le_iff.1 hmax2.1
    refine ⟨hmin3.1, hmax3.1, ?_, ?_, ?_⟩
    · intro v hvm
      rcases (hv v).1 hvm with rfl | rfl | rfl | hvm
      · exact ⟨hmin3.2, hmax3.2⟩
      · exact ⟨hmin2.2, hmax2.2⟩
      · exact ⟨hmin.2, hmax.2⟩
      · exact h3 v hvm
    · rcases h4 with h4 | ⟨v, hvm, hve⟩
      · rw [h4]
        rcases min_choice (min (min lo (coord t.a)) (coord t.b)) (coord t.c) with e | e <;> rw [e]
        · rcases min_choice (min lo (coord t.a)) (coord t.b) with e | e <;> rw [e]
          · rcases min_choice lo (coord t.a) with e | e <;> rw [e]
            · exact Or.inl rfl
            · exact Or.inr ⟨t.a, (hv _).2 (Or.inl rfl), rfl⟩
          · exact Or.inr ⟨t.b, (hv _).2 (Or.inr (Or.inl rfl)), rfl⟩
        · exact Or.inr ⟨t.c, (hv _).2 (Or.inr (Or.inr (Or.inl rfl))), rfl⟩
      · exact Or.inr ⟨v, (hv _).2 (Or.inr (Or.inr (Or.inr hvm))), hve⟩
    · rcases h5 with h5 | ⟨v, hvm, hve⟩
      · rw [h5]
        rcases max_choice (max (max hi (coord t.a)) (coord t.b)) (coord t.c) with e | e <;> rw [e]
        · rcases max_choice (max hi (coord t.a)) (coord t.b) with e | e <;> rw [e]
          · rcases max_choice hi (coord t.a) with e | e <;> rw [e]
            · exact Or.inl rfl
            · exact Or.inr ⟨t.a, (hv _).2 (Or.inl rfl), rfl⟩
          · exact Or.inr ⟨t.b, (hv _).2 (Or.inr (Or.inl rfl)), rfl⟩
        · exact Or.inr ⟨t.c, (hv _).2 (Or.inr (Or.inr (Or.inl rfl))), rfl⟩
      · exact Or.inr ⟨v, (hv _).2 (Or.inr (Or.inr (Or.inr hvm))), hve⟩

/-- The lower and upper corner of the generated mesh (source/Geometry.cc:199-249): with an STL
file the extents of the shape, otherwise origin and origin plus size.  `big` is
`numeric_limits<double>::max()`.  The y axis only exists in three dimensions; here all three
coordinates are kept. -/
def meshCorners (stl : Option (List Tri)) (origin size : Pt) (big : ℝ) : Pt × Pt :=
  match stl with
  | some ts =>
    let ex := extents Pt.x big (-big) ts
    let ey := extents Pt.y big (-big) ts
    let ez := extents Pt.z big (-big) ts
    (⟨ex.1, ey.1, ez.1⟩, ⟨ex.2, ey.2, ez.2⟩)
  | none => (origin, ⟨size.x + origin.x, size.y + origin.y, size.z + origin.z⟩)

/-- **C86 (shape from a file).** For every non-empty list of triangles whose coordinates are
in the range of the numbers, the mesh box contains all vertices, and each of its faces
touches a vertex: it is the smallest such box. -/
theorem C86_stl_extents (ts : List Tri) (origin size : Pt) (big : ℝ) (hne : ts ≠ [])
    (hb : ∀ v ∈ vertices ts, |v.x| ≤ big ∧ |v.y| ≤ big ∧ |v.z| ≤ big) :
    let c := meshCorners (some ts) origin size big
    (∀ v ∈ vertices ts, c.1.x ≤ v.x ∧ v.x ≤ c.2.x ∧ c.1.y ≤ v.y ∧ v.y ≤ c.2.y
      ∧ c.1.z ≤ v.z ∧ v.z ≤ c.2.z)
    ∧ (∃ v ∈ vertices ts, v.x = c.1.x) ∧ (∃ v ∈ vertices ts, v.x = c.2.x)
    ∧ (∃ v ∈ vertices ts, v.y = c.1.y) ∧ (∃ v ∈ vertices ts, v.y = c.2.y)
    ∧ (∃ v ∈ vertices ts, v.z = c.1.z) ∧ (∃ v ∈ vertices ts, v.z = c.2.z) := by
  have key : ∀ coord : Pt → ℝ, (∀ v ∈ vertices ts, |coord v| ≤ big) →
      (∀ v ∈ vertices ts, (extents coord big (-big) ts).1 ≤ coord v
        ∧ coord v ≤ (extents coord big (-big) ts).2)
      ∧ (∃ v ∈ vertices ts, coord v = (extents coord big (-big) ts).1)
      ∧ (∃ v ∈ vertices ts, coord v = (extents coord big (-big) ts).2) := by
    intro coord hc
    obtain ⟨h1, h2, h3, h4, h5⟩ := extents_spec coord big (-big) ts
    obtain ⟨v0, hv0⟩ : ∃ v, v ∈ vertices ts := by
      cases ts with
      | nil => exact absurd rfl hne
      | cons t ts => exact ⟨t.a, by simp [vertices]⟩
    have hv0' := abs_le.1 (hc v0 hv0)
    refine ⟨h3, ?_, ?_⟩
    · rcases h4 with h4 | h4
      · exact ⟨v0, hv0, le_antisymm (by rw [h4]; exact hv0'.2) (h3 v0 hv0).1⟩
      · exact h4
    · rcases h5 with h5 | h5
      · exact ⟨v0, hv0, le_antisymm (h3 v0 hv0).2 (by rw [h5]; exact hv0'.1)⟩
      · exact h5
  intro c
  obtain ⟨x1, x2, x3⟩ := key Pt.x (fun v hv => (hb v hv).1)
  obtain ⟨y1, y2, y3⟩ := key Pt.y (fun v hv => (hb v hv).2.1)
  obtain ⟨z1, z2, z3⟩ := key Pt.z (fun v hv => (hb v hv).2.2)
  exact ⟨fun v hv => ⟨(x1 v hv).1, (x1 v hv).2, (y1 v hv).1, (y1 v hv).2, (z1 v hv).1, (z1 v hv).2⟩,
    x2, x3, y2, y3, z2, z3⟩

/-- **C86 (box).** Without a shape the mesh box starts at the given origin and has exactly the
given length, width and height. -/
theorem C86_box_extents (origin size : Pt) (big : ℝ) :
    let c := meshCorners none origin size big
    c.1 = origin ∧ c.2.x - c.1.x = size.x ∧ c.2.y - c.1.y = size.y ∧ c.2.z - c.1.z = size.z := by
  simp [meshCorners]

/-- **C86 refuted for an empty shape.** An STL file with no triangle (which is read without an
error) gives a box whose upper corner is below its lower corner. -/
theorem C86_empty_shape_refuted (origin size : Pt) (big : ℝ) (h : 0 < big) :
    (meshCorners (some []) origin size big).2.x < (meshCorners (some []) origin size big).1.x := by
  simp [meshCorners, extents]
  linarith

/-- Non-vacuity of C86_stl_extents. -/
example : ∃ (ts : List Tri) (big : ℝ), ts ≠ [] ∧
    ∀ v ∈ vertices ts, |v.x| ≤ big ∧ |v.y| ≤ big ∧ |v.z| ≤ big := by
  refine ⟨[⟨⟨0, 0, 0⟩, ⟨1, 0, 0⟩, ⟨0, 1, 2⟩⟩], 3, by simp, ?_⟩
  intro v hv
  simp [vertices] at hv
  rcases hv with rfl | rfl | rfl <;> norm_num

/-! ## The initial state of the material (C64) -/

/-- The states, with their numbers (source/MaterialStates.hh). -/
def solidIndex : ℕ := 0
def powderIndex : ℕ := 2

/-- `Geometry::assign_material_state` (source/Geometry.cc:317-353): the user index of the cell
whose centre has height `z`.  `height` is `material_height` (default 1e9). -/
noncomputable def userIndex (usePowder : Bool) (height layer z : ℝ) : ℕ :=
  if usePowder then (if z < height - layer then solidIndex else powderIndex) else solidIndex

/-- A cell of the mesh: the height of its centre and its entry in the state table. -/
structure MCell where
  z : ℝ
  dof : ℕ

/-- `MaterialProperty::set_initial_state` (source/MaterialProperty.templates.hh:755-794): all
entries are zero and then, for every cell, the entry (user index, dof) is set to one.  The
table has `nStates` rows; a user index outside the table is an access out of bounds, for which
the model returns `none`. -/
noncomputable def initialState (nStates : ℕ) (usePowder : Bool) (height layer : ℝ) :
    List MCell → Option (ℕ → ℕ → ℝ)
  | [] => some (fun _ _ => 0)
  | c :: cs =>
    let u := userIndex usePowder height layer c.z
    if u < nStates then
      (initialState nStates usePowder height layer cs).map
        (fun st s d => if s = u ∧ d = c.dof then 1 else st s d)
    else none

theorem initialState_spec {nStates : ℕ} {up : Bool} {height layer : ℝ} {cells : List MCell}
    {st : ℕ → ℕ → ℝ} (h : initialState nStates up height layer cells = some st) (s d : ℕ) :
    ((∃ c ∈ cells, c.dof = d ∧ userIndex up height layer c.z = s) → st s d = 1)
    ∧ ((¬ ∃ c ∈ cells, c.dof = d ∧ userIndex up height layer c.z = s) → st s d = 0) := by
  induction cells generalizing st with
  | nil => simp [initialState] at h; simp [← h]
  | cons c cs ih =>
    simp only [initialState] at h
    split at h
    · rw [Option.map_eq_some_iff] at h
      obtain ⟨st', h', rfl⟩ := h
      obtain ⟨i1, i2⟩ := ih h'
      constructor
      · rintro ⟨x, hx, hxd, hxs⟩
        simp only
        split
        · rfl
        · rename_i hn
          rcases List.mem_cons.1 hx with rfl | hx
          · exact absurd ⟨hxs.symm, hxd.symm⟩ hn
          · exact i1 ⟨x, hx, hxd, hxs⟩
      · intro hn
        have : ¬ (s = userIndex up height layer c.z ∧ d = c.dof) :=
          fun e => hn ⟨c, by simp, e.2.symm, e.1.symm⟩
        simp only [if_neg this]
        exact i2 (fun ⟨x, hx, h⟩ => hn ⟨x, by simp [hx], h⟩)
    · cases h

theorem initialState_isSome {nStates : ℕ} {up : Bool} {height layer : ℝ} {cells : List MCell}
    (h : ∀ c ∈ cells, userIndex up height layer c.z < nStates) :
    ∃ st, initialState nStates up height layer cells = some st := by
  induction cells with
  | nil => exact ⟨_, rfl⟩
  | cons c cs ih =>
    obtain ⟨st, hst⟩ := ih (fun x hx => h x (by simp [hx]))
    simp only [initialState, hst, if_pos (h c (by simp)), Option.map_some]
    exact ⟨_, rfl⟩

/-- **C64 (powder layer).** With a material that has the three states and a powder layer, for
every mesh (distinct entries for distinct cells): every cell whose centre is lower than the
top of the material minus the thickness of the layer is entirely solid and every other cell
is entirely powder. -/
theorem C64_powder (height layer : ℝ) (cells : List MCell) (hnd : (cells.map MCell.dof).Nodup) :
    ∃ st, initialState 3 true height layer cells = some st ∧ ∀ c ∈ cells,
      (c.z < height - layer → st 0 c.dof = 1 ∧ st 1 c.dof = 0 ∧ st 2 c.dof = 0)
      ∧ (height - layer ≤ c.z → st 0 c.dof = 0 ∧ st 1 c.dof = 0 ∧ st 2 c.dof = 1) := by
  obtain ⟨st, hst⟩ := initialState_isSome (nStates := 3) (up := true) (height := height)
    (layer := layer) (cells := cells) (by
      intro c _
      unfold userIndex solidIndex powderIndex
      split_ifs <;> omega)
  have huniq : ∀ c ∈ cells, ∀ c' ∈ cells, c'.dof = c.dof → c' = c :=
    fun c hc c' hc' h => List.inj_on_of_nodup_map hnd hc' hc h
  refine ⟨st, hst, fun c hc => ?_⟩
  have spec := fun s => initialState_spec hst s c.dof
  have hval : ∀ s, st s c.dof = if userIndex true height layer c.z = s then 1 else 0 := by
    intro s
    split
    · rename_i e; exact (spec s).1 ⟨c, hc, rfl, e⟩
    · rename_i e
      apply (spec s).2
      rintro ⟨c', hc', hd, hs⟩
      exact e (by rw [← hs, huniq c hc c' hc' hd])
  constructor
  · intro hz
    simp [hval, userIndex, hz, solidIndex]
  · intro hz
    simp [hval, userIndex, not_lt.2 hz, powderIndex]

/-- **C64 (no powder).** Without a powder layer every cell is entirely solid, whatever the
number of states. -/
theorem C64_no_powder (nStates : ℕ) (hn : 0 < nStates) (height layer : ℝ) (cells : List MCell) :
    ∃ st, initialState nStates false height layer cells = some st ∧ ∀ c ∈ cells, ∀ s : ℕ,
      st s c.dof = if s = 0 then 1 else 0 := by
  obtain ⟨st, hst⟩ := initialState_isSome (nStates := nStates) (up := false) (height := height)
    (layer := layer) (cells := cells) (by intro c _; simpa [userIndex, solidIndex] using hn)
  refine ⟨st, hst, fun c hc s => ?_⟩
  have spec := initialState_spec hst s c.dof
  split
  · rename_i e; exact spec.1 ⟨c, hc, rfl, by simp [userIndex, solidIndex, e]⟩
  · rename_i e
    apply spec.2
    rintro ⟨c', -, -, hs⟩
    simp [userIndex, solidIndex] at hs
    exact e hs.symm

/-- **C64 (exactly one state, partial).** Whenever the initial state can be set, every cell
has exactly one state.  (Missing: that it can be set, see `C64_two_states_refuted`.) -/
theorem C64_one_state_partial (nStates : ℕ) (up : Bool) (height layer : ℝ) (cells : List MCell)
    (hnd : (cells.map MCell.dof).Nodup) (st : ℕ → ℕ → ℝ)
    (h : initialState nStates up height layer cells = some st) (c : MCell) (hc : c ∈ cells) :
    ∃ s < nStates, st s c.dof = 1 ∧ ∀ s' : ℕ, s' ≠ s → st s' c.dof = 0 := by
  have hlt : ∀ x ∈ cells, userIndex up height layer x.z < nStates := by
    clear hnd hc
    induction cells generalizing st with
    | nil => simp
    | cons a as ih =>
      simp only [initialState] at h
      split at h
      · rename_i hu
        rw [Option.map_eq_some_iff] at h
        obtain ⟨st', h', -⟩ := h
        intro x hx
        rcases List.mem_cons.1 hx with rfl | hx
        · exact hu
        · exact ih st' h' x hx
      · cases h
  refine ⟨_, hlt c hc, (initialState_spec h _ c.dof).1 ⟨c, hc, rfl, rfl⟩, fun s' hs' => ?_⟩
  apply (initialState_spec h s' c.dof).2
  rintro ⟨c', hc', hd, hs⟩
  exact hs' (by rw [← hs, List.inj_on_of_nodup_map hnd hc' hc hd])

/-- **C64 refuted.** With a powder layer and a material without a powder state (one or two
states), a cell in the layer makes the state table be written out of bounds. -/
theorem C64_two_states_refuted (height layer z : ℝ) (hz : height - layer ≤ z) (dof : ℕ) :
    initialState 2 true height layer [⟨z, dof⟩] = none
      ∧ initialState 1 true height layer [⟨z, dof⟩] = none := by
  simp [initialState, userIndex, not_lt.2 hz, powderIndex]

/-- **C64 (default height).** Without `material_height` the top of the material is 1e9, so
that a powder layer has no effect on a mesh of ordinary size: all cells are solid. -/
theorem C64_default_height (layer z : ℝ) (hz : z < 1000000000 - layer) :
    userIndex true 1000000000 layer z = solidIndex := by
  simp [userIndex, hz]

/-- Non-vacuity of C64: one solid and one powder cell. -/
example : ([(⟨0.1, 0⟩ : MCell), ⟨0.9, 1⟩].map MCell.dof).Nodup
    ∧ (0.1 : ℝ) < 1 - 0.2 ∧ (1 : ℝ) - 0.2 ≤ 0.9 := by
  refine ⟨by decide, by norm_num, by norm_num⟩

end Verif.Input
