import Mathlib.Data.Real.Basic
import Mathlib.Data.List.Basic
import Mathlib.Data.List.TakeWhile
import Mathlib.Tactic.NormNum
import Mathlib.Tactic.Ring
import Mathlib.Tactic.Linarith

/-!
# C82: reading the frames of the cameras

`RayTracing::read_next_frame`, `source/RayTracing.cc:141-212`, and `PointCloud::read_next_frame`, `source/PointCloud.cc:31-92`.
A file is the list of its lines, a line a list of characters. `strtod` is a parameter: the number at the start of a text; the only fact used about it is that it does not read past
a comma (`StopsAtComma`). The substitution of `#camera` and `#frame` in the name and the wait for the file are not modelled: `file c` is the content for camera `c`.
-/

namespace Verif.ExpData

/-- State while reading one row: number of non-empty fields seen, point, direction, value. A `dealii::Point`/`Tensor` starts as zero (`RayTracing.cc:170-172`). -/
structure Row where
  i : ℕ
  point : ℕ → ℝ
  direction : ℕ → ℝ
  value : ℝ

/-- `unsigned int i = 0; Point point; Tensor direction; double value = 0.`, `RayTracing.cc:169-172`. -/
def Row.init : Row := ⟨0, fun _ => 0, fun _ => 0, 0⟩

/-- One non-empty field starting at `s`, `RayTracing.cc:183-203` (`rays = true`, there are two points per row) and `PointCloud.cc:66-79` (`rays = false`). -/
noncomputable def Row.put (strtod : List Char → ℝ) (rays : Bool) (dim : ℕ) (r : Row) (s : List Char) : Row :=
  if r.i < dim then { r with point := Function.update r.point r.i (strtod s), i := r.i + 1 }
  else if rays = true ∧ r.i < 2 * dim then
    { r with direction := Function.update r.direction (r.i - dim) (strtod s - r.point (r.i - dim)), i := r.i + 1 }
  else { r with value := strtod s, i := r.i + 1 }

/-- The loop over the fields, `RayTracing.cc:173-206`: `s` is the text from `last_pos` on; the loop ends after the field that no comma follows (`pos = line_length`, so
`last_pos` becomes `line_length + 1`). A field is skipped when it is empty (`pos == last_pos`). -/
noncomputable def readFields (strtod : List Char → ℝ) (rays : Bool) (dim : ℕ) (s : List Char) (r : Row) : Row :=
  let r' := if s.takeWhile (· ≠ ',') = [] then r else r.put strtod rays dim s
  match h : s.dropWhile (· ≠ ',') with
  | [] => r'
  | _ :: rest => readFields strtod rays dim rest r'
  termination_by s.length
  decreasing_by
    have := (List.dropWhile_sublist (p := fun x : Char => decide (x ≠ ',')) (l := s)).length_le
    rw [h] at this
    simp only [List.length_cons] at this
    omega

/-- The rows of one file, `RayTracing.cc:160-210`: the first line is the header. -/
noncomputable def readFile (strtod : List Char → ℝ) (rays : Bool) (dim : ℕ) (lines : List (List Char)) : List Row :=
  (lines.drop 1).map fun l => readFields strtod rays dim l Row.init

/-- `read_next_frame`: the rows of the cameras `first … last`, one after the other, and the frame number, which is then incremented (`:211`). -/
noncomputable def readNextFrame (strtod : List Char → ℝ) (rays : Bool) (dim first last next : ℕ) (file : ℕ → ℕ → List (List Char)) : List Row × ℕ × ℕ :=
  ((List.range' first (last + 1 - first)).flatMap fun c => readFile strtod rays dim (file next c), next, next + 1)

/-! ## specification -/

/-- `strtod` does not read past a comma. -/
def StopsAtComma (strtod : List Char → ℝ) : Prop := ∀ f rest : List Char, ',' ∉ f → strtod (f ++ ',' :: rest) = strtod f

/-- The text of a row with the given fields. -/
def rowText : List (List Char) → List Char
  | [] => []
  | [f] => f
  | f :: g :: fs => f ++ ',' :: rowText (g :: fs)

/-! ## proofs -/

theorem getD_ge (l : List ℝ) (k : ℕ) (h : l.length ≤ k) : l.getD k 0 = 0 := by simp [List.getD, List.getElem?_eq_none h]

theorem takeWhile_comma (f rest : List Char) (h : ',' ∉ f) : (f ++ ',' :: rest).takeWhile (· ≠ ',') = f ∧ (f ++ ',' :: rest).dropWhile (· ≠ ',') = ',' :: rest := by
  induction f with
  | nil => simp
  | cons a as ih =>
    have ha : a ≠ ',' := fun e => h (by simp [e])
    have := ih fun e => h (List.mem_cons_of_mem _ e)
    have hd : decide (a ≠ ',') = true := by simpa using ha
    simp only [List.cons_append, List.takeWhile_cons, List.dropWhile_cons, hd, if_true, this.1, this.2, and_self]

theorem takeWhile_nocomma (f : List Char) (h : ',' ∉ f) : f.takeWhile (· ≠ ',') = f ∧ f.dropWhile (· ≠ ',') = [] := by
  induction f with
  | nil => simp
  | cons a as ih =>
    have ha : a ≠ ',' := fun e => h (by simp [e])
    have := ih fun e => h (List.mem_cons_of_mem _ e)
    have hd : decide (a ≠ ',') = true := by simpa using ha
    simp only [List.cons_append, List.takeWhile_cons, List.dropWhile_cons, hd, if_true, this.1, this.2, and_self]

/-- `put` with the number already read. -/
noncomputable def Row.putNum (rays : Bool) (dim : ℕ) (r : Row) (x : ℝ) : Row := r.put (fun _ => x) rays dim []

theorem put_eq (strtod : List Char → ℝ) (rays : Bool) (dim : ℕ) (r : Row) (s : List Char) : r.put strtod rays dim s = r.putNum rays dim (strtod s) := by
  simp [Row.put, Row.putNum]

theorem readFields_last (strtod : List Char → ℝ) (rays : Bool) (dim : ℕ) (s : List Char) (r : Row) (h : s.dropWhile (· ≠ ',') = []) :
    readFields strtod rays dim s r = if s.takeWhile (· ≠ ',') = [] then r else r.put strtod rays dim s := by
  rw [readFields]
  split
  · rfl
  · rename_i heq; rw [h] at heq; cases heq

theorem readFields_more (strtod : List Char → ℝ) (rays : Bool) (dim : ℕ) (s : List Char) (r : Row) (c : Char) (rest : List Char) (h : s.dropWhile (· ≠ ',') = c :: rest) :
    readFields strtod rays dim s r = readFields strtod rays dim rest (if s.takeWhile (· ≠ ',') = [] then r else r.put strtod rays dim s) := by
  rw [readFields]
  split
  · rename_i heq; rw [h] at heq; cases heq
  · rename_i heq; rw [h] at heq; obtain ⟨rfl, rfl⟩ := List.cons.inj heq; rfl

theorem readFields_eq (strtod : List Char → ℝ) (hs : StopsAtComma strtod) (rays : Bool) (dim : ℕ) (fs : List (List Char)) (hf : ∀ f ∈ fs, ',' ∉ f) (r : Row) :
    readFields strtod rays dim (rowText fs) r = ((fs.filter (· ≠ [])).map strtod).foldl (Row.putNum rays dim) r := by
  induction fs generalizing r with
  | nil => rw [readFields_last _ _ _ _ _ (by simp [rowText])]; simp [rowText]
  | cons f fs ih =>
    cases fs with
    | nil =>
      have h := takeWhile_nocomma f (hf f List.mem_cons_self)
      simp only [rowText]
      rw [readFields_last _ _ _ _ _ h.2, h.1]
      by_cases hfe : f = []
      · simp [hfe]
      · rw [if_neg hfe, put_eq]
        rw [List.filter_cons, if_pos (by simpa using hfe)]; simp
    | cons g gs =>
      have h := takeWhile_comma f (rowText (g :: gs)) (hf f List.mem_cons_self)
      simp only [rowText]
      rw [readFields_more _ _ _ _ _ _ _ h.2, h.1, ih (fun x hx => hf x (List.mem_cons_of_mem _ hx))]
      by_cases hfe : f = []
      · rw [if_pos hfe, List.filter_cons (x := f), if_neg (by simp [hfe])]
      · rw [if_neg hfe, put_eq, hs _ _ (hf f List.mem_cons_self), List.filter_cons (x := f), if_pos (by simpa using hfe)]
        rfl

/-- What reading the numbers `xs` of a row gives. -/
theorem foldl_putNum_rays (dim : ℕ) (xs : List ℝ) (ys : List ℝ) (r : Row) (hi : r.i = ys.length)
    (hp : ∀ k < dim, r.point k = ys.getD k 0) (hd : ∀ k < dim, r.direction k = if dim + k < ys.length then ys.getD (dim + k) 0 - ys.getD k 0 else 0)
    (hv : r.value = if 2 * dim < ys.length then (ys.getLast?).getD 0 else 0) :
    let r' := xs.foldl (Row.putNum true dim) r
    (∀ k < dim, r'.point k = (ys ++ xs).getD k 0) ∧
    (∀ k < dim, r'.direction k = if dim + k < (ys ++ xs).length then (ys ++ xs).getD (dim + k) 0 - (ys ++ xs).getD k 0 else 0) ∧
    r'.value = if 2 * dim < (ys ++ xs).length then ((ys ++ xs).getLast?).getD 0 else 0 := by
  induction xs generalizing ys r with
  | nil => simpa using ⟨hp, hd, hv⟩
  | cons x xs ih =>
    simp only [List.foldl_cons]
    have happ : ys ++ x :: xs = (ys ++ [x]) ++ xs := by simp
    rw [happ]
    have hlt : ∀ k, k < ys.length → (ys ++ [x]).getD k 0 = ys.getD k 0 := by
      intro k hk; simp [List.getD, List.getElem?_append_left hk]
    have heq : (ys ++ [x]).getD ys.length 0 = x := by simp [List.getD]
    have hgt : ∀ k, ys.length < k → (ys ++ [x]).getD k 0 = 0 ∧ ys.getD k 0 = 0 := by
      intro k hk
      constructor
      · apply getD_ge; simp; omega
      · apply getD_ge; omega
    have hself : ys.getD ys.length 0 = 0 := by exact getD_ge _ _ (le_refl _)
    apply ih (ys ++ [x]) (r.putNum true dim x)
    · unfold Row.putNum Row.put; split_ifs <;> simp [hi]
    · intro k hk
      unfold Row.putNum Row.put
      split_ifs with h1 h2
      · simp only [Function.update_apply, hi]
        rcases lt_trichotomy k ys.length with h | h | h
        · rw [if_neg (by omega), hlt k h]; exact hp k hk
        · rw [if_pos h, h, heq]
        · rw [if_neg (by omega), hp k hk, (hgt k h).1, (hgt k h).2]
      · show r.point k = _
        rw [hp k hk, hlt k (by omega)]
      · show r.point k = _
        rw [hp k hk, hlt k (by omega)]
    · intro k hk
      unfold Row.putNum Row.put
      simp only [List.length_append, List.length_cons, List.length_nil]
      by_cases h1 : r.i < dim
      · rw [if_pos h1, if_neg (show ¬ dim + k < ys.length + (0 + 1) by omega)]
        show r.direction k = _
        rw [hd k hk, if_neg (by omega)]
      rw [if_neg h1]
      by_cases h2 : r.i < 2 * dim
      · rw [if_pos (show True ∧ r.i < 2 * dim from ⟨trivial, h2⟩)]
        simp only [Function.update_apply, hi]
        have hp' : r.point (ys.length - dim) = ys.getD (ys.length - dim) 0 := hp _ (by omega)
        rcases lt_trichotomy k (ys.length - dim) with h | h | h
        · rw [if_neg (by omega), hd k hk, if_pos (by omega), if_pos (by omega), hlt _ (by omega), hlt _ (by omega)]
        · rw [if_pos h, hp', if_pos (by omega), h, show dim + (ys.length - dim) = ys.length by omega, heq, hlt _ (by omega)]
        · rw [if_neg (by omega), hd k hk, if_neg (by omega), if_neg (by omega)]
      · rw [if_neg (show ¬ (True ∧ r.i < 2 * dim) from fun h => h2 h.2)]
        show r.direction k = _
        rw [hd k hk, if_pos (by omega), if_pos (by omega), hlt _ (by omega), hlt _ (by omega)]
    · unfold Row.putNum Row.put
      simp only [List.length_append, List.length_cons, List.length_nil]
      by_cases h1 : r.i < dim
      · rw [if_pos h1, if_neg (show ¬ 2 * dim < ys.length + (0 + 1) by omega)]
        show r.value = _; rw [hv, if_neg (by omega)]
      rw [if_neg h1]
      by_cases h2 : r.i < 2 * dim
      · rw [if_pos (show True ∧ r.i < 2 * dim from ⟨trivial, h2⟩), if_neg (show ¬ 2 * dim < ys.length + (0 + 1) by omega)]
        show r.value = _; rw [hv, if_neg (by omega)]
      · rw [if_neg (show ¬ (True ∧ r.i < 2 * dim) from fun h => h2 h.2), if_pos (show 2 * dim < ys.length + (0 + 1) by omega)]
        simp

/-- Same for the point cloud. -/
theorem foldl_putNum_cloud (dim : ℕ) (xs : List ℝ) (ys : List ℝ) (r : Row) (hi : r.i = ys.length)
    (hp : ∀ k < dim, r.point k = ys.getD k 0) (hv : r.value = if dim < ys.length then (ys.getLast?).getD 0 else 0) :
    let r' := xs.foldl (Row.putNum false dim) r
    (∀ k < dim, r'.point k = (ys ++ xs).getD k 0) ∧
    r'.value = if dim < (ys ++ xs).length then ((ys ++ xs).getLast?).getD 0 else 0 := by
  induction xs generalizing ys r with
  | nil => simpa using ⟨hp, hv⟩
  | cons x xs ih =>
    simp only [List.foldl_cons]
    have happ : ys ++ x :: xs = (ys ++ [x]) ++ xs := by simp
    rw [happ]
    have hlt : ∀ k, k < ys.length → (ys ++ [x]).getD k 0 = ys.getD k 0 := by
      intro k hk; simp [List.getD, List.getElem?_append_left hk]
    have heq : (ys ++ [x]).getD ys.length 0 = x := by simp [List.getD]
    have hgt : ∀ k, ys.length < k → (ys ++ [x]).getD k 0 = 0 ∧ ys.getD k 0 = 0 := by
      intro k hk
      constructor
      · apply getD_ge; simp; omega
      · apply getD_ge; omega
    apply ih (ys ++ [x]) (r.putNum false dim x)
    · unfold Row.putNum Row.put; split_ifs <;> simp [hi]
    · intro k hk
      unfold Row.putNum Row.put
      split_ifs with h1 h2
      · simp only [Function.update_apply, hi]
        rcases lt_trichotomy k ys.length with h | h | h
        · rw [if_neg (by omega), hlt k h]; exact hp k hk
        · rw [if_pos h, h, heq]
        · rw [if_neg (by omega), hp k hk, (hgt k h).1, (hgt k h).2]
      · exact absurd h2.1 (by simp)
      · show r.point k = _
        rw [hp k hk, hlt k (by omega)]
    · unfold Row.putNum Row.put
      simp only [List.length_append, List.length_cons, List.length_nil]
      split_ifs with h1 h2 h3 h4 h5
      · omega
      · show r.value = _; rw [hv, if_neg (by omega)]
      · exact absurd h3.1 (by simp)
      · exact absurd h3.1 (by simp)
      · simp
      · omega

/-- **C82**, rays: for every row of comma separated fields, let `xs` be the numbers in its non-empty fields. The ray starts at the first point `xs[0..dim)`, its direction is the second
point minus the first, and the value is the last number after them. For a row of `2 dim + 1` fields this is the ray through the two points of the row and its last column. -/
theorem C82_ray_row (strtod : List Char → ℝ) (hs : StopsAtComma strtod) (dim : ℕ) (fs : List (List Char)) (hf : ∀ f ∈ fs, ',' ∉ f ∧ f ≠ []) (hlen : fs.length = 2 * dim + 1) :
    let r := readFields strtod true dim (rowText fs) Row.init
    (∀ (k : ℕ) (f : List Char), k < dim → fs[k]? = some f → r.point k = strtod f) ∧
    (∀ (k : ℕ) (f : List Char), k < dim → fs[dim + k]? = some f → r.point k + r.direction k = strtod f) ∧
    (∀ f : List Char, fs[2 * dim]? = some f → r.value = strtod f) := by
  intro r
  have hfilter : fs.filter (· ≠ []) = fs := by rw [List.filter_eq_self]; intro f h; simpa using (hf f h).2
  have hr : r = (fs.map strtod).foldl (Row.putNum true dim) Row.init := by
    show readFields _ _ _ _ _ = _
    rw [readFields_eq strtod hs true dim fs (fun f h => (hf f h).1), hfilter]
  have h := foldl_putNum_rays dim (fs.map strtod) [] Row.init rfl (by intro k _; simp [Row.init]) (by intro k _; simp [Row.init]) (by simp [Row.init])
  simp only [← hr, List.nil_append] at h
  have hget : ∀ (k : ℕ) (f : List Char), fs[k]? = some f → (fs.map strtod).getD k 0 = strtod f := by
    intro k f hk; simp [List.getD, hk]
  refine ⟨fun k f hk hkf => by rw [h.1 k hk, hget k f hkf], ?_, ?_⟩
  · intro k f hk hkf
    rw [h.1 k hk, h.2.1 k hk, if_pos (by simp; omega), hget _ f hkf]; ring
  · intro f hf'
    rw [h.2.2, if_pos (by simp; omega)]
    have : (fs.map strtod).getLast? = some (strtod f) := by
      rw [List.getLast?_eq_getElem?, List.length_map, hlen, Nat.add_sub_cancel, List.getElem?_map, hf']; rfl
    simp [this]

/-- **C82**, point cloud: a row of `dim + 1` fields gives its point and its value. -/
theorem C82_point_row (strtod : List Char → ℝ) (hs : StopsAtComma strtod) (dim : ℕ) (fs : List (List Char)) (hf : ∀ f ∈ fs, ',' ∉ f ∧ f ≠ []) (hlen : fs.length = dim + 1) :
    let r := readFields strtod false dim (rowText fs) Row.init
    (∀ (k : ℕ) (f : List Char), k < dim → fs[k]? = some f → r.point k = strtod f) ∧
    (∀ f : List Char, fs[dim]? = some f → r.value = strtod f) := by
  intro r
  have hfilter : fs.filter (· ≠ []) = fs := by rw [List.filter_eq_self]; intro f h; simpa using (hf f h).2
  have hr : r = (fs.map strtod).foldl (Row.putNum false dim) Row.init := by
    show readFields _ _ _ _ _ = _
    rw [readFields_eq strtod hs false dim fs (fun f h => (hf f h).1), hfilter]
  have h := foldl_putNum_cloud dim (fs.map strtod) [] Row.init rfl (by intro k _; simp [Row.init]) (by simp [Row.init])
  simp only [← hr, List.nil_append] at h
  have hget : ∀ (k : ℕ) (f : List Char), fs[k]? = some f → (fs.map strtod).getD k 0 = strtod f := by
    intro k f hk; simp [List.getD, hk]
  refine ⟨fun k f hk hkf => by rw [h.1 k hk, hget k f hkf], ?_⟩
  · intro f hf'
    rw [h.2, if_pos (by simp; omega)]
    have : (fs.map strtod).getLast? = some (strtod f) := by
      rw [List.getLast?_eq_getElem?, List.length_map, hlen, Nat.add_sub_cancel, List.getElem?_map, hf']; rfl
    simp [this]

/-- **C82**, frames: the rows of a frame are the rows, without the header lines, of the files of the cameras `first … last` in that order, one entry per row; the call returns the number of the
frame it has read and the next call reads the next frame. -/
theorem C82_frame (strtod : List Char → ℝ) (rays : Bool) (dim first last next : ℕ) (file : ℕ → ℕ → List (List Char)) (hfl : first ≤ last) :
    let out := readNextFrame strtod rays dim first last next file
    out.1.length = ((List.range (last - first + 1)).map fun j => (file next (first + j)).length - 1).sum ∧
    (∀ (j i : ℕ) (line : List Char), j < last - first + 1 → (file next (first + j))[i + 1]? = some line →
      out.1[((List.range j).map fun j' => (file next (first + j')).length - 1).sum + i]? = some (readFields strtod rays dim line Row.init)) ∧
    out.2 = (next, next + 1) := by
  have hrange : (List.range' first (last + 1 - first)) = (List.range (last - first + 1)).map fun j => first + j := by
    rw [List.range_eq_range', List.map_add_range']; simp; omega
  have hlen : ∀ l : List ℕ, (l.flatMap fun c => readFile strtod rays dim (file next (first + c))).length = (l.map fun j => (file next (first + j)).length - 1).sum := by
    intro l; simp [List.length_flatMap, readFile]
  have hout : (readNextFrame strtod rays dim first last next file).1 = (List.range (last - first + 1)).flatMap fun c => readFile strtod rays dim (file next (first + c)) := by
    simp only [readNextFrame]; rw [hrange, List.flatMap_map]
  refine ⟨by rw [hout, hlen], ?_, rfl⟩
  intro j i line hj hline
  rw [hout]
  have hsplit : List.range (last - first + 1) = List.range j ++ (j :: (List.range' (j + 1) (last - first - j))) := by
    rw [List.range_eq_range', List.range_eq_range']
    have := List.range'_append_1 (s := 0) (m := j) (n := last - first + 1 - j)
    rw [show j + (last - first + 1 - j) = last - first + 1 by omega, Nat.zero_add, show last - first + 1 - j = (last - first - j) + 1 by omega, List.range'_succ] at this
    exact this.symm
  have hi : i + 1 < (file next (first + j)).length := (List.getElem?_eq_some_iff.1 hline).1
  rw [hsplit, List.flatMap_append, List.flatMap_cons, List.getElem?_append_right (by rw [hlen]; omega), hlen, Nat.add_sub_cancel_left,
    List.getElem?_append_left (by simp [readFile]; omega)]
  simp only [readFile, List.getElem?_map, List.getElem?_drop]
  rw [show 1 + i = i + 1 by omega, hline]; rfl

/-- A row of a ray file: from (1,2,3) to (1,2,0), 1500 K. -/
example : rowText [['1'], ['2'], ['3'], ['1'], ['2'], ['0'], ['1', '5', '0', '0']] = "1,2,3,1,2,0,1500".toList := by decide

/-- A `strtod` that reads digits up to the first other character stops at commas. -/
noncomputable def digitsVal (s : List Char) : ℝ := ((s.takeWhile Char.isDigit).length : ℝ)

example : StopsAtComma digitsVal := by
  intro f rest h
  unfold digitsVal
  congr 2
  induction f with
  | nil => simp [Char.isDigit]
  | cons a as ih =>
    have := ih fun e => h (List.mem_cons_of_mem _ e)
    simp only [List.cons_append, List.takeWhile_cons]
    split_ifs
    · rw [this]
    · rfl

/-- **C82**: an empty field is not counted, so the numbers after it move to the left: the row `1,,3,4,5,6,900` (no `y` for the first point) is read as the ray from (1,3,4) towards (5,6,900) with value 0. -/
theorem C82_empty_field_shifts (strtod : List Char → ℝ) (hs : StopsAtComma strtod) (a b c d e g : List Char)
    (h : ∀ f ∈ [a, b, c, d, e, g], ',' ∉ f ∧ f ≠ []) :
    let r := readFields strtod true 3 (rowText [a, [], b, c, d, e, g]) Row.init
    r.point 0 = strtod a ∧ r.point 1 = strtod b ∧ r.point 2 = strtod c ∧ r.value = 0 := by
  intro r
  have h' : ∀ f ∈ [a, [], b, c, d, e, g], ',' ∉ f := by
    intro f hf
    by_cases hfe : f = []
    · simp [hfe]
    · apply (h f _).1
      simp only [List.mem_cons, List.not_mem_nil, or_false] at hf ⊢
      tauto
  have hr : r = ([a, b, c, d, e, g].map strtod).foldl (Row.putNum true 3) Row.init := by
    show readFields _ _ _ _ _ = _
    rw [readFields_eq strtod hs true 3 _ h']
    have e1 : [a, [], b, c, d, e, g].filter (· ≠ []) = [a, b, c, d, e, g] := by
      have := fun f hf => (h f hf).2
      simp at this
      simp [List.filter_cons, this]
    rw [e1]
  have hh := foldl_putNum_rays 3 ([a, b, c, d, e, g].map strtod) [] Row.init rfl (by intro k _; simp [Row.init]) (by intro k _; simp [Row.init]) (by simp [Row.init])
  simp only [← hr, List.nil_append] at hh
  refine ⟨by rw [hh.1 0 (by norm_num)]; simp, by rw [hh.1 1 (by norm_num)]; simp, by rw [hh.1 2 (by norm_num)]; simp, by rw [hh.2.2]; simp⟩

end Verif.ExpData
