import Mathlib.Data.Real.Basic
import Mathlib.Data.List.Basic
import Mathlib.Tactic.NormNum
import Mathlib.Tactic.Ring
import Mathlib.Tactic.Linarith
import Mathlib.Tactic.FieldSimp
import Mathlib.Tactic.LinearCombination
import Mathlib.Tactic.Positivity

/-!
# C57: ray tracing

`RayTracing::get_points_values`, `source/RayTracing.cc:214-416`, and `point_in_triangle`, `:91-120`.
The bounding-volume search (`:220-264`) is a parameter: for each ray it gives the list of cells whose bounding boxes were found, with the rank that owns each cell.
-/

namespace Verif.ExpData.Ray

/-- `dealii::Point<3>`/`Tensor<1,3>`. -/
structure V3 where
  x : ℝ
  y : ℝ
  z : ℝ

namespace V3
def add (a b : V3) : V3 := ⟨a.x + b.x, a.y + b.y, a.z + b.z⟩
def sub (a b : V3) : V3 := ⟨a.x - b.x, a.y - b.y, a.z - b.z⟩
def smul (c : ℝ) (a : V3) : V3 := ⟨c * a.x, c * a.y, c * a.z⟩
def dot (a b : V3) : ℝ := a.x * b.x + a.y * b.y + a.z * b.z
def cross (a b : V3) : V3 := ⟨a.y * b.z - a.z * b.y, a.z * b.x - a.x * b.z, a.x * b.y - a.y * b.x⟩
end V3

open V3

/-- `point_in_triangle`, `RayTracing.cc:91-120`. In C++ a zero `denom` makes `v` and `w` NaN or infinite and the final test false; hence `denom ≠ 0` here. -/
def pointInTriangle (a b c p : V3) : Prop :=
  let ab := sub b a
  let ac := sub c a
  let ap := sub p a
  let abab := dot ab ab
  let abac := dot ab ac
  let acac := dot ac ac
  let apab := dot ap ab
  let apac := dot ap ac
  let denom := abab * acac - abac * abac
  let v := (acac * apab - abac * apac) / denom
  let w := (abab * apac - abac * apab) / denom
  let u := 1 - v - w
  denom ≠ 0 ∧ u ≥ 0 ∧ v ≥ 0 ∧ w ≥ 0

/-- A face by its four vertices, `cell->face(f)->vertex(0..3)`, `:319-322`; deal.II numbers them lexicographically. -/
structure Quad where
  p0 : V3
  p1 : V3
  p2 : V3
  p3 : V3

/-- `dealii::determinant` of the matrix with rows `-direction`, `edge_01`, `edge_02`, `:336-340` (expansion along the first row). -/
def det (dir e1 e2 : V3) : ℝ := dot ⟨-dir.x, -dir.y, -dir.z⟩ (cross e1 e2)

/-- `face_area`, `:341-344`: sum over all pairs of components. -/
noncomputable def faceArea (e1 e2 : V3) : ℝ := (|e1.x| + |e1.y| + |e1.z|) * (|e2.x| + |e2.y| + |e2.z|)

open Classical in
/-- One face, `:317-387`; the state is `(distance, intersection)`. -/
noncomputable def faceStep (tol : ℝ) (o dir : V3) (acc : ℝ × V3) (f : Quad) : ℝ × V3 :=
  let e1 := sub f.p1 f.p0
  let e2 := sub f.p2 f.p0
  let dt := det dir e1 e2
  if |dt| < tol * faceArea e1 e2 then acc
  else
    let d := dot (cross e1 e2) (sub o f.p0) / dt
    if d < 0 then acc
    else if d < acc.1 then
      let q := add o (smul d dir)
      if pointInTriangle f.p0 f.p1 f.p2 q then (d, q)
      else if pointInTriangle f.p1 f.p2 f.p3 q then (d, q)
      else acc
    else acc

/-- The loops over the cells found for a ray and their faces, `:293-389`, with the test of `:390`; `far` is `std::numeric_limits<double>::max()` and `faces` are the faces of the cells
that pass the test of `:304-305`. -/
noncomputable def traceFaces (tol far : ℝ) (o dir : V3) (faces : List Quad) : Option V3 :=
  let r := faces.foldl (faceStep tol o dir) (far, ⟨0, 0, 0⟩)
  if r.1 < far then some r.2 else none

/-- The faces examined on rank `my`, `:297-305`: `hits` is the search result (owner rank, faces of the cell) for this ray, nearest box first. -/
def examined (my : ℕ) (hits : List (ℕ × List Quad)) : List Quad :=
  match hits with
  | [] => []
  | h :: _ => (hits.filter fun c => c.1 = h.1 ∧ c.1 = my).flatMap (·.2)

/-- The points and values found on rank `my`, `:285-395`. -/
noncomputable def rankResult (tol far : ℝ) (my : ℕ) (rays : List (V3 × V3 × ℝ × List (ℕ × List Quad))) : List V3 × List ℝ :=
  let found := rays.filterMap fun r => (traceFaces tol far r.1 r.2.1 (examined my r.2.2.2)).map fun p => (p, r.2.2.1)
  (found.map (·.1), found.map (·.2))

/-- `get_points_values`, `:402-416`: the lists of all ranks, concatenated in rank order. -/
noncomputable def getPointsValues (tol far : ℝ) (nRanks : ℕ) (rays : List (V3 × V3 × ℝ × List (ℕ × List Quad))) : List V3 × List ℝ :=
  ((List.range nRanks).flatMap fun r => (rankResult tol far r rays).1, (List.range nRanks).flatMap fun r => (rankResult tol far r rays).2)

/-! ## specification -/

/-- The filled triangle. -/
def InTriangle (a b c p : V3) : Prop := ∃ u v w : ℝ, 0 ≤ u ∧ 0 ≤ v ∧ 0 ≤ w ∧ u + v + w = 1 ∧ p = add (add (smul u a) (smul v b)) (smul w c)

/-- The two triangles of a face. -/
def OnFace (f : Quad) (p : V3) : Prop := InTriangle f.p0 f.p1 f.p2 p ∨ InTriangle f.p1 f.p2 f.p3 p

/-- The ray from `o` in direction `dir` meets the face at parameter `t`. -/
def Hit (f : Quad) (o dir : V3) (t : ℝ) : Prop := 0 ≤ t ∧ OnFace f (add o (smul t dir))

/-- A flat face with two proper triangles. -/
def Flat (f : Quad) : Prop :=
  dot (cross (sub f.p1 f.p0) (sub f.p2 f.p0)) (sub f.p3 f.p0) = 0 ∧ cross (sub f.p1 f.p0) (sub f.p2 f.p0) ≠ ⟨0, 0, 0⟩ ∧
    cross (sub f.p2 f.p1) (sub f.p3 f.p1) ≠ ⟨0, 0, 0⟩

/-- The ray is not (nearly) parallel to the face. -/
def Transversal (tol : ℝ) (f : Quad) (dir : V3) : Prop := tol * faceArea (sub f.p1 f.p0) (sub f.p2 f.p0) ≤ |det dir (sub f.p1 f.p0) (sub f.p2 f.p0)|

/-! ## geometry -/

theorem V3.ext' {a b : V3} (hx : a.x = b.x) (hy : a.y = b.y) (hz : a.z = b.z) : a = b := by
  cases a; cases b; simp_all

theorem normSq_pos {n : V3} (h : n ≠ ⟨0, 0, 0⟩) : 0 < dot n n := by
  have h0 : 0 ≤ dot n n := by unfold dot; nlinarith [mul_self_nonneg n.x, mul_self_nonneg n.y, mul_self_nonneg n.z]
  rcases h0.lt_or_eq with h1 | h1
  · exact h1
  · exfalso; apply h
    unfold dot at h1
    have hx : n.x = 0 := by nlinarith [mul_self_nonneg n.x, mul_self_nonneg n.y, mul_self_nonneg n.z]
    have hy : n.y = 0 := by nlinarith [mul_self_nonneg n.x, mul_self_nonneg n.y, mul_self_nonneg n.z]
    have hz : n.z = 0 := by nlinarith [mul_self_nonneg n.x, mul_self_nonneg n.y, mul_self_nonneg n.z]
    exact V3.ext' hx hy hz

theorem lagrange (a b : V3) : dot a a * dot b b - dot a b * dot a b = dot (cross a b) (cross a b) := by
  unfold dot cross; ring

/-- `point_in_triangle` is right for points of the plane of a proper triangle. -/
theorem pointInTriangle_iff (a b c p : V3) (hn : cross (sub b a) (sub c a) ≠ ⟨0, 0, 0⟩) (hp : dot (cross (sub b a) (sub c a)) (sub p a) = 0) :
    pointInTriangle a b c p ↔ InTriangle a b c p := by
  have hD : 0 < dot (sub b a) (sub b a) * dot (sub c a) (sub c a) - dot (sub b a) (sub c a) * dot (sub b a) (sub c a) := by
    rw [lagrange]; exact normSq_pos hn
  unfold pointInTriangle
  simp only
  constructor
  · rintro ⟨hd, hu, hv, hw⟩
    refine ⟨_, _, _, hu, hv, hw, by ring, ?_⟩
    -- the residual is orthogonal to both edges and to the normal
    set D := dot (sub b a) (sub b a) * dot (sub c a) (sub c a) - dot (sub b a) (sub c a) * dot (sub b a) (sub c a) with hDdef
    set v := (dot (sub c a) (sub c a) * dot (sub p a) (sub b a) - dot (sub b a) (sub c a) * dot (sub p a) (sub c a)) / D with hv'
    set w := (dot (sub b a) (sub b a) * dot (sub p a) (sub c a) - dot (sub b a) (sub c a) * dot (sub p a) (sub b a)) / D with hw'
    have hvD : v * D = dot (sub c a) (sub c a) * dot (sub p a) (sub b a) - dot (sub b a) (sub c a) * dot (sub p a) (sub c a) := by
      rw [hv']; field_simp
    have hwD : w * D = dot (sub b a) (sub b a) * dot (sub p a) (sub c a) - dot (sub b a) (sub c a) * dot (sub p a) (sub b a) := by
      rw [hw']; field_simp
    have hL := lagrange (sub b a) (sub c a)
    rw [← hDdef] at hL
    have hcomp : ∀ (P A B C : ℝ), D * (P - A) = (v * D) * (B - A) + (w * D) * (C - A) → P = (1 - v - w) * A + v * B + w * C := by
      intro P A B C h
      have : D * (P - ((1 - v - w) * A + v * B + w * C)) = 0 := by linear_combination h
      rcases mul_eq_zero.1 this with h1 | h1
      · exact absurd h1 hD.ne'
      · linarith
    apply V3.ext'
    · simp only [add, smul]; apply hcomp; rw [hvD, hwD, hDdef]
      simp only [dot, cross, sub] at hp ⊢
      linear_combination ((b.y - a.y) * (c.z - a.z) - (b.z - a.z) * (c.y - a.y)) * hp
    · simp only [add, smul]; apply hcomp; rw [hvD, hwD, hDdef]
      simp only [dot, cross, sub] at hp ⊢
      linear_combination ((b.z - a.z) * (c.x - a.x) - (b.x - a.x) * (c.z - a.z)) * hp
    · simp only [add, smul]; apply hcomp; rw [hvD, hwD, hDdef]
      simp only [dot, cross, sub] at hp ⊢
      linear_combination ((b.x - a.x) * (c.y - a.y) - (b.y - a.y) * (c.x - a.x)) * hp
  · rintro ⟨u, v, w, hu, hv, hw, hs, rfl⟩
    have hu' : u = 1 - v - w := by linarith
    subst hu'
    set D := dot (sub b a) (sub b a) * dot (sub c a) (sub c a) - dot (sub b a) (sub c a) * dot (sub b a) (sub c a) with hDdef
    have e1 : (dot (sub c a) (sub c a) * dot (sub (add (add (smul (1 - v - w) a) (smul v b)) (smul w c)) a) (sub b a) -
        dot (sub b a) (sub c a) * dot (sub (add (add (smul (1 - v - w) a) (smul v b)) (smul w c)) a) (sub c a)) / D = v := by
      rw [div_eq_iff hD.ne', hDdef]; simp only [dot, sub, add, smul]; ring
    have e2 : (dot (sub b a) (sub b a) * dot (sub (add (add (smul (1 - v - w) a) (smul v b)) (smul w c)) a) (sub c a) -
        dot (sub b a) (sub c a) * dot (sub (add (add (smul (1 - v - w) a) (smul v b)) (smul w c)) a) (sub b a)) / D = w := by
      rw [div_eq_iff hD.ne', hDdef]; simp only [dot, sub, add, smul]; ring
    rw [e1, e2]
    exact ⟨hD.ne', hu, hv, hw⟩

/-- Three vectors orthogonal to a nonzero vector are linearly dependent. -/
theorem triple_zero (n a b c : V3) (hn : n ≠ ⟨0, 0, 0⟩) (ha : dot n a = 0) (hb : dot n b = 0) (hc : dot n c = 0) : dot (cross a b) c = 0 := by
  have hx : n.x * dot (cross a b) c = 0 := by
    simp only [dot, cross] at *
    linear_combination (b.y * c.z - b.z * c.y) * ha + (c.y * a.z - c.z * a.y) * hb + (a.y * b.z - a.z * b.y) * hc
  have hy : n.y * dot (cross a b) c = 0 := by
    simp only [dot, cross] at *
    linear_combination (b.z * c.x - b.x * c.z) * ha + (c.z * a.x - c.x * a.z) * hb + (a.z * b.x - a.x * b.z) * hc
  have hz : n.z * dot (cross a b) c = 0 := by
    simp only [dot, cross] at *
    linear_combination (b.x * c.y - b.y * c.x) * ha + (c.x * a.y - c.y * a.x) * hb + (a.x * b.y - a.y * b.x) * hc
  by_contra h
  apply hn
  apply V3.ext'
  · simpa [h] using hx
  · simpa [h] using hy
  · simpa [h] using hz

theorem onFace_plane (f : Quad) (hf : Flat f) (p : V3) (h : OnFace f p) : dot (cross (sub f.p1 f.p0) (sub f.p2 f.p0)) (sub p f.p0) = 0 := by
  rcases h with ⟨u, v, w, _, _, _, hs, rfl⟩ | ⟨u, v, w, _, _, _, hs, rfl⟩
  · have : u = 1 - v - w := by linarith
    subst this
    simp only [dot, cross, sub, add, smul]; ring
  · have hu : u = 1 - v - w := by linarith
    subst hu
    have := hf.1
    simp only [dot, cross, sub, add, smul] at this ⊢
    linear_combination w * this

theorem onFace_iff (f : Quad) (hf : Flat f) (p : V3) (hp : dot (cross (sub f.p1 f.p0) (sub f.p2 f.p0)) (sub p f.p0) = 0) :
    (pointInTriangle f.p0 f.p1 f.p2 p ∨ pointInTriangle f.p1 f.p2 f.p3 p) ↔ OnFace f p := by
  unfold OnFace
  rw [pointInTriangle_iff _ _ _ _ hf.2.1 hp, pointInTriangle_iff _ _ _ _ hf.2.2]
  set n := cross (sub f.p1 f.p0) (sub f.p2 f.p0) with hn
  apply triple_zero n _ _ _ hf.2.1
  · rw [hn]; simp only [dot, cross, sub]; ring
  · have := hf.1
    rw [hn]; simp only [dot, cross, sub] at this ⊢; linear_combination this
  · rw [hn] at hp ⊢; simp only [dot, cross, sub] at hp ⊢; linear_combination hp

/-- The parameter of the intersection of the ray with the plane of the face. -/
noncomputable def param (f : Quad) (o dir : V3) : ℝ :=
  dot (cross (sub f.p1 f.p0) (sub f.p2 f.p0)) (sub o f.p0) / det dir (sub f.p1 f.p0) (sub f.p2 f.p0)

theorem edge_pos {a b : V3} (h : cross a b ≠ ⟨0, 0, 0⟩) : 0 < faceArea a b := by
  have h0 : 0 ≤ faceArea a b := by unfold faceArea; positivity
  rcases h0.lt_or_eq with h1 | h1
  · exact h1
  exfalso; apply h
  unfold faceArea at h1
  rcases mul_eq_zero.1 h1.symm with h2 | h2
  · have hx : a.x = 0 := by rw [← abs_eq_zero]; linarith [abs_nonneg a.x, abs_nonneg a.y, abs_nonneg a.z]
    have hy : a.y = 0 := by rw [← abs_eq_zero]; linarith [abs_nonneg a.x, abs_nonneg a.y, abs_nonneg a.z]
    have hz : a.z = 0 := by rw [← abs_eq_zero]; linarith [abs_nonneg a.x, abs_nonneg a.y, abs_nonneg a.z]
    apply V3.ext' <;> simp [cross, hx, hy, hz]
  · have hx : b.x = 0 := by rw [← abs_eq_zero]; linarith [abs_nonneg b.x, abs_nonneg b.y, abs_nonneg b.z]
    have hy : b.y = 0 := by rw [← abs_eq_zero]; linarith [abs_nonneg b.x, abs_nonneg b.y, abs_nonneg b.z]
    have hz : b.z = 0 := by rw [← abs_eq_zero]; linarith [abs_nonneg b.x, abs_nonneg b.y, abs_nonneg b.z]
    apply V3.ext' <;> simp [cross, hx, hy, hz]

theorem det_ne (tol : ℝ) (htol : 0 < tol) (f : Quad) (hf : Flat f) (dir : V3) (ht : Transversal tol f dir) : det dir (sub f.p1 f.p0) (sub f.p2 f.p0) ≠ 0 := by
  intro h
  unfold Transversal at ht
  rw [h, abs_zero] at ht
  have := mul_pos htol (edge_pos hf.2.1)
  linarith

theorem param_plane (f : Quad) (o dir : V3) (h : det dir (sub f.p1 f.p0) (sub f.p2 f.p0) ≠ 0) (t : ℝ) :
    dot (cross (sub f.p1 f.p0) (sub f.p2 f.p0)) (sub (add o (smul t dir)) f.p0) = 0 ↔ t = param f o dir := by
  have e : dot (cross (sub f.p1 f.p0) (sub f.p2 f.p0)) (sub (add o (smul t dir)) f.p0) =
      dot (cross (sub f.p1 f.p0) (sub f.p2 f.p0)) (sub o f.p0) - t * det dir (sub f.p1 f.p0) (sub f.p2 f.p0) := by
    simp only [dot, cross, sub, add, smul, det]; ring
  unfold param
  rw [e, eq_div_iff h]
  constructor <;> intro h' <;> linarith

open Classical in
/-- What one face does to the state. -/
theorem faceStep_eq (tol : ℝ) (htol : 0 < tol) (o dir : V3) (acc : ℝ × V3) (f : Quad) (hf : Flat f) :
    faceStep tol o dir acc f =
      if Transversal tol f dir ∧ Hit f o dir (param f o dir) ∧ param f o dir < acc.1 then (param f o dir, add o (smul (param f o dir) dir)) else acc := by
  unfold faceStep
  simp only
  by_cases ht : Transversal tol f dir
  · rw [if_neg (by unfold Transversal at ht; linarith)]
    have hd := det_ne tol htol f hf dir ht
    have hpl := (param_plane f o dir hd (param f o dir)).2 rfl
    change (if param f o dir < 0 then acc else if param f o dir < acc.1 then
        if pointInTriangle f.p0 f.p1 f.p2 (add o (smul (param f o dir) dir)) then (param f o dir, add o (smul (param f o dir) dir))
        else if pointInTriangle f.p1 f.p2 f.p3 (add o (smul (param f o dir) dir)) then (param f o dir, add o (smul (param f o dir) dir)) else acc
      else acc) = _
    have hon := onFace_iff f hf _ hpl
    by_cases h0 : param f o dir < 0
    · rw [if_pos h0, if_neg (fun h => by have := h.2.1.1; linarith)]
    rw [if_neg h0]
    by_cases h1 : param f o dir < acc.1
    · rw [if_pos h1]
      by_cases h2 : pointInTriangle f.p0 f.p1 f.p2 (add o (smul (param f o dir) dir))
      · rw [if_pos h2, if_pos ⟨ht, ⟨by linarith, hon.1 (Or.inl h2)⟩, h1⟩]
      · rw [if_neg h2]
        by_cases h3 : pointInTriangle f.p1 f.p2 f.p3 (add o (smul (param f o dir) dir))
        · rw [if_pos h3, if_pos ⟨ht, ⟨by linarith, hon.1 (Or.inr h3)⟩, h1⟩]
        · rw [if_neg h3, if_neg (fun h => by rcases hon.2 h.2.1.2 with h' | h' <;> contradiction)]
    · rw [if_neg h1, if_neg (fun h => h1 h.2.2)]
  · rw [if_pos (by unfold Transversal at ht; linarith), if_neg (fun h => ht h.1)]

theorem hit_param (tol : ℝ) (htol : 0 < tol) (o dir : V3) (f : Quad) (hf : Flat f) (ht : Transversal tol f dir) (t : ℝ) (h : Hit f o dir t) : t = param f o dir :=
  (param_plane f o dir (det_ne tol htol f hf dir ht) t).1 (onFace_plane f hf _ h.2)

theorem fold_inv (tol far : ℝ) (htol : 0 < tol) (o dir : V3) (faces : List Quad) (hf : ∀ f ∈ faces, Flat f) (acc : ℝ × V3) (hacc : acc.1 ≤ far) :
    let r := faces.foldl (faceStep tol o dir) acc
    (r = acc ∨ ∃ f ∈ faces, Hit f o dir r.1 ∧ Transversal tol f dir ∧ r.2 = add o (smul r.1 dir) ∧ r.1 < acc.1) ∧
    (∀ g ∈ faces, Transversal tol g dir → ∀ s, Hit g o dir s → r.1 ≤ s) := by
  induction faces generalizing acc with
  | nil => simp
  | cons f fs ih =>
    have hff := hf f List.mem_cons_self
    have hfs : ∀ g ∈ fs, Flat g := fun g hg => hf g (List.mem_cons_of_mem _ hg)
    simp only [List.foldl_cons]
    rw [faceStep_eq tol htol o dir acc f hff]
    split_ifs with h
    · obtain ⟨ht, hh, hlt⟩ := h
      obtain ⟨h1, h2⟩ := ih hfs (param f o dir, add o (smul (param f o dir) dir)) (by simp; linarith)
      have hle : (List.foldl (faceStep tol o dir) (param f o dir, add o (smul (param f o dir) dir)) fs).1 ≤ param f o dir := by
        rcases h1 with h1 | ⟨g, _, _, _, _, h5⟩
        · rw [h1]
        · exact h5.le
      refine ⟨Or.inr ?_, ?_⟩
      · rcases h1 with h1 | ⟨g, hg, h3, h3', h4, h5⟩
        · refine ⟨f, List.mem_cons_self, ?_⟩
          rw [h1]; exact ⟨hh, ht, rfl, hlt⟩
        · exact ⟨g, List.mem_cons_of_mem _ hg, h3, h3', h4, by simp at h5; linarith⟩
      · intro g hg htg s hs
        rcases List.mem_cons.1 hg with rfl | hg
        · rw [hit_param tol htol o dir g hff htg s hs]; exact hle
        · exact h2 g hg htg s hs
    · obtain ⟨h1, h2⟩ := ih hfs acc hacc
      refine ⟨?_, ?_⟩
      · rcases h1 with h1 | ⟨g, hg, h3⟩
        · exact Or.inl h1
        · exact Or.inr ⟨g, List.mem_cons_of_mem _ hg, h3⟩
      · intro g hg htg s hs
        rcases List.mem_cons.1 hg with rfl | hg
        · have hsp := hit_param tol htol o dir g hff htg s hs
          have : acc.1 ≤ s := by
            by_contra hlt
            exact h ⟨htg, hsp ▸ hs, by rw [← hsp]; linarith⟩
          rcases h1 with h1 | ⟨g', _, _, _, _, h5⟩
          · rw [h1]; exact this
          · linarith
        · exact h2 g hg htg s hs

/-- **C57**, the part that holds: over all flat faces examined for a ray, a reported point lies on one of them, ahead of the origin, and no examined face that is not parallel to the ray is hit earlier; if nothing is
reported no such face is hit (closer than `DBL_MAX`). -/
theorem C57_nearest_partial (tol far : ℝ) (htol : 0 < tol) (o dir : V3) (faces : List Quad) (hf : ∀ f ∈ faces, Flat f) :
    (∀ p, traceFaces tol far o dir faces = some p →
      ∃ f ∈ faces, ∃ t, Hit f o dir t ∧ p = add o (smul t dir) ∧ ∀ g ∈ faces, Transversal tol g dir → ∀ s, Hit g o dir s → t ≤ s) ∧
    (traceFaces tol far o dir faces = none → ∀ g ∈ faces, Transversal tol g dir → ∀ s, s < far → ¬ Hit g o dir s) := by
  obtain ⟨h1, h2⟩ := fold_inv tol far htol o dir faces hf (far, ⟨0, 0, 0⟩) (le_refl _)
  unfold traceFaces
  simp only
  constructor
  · intro p hp
    split_ifs at hp with hlt
    rcases h1 with h1 | ⟨f, hfm, h3, _, h4, h5⟩
    · rw [h1] at hlt; simp at hlt
    · exact ⟨f, hfm, _, h3, by rw [← h4]; exact (Option.some.inj hp).symm, h2⟩
  · intro hp g hg ht s hs hh
    split_ifs at hp with hlt
    have := h2 g hg ht s hh
    linarith

/-! ## axis-aligned cells -/

/-- The six faces of an axis-aligned cell, in deal.II's order, vertices lexicographic. -/
def boxFaces (a b : V3) : List Quad :=
  [⟨⟨a.x, a.y, a.z⟩, ⟨a.x, b.y, a.z⟩, ⟨a.x, a.y, b.z⟩, ⟨a.x, b.y, b.z⟩⟩,
   ⟨⟨b.x, a.y, a.z⟩, ⟨b.x, b.y, a.z⟩, ⟨b.x, a.y, b.z⟩, ⟨b.x, b.y, b.z⟩⟩,
   ⟨⟨a.x, a.y, a.z⟩, ⟨a.x, a.y, b.z⟩, ⟨b.x, a.y, a.z⟩, ⟨b.x, a.y, b.z⟩⟩,
   ⟨⟨a.x, b.y, a.z⟩, ⟨a.x, b.y, b.z⟩, ⟨b.x, b.y, a.z⟩, ⟨b.x, b.y, b.z⟩⟩,
   ⟨⟨a.x, a.y, a.z⟩, ⟨b.x, a.y, a.z⟩, ⟨a.x, b.y, a.z⟩, ⟨b.x, b.y, a.z⟩⟩,
   ⟨⟨a.x, a.y, b.z⟩, ⟨b.x, a.y, b.z⟩, ⟨a.x, b.y, b.z⟩, ⟨b.x, b.y, b.z⟩⟩]

/-- The closed box. -/
def InBox (a b p : V3) : Prop := (a.x ≤ p.x ∧ p.x ≤ b.x) ∧ (a.y ≤ p.y ∧ p.y ≤ b.y) ∧ (a.z ≤ p.z ∧ p.z ≤ b.z)

theorem boxFaces_flat (a b : V3) (hx : a.x < b.x) (hy : a.y < b.y) (hz : a.z < b.z) : ∀ f ∈ boxFaces a b, Flat f := by
  have h1 : (b.x - a.x) ≠ 0 := by linarith
  have h2 : (b.y - a.y) ≠ 0 := by linarith
  have h3 : (b.z - a.z) ≠ 0 := by linarith
  have h1' : (a.x - b.x) ≠ 0 := by linarith
  have h2' : (a.y - b.y) ≠ 0 := by linarith
  have h3' : (a.z - b.z) ≠ 0 := by linarith
  intro f hf
  simp only [boxFaces, List.mem_cons, List.not_mem_nil, or_false] at hf
  rcases hf with rfl | rfl | rfl | rfl | rfl | rfl <;> refine ⟨?_, ?_, ?_⟩ <;> simp [dot, cross, sub, h1, h2, h3, h1', h2', h3']

/-- A point of a parallelogram `p0 + α e1 + β e2` is on the face. -/
theorem onFace_of_coords (f : Quad) (h3 : f.p3 = add f.p1 (sub f.p2 f.p0)) (α β : ℝ) (ha : 0 ≤ α ∧ α ≤ 1) (hb : 0 ≤ β ∧ β ≤ 1) :
    OnFace f (add f.p0 (add (smul α (sub f.p1 f.p0)) (smul β (sub f.p2 f.p0)))) := by
  by_cases h : α + β ≤ 1
  · left
    refine ⟨1 - α - β, α, β, by linarith, ha.1, hb.1, by ring, ?_⟩
    apply V3.ext' <;> simp only [add, smul, sub] <;> ring
  · right
    refine ⟨1 - β, 1 - α, α + β - 1, by linarith, by linarith, by linarith, by ring, ?_⟩
    rw [h3]
    apply V3.ext' <;> simp only [add, smul, sub] <;> ring

theorem inTriangle_box (a b p q r s : V3) (hp : InBox a b p) (hq : InBox a b q) (hr : InBox a b r) (h : InTriangle p q r s) : InBox a b s := by
  obtain ⟨u, v, w, hu, hv, hw, hs, rfl⟩ := h
  have key : ∀ (A P Q R : ℝ), A ≤ P → A ≤ Q → A ≤ R → A ≤ u * P + v * Q + w * R := by
    intro A P Q R h1 h2 h3
    have : u * A + v * A + w * A ≤ u * P + v * Q + w * R := by
      have := mul_le_mul_of_nonneg_left h1 hu
      have := mul_le_mul_of_nonneg_left h2 hv
      have := mul_le_mul_of_nonneg_left h3 hw
      linarith
    calc A = u * A + v * A + w * A := by rw [← add_mul, ← add_mul, hs, one_mul]
      _ ≤ _ := this
  have key2 : ∀ (B P Q R : ℝ), P ≤ B → Q ≤ B → R ≤ B → u * P + v * Q + w * R ≤ B := by
    intro B P Q R h1 h2 h3
    have := key (-B) (-P) (-Q) (-R) (by linarith) (by linarith) (by linarith)
    linarith
  unfold InBox at *
  simp only [add, smul]
  exact ⟨⟨key _ _ _ _ hp.1.1 hq.1.1 hr.1.1, key2 _ _ _ _ hp.1.2 hq.1.2 hr.1.2⟩, ⟨key _ _ _ _ hp.2.1.1 hq.2.1.1 hr.2.1.1, key2 _ _ _ _ hp.2.1.2 hq.2.1.2 hr.2.1.2⟩,
    ⟨key _ _ _ _ hp.2.2.1 hq.2.2.1 hr.2.2.1, key2 _ _ _ _ hp.2.2.2 hq.2.2.2 hr.2.2.2⟩⟩

theorem onFace_inBox (a b : V3) (hx : a.x < b.x) (hy : a.y < b.y) (hz : a.z < b.z) (f : Quad) (hf : f ∈ boxFaces a b) (p : V3) (h : OnFace f p) : InBox a b p := by
  have hv : InBox a b f.p0 ∧ InBox a b f.p1 ∧ InBox a b f.p2 ∧ InBox a b f.p3 := by
    simp only [boxFaces, List.mem_cons, List.not_mem_nil, or_false] at hf
    rcases hf with rfl | rfl | rfl | rfl | rfl | rfl <;> simp [InBox, hx.le, hy.le, hz.le]
  rcases h with h | h
  · exact inTriangle_box a b _ _ _ _ hv.1 hv.2.1 hv.2.2.1 h
  · exact inTriangle_box a b _ _ _ _ hv.2.1 hv.2.2.1 hv.2.2.2 h

/-- The ray enters a slab. -/
theorem entry1D (a b o d s : ℝ) (hs : 0 ≤ s) (h : a ≤ o + s * d ∧ o + s * d ≤ b) :
    ∃ te, te ≤ s ∧ (∀ t, te ≤ t → t ≤ s → a ≤ o + t * d ∧ o + t * d ≤ b) ∧ (0 < te → d ≠ 0 ∧ (o + te * d = a ∨ o + te * d = b)) := by
  rcases lt_trichotomy d 0 with hd | hd | hd
  · refine ⟨(b - o) / d, ?_, ?_, ?_⟩
    · rw [div_le_iff_of_neg hd]; linarith [h.2]
    · intro t h1 h2
      rw [div_le_iff_of_neg hd] at h1
      exact ⟨by nlinarith [h.1], by linarith⟩
    · intro _
      have hne : d ≠ 0 := hd.ne
      exact ⟨hne, Or.inr (by rw [div_mul_cancel₀ _ hne]; ring)⟩
  · subst hd
    exact ⟨0, hs, by intro t _ _; simpa using h, fun h => absurd h (lt_irrefl _)⟩
  · refine ⟨(a - o) / d, ?_, ?_, ?_⟩
    · rw [div_le_iff₀ hd]; linarith [h.1]
    · intro t h1 h2
      rw [div_le_iff₀ hd] at h1
      exact ⟨by linarith, by nlinarith [h.2]⟩
    · intro _
      exact ⟨hd.ne', Or.inl (by field_simp; ring)⟩

theorem unit01 (a b p : ℝ) (h : a < b) (hp : a ≤ p ∧ p ≤ b) : (0 ≤ (p - a) / (b - a) ∧ (p - a) / (b - a) ≤ 1) ∧ a + (p - a) / (b - a) * (b - a) = p := by
  have hb : 0 < b - a := by linarith
  refine ⟨⟨div_nonneg (by linarith) hb.le, by rw [div_le_one hb]; linarith⟩, by field_simp; ring⟩

/-- A point of the box with `x = a.x` is on the first face; and so on. -/
theorem box_boundary (a b p : V3) (hx : a.x < b.x) (hy : a.y < b.y) (hz : a.z < b.z) (h : InBox a b p) (tol : ℝ) (dir : V3) :
    ((p.x = a.x ∨ p.x = b.x) → tol ≤ |dir.x| → ∃ f ∈ boxFaces a b, OnFace f p ∧ Transversal tol f dir) ∧
    ((p.y = a.y ∨ p.y = b.y) → tol ≤ |dir.y| → ∃ f ∈ boxFaces a b, OnFace f p ∧ Transversal tol f dir) ∧
    ((p.z = a.z ∨ p.z = b.z) → tol ≤ |dir.z| → ∃ f ∈ boxFaces a b, OnFace f p ∧ Transversal tol f dir) := by
  obtain ⟨ux, ex⟩ := unit01 _ _ _ hx h.1
  obtain ⟨uy, ey⟩ := unit01 _ _ _ hy h.2.1
  obtain ⟨uz, ez⟩ := unit01 _ _ _ hz h.2.2
  have px : 0 < b.x - a.x := by linarith
  have py : 0 < b.y - a.y := by linarith
  have pz : 0 < b.z - a.z := by linarith
  have hT : ∀ (c A B : ℝ), 0 < A → 0 < B → tol ≤ |c| → tol * (A * B) ≤ |c| * (A * B) := fun c A B hA hB hc => mul_le_mul_of_nonneg_right hc (mul_pos hA hB).le
  refine ⟨?_, ?_, ?_⟩
  · rintro (e | e) hd
    · refine ⟨_, List.mem_cons_self, ?_, ?_⟩
      · have := onFace_of_coords ⟨⟨a.x, a.y, a.z⟩, ⟨a.x, b.y, a.z⟩, ⟨a.x, a.y, b.z⟩, ⟨a.x, b.y, b.z⟩⟩ (by simp [add, sub]) _ _ uy uz
        convert this using 1
        apply V3.ext' <;> simp only [add, smul, sub] <;> linarith
      · unfold Transversal det faceArea; simp only [dot, cross, sub, sub_self, abs_zero, zero_add, add_zero, mul_zero, zero_mul, sub_zero]
        rw [show -dir.x * ((b.y - a.y) * (b.z - a.z)) = -(dir.x * ((b.y - a.y) * (b.z - a.z))) by ring, abs_neg, abs_mul, abs_of_pos py, abs_of_pos pz, abs_of_pos (mul_pos py pz)]
        exact hT _ _ _ py pz hd
    · refine ⟨_, List.mem_cons_of_mem _ List.mem_cons_self, ?_, ?_⟩
      · have := onFace_of_coords ⟨⟨b.x, a.y, a.z⟩, ⟨b.x, b.y, a.z⟩, ⟨b.x, a.y, b.z⟩, ⟨b.x, b.y, b.z⟩⟩ (by simp [add, sub]) _ _ uy uz
        convert this using 1
        apply V3.ext' <;> simp only [add, smul, sub] <;> linarith
      · unfold Transversal det faceArea; simp only [dot, cross, sub, sub_self, abs_zero, zero_add, add_zero, mul_zero, zero_mul, sub_zero]
        rw [show -dir.x * ((b.y - a.y) * (b.z - a.z)) = -(dir.x * ((b.y - a.y) * (b.z - a.z))) by ring, abs_neg, abs_mul, abs_of_pos py, abs_of_pos pz, abs_of_pos (mul_pos py pz)]
        exact hT _ _ _ py pz hd
  · rintro (e | e) hd
    · refine ⟨_, List.mem_cons_of_mem _ (List.mem_cons_of_mem _ List.mem_cons_self), ?_, ?_⟩
      · have := onFace_of_coords ⟨⟨a.x, a.y, a.z⟩, ⟨a.x, a.y, b.z⟩, ⟨b.x, a.y, a.z⟩, ⟨b.x, a.y, b.z⟩⟩ (by simp [add, sub]) _ _ uz ux
        convert this using 1
        apply V3.ext' <;> simp only [add, smul, sub] <;> linarith
      · unfold Transversal det faceArea; simp only [dot, cross, sub, sub_self, abs_zero, zero_add, add_zero, mul_zero, zero_mul, sub_zero]
        rw [show -dir.y * ((b.z - a.z) * (b.x - a.x)) = -(dir.y * ((b.z - a.z) * (b.x - a.x))) by ring, abs_neg, abs_mul, abs_of_pos px, abs_of_pos pz, abs_of_pos (mul_pos pz px)]
        exact hT _ _ _ pz px hd
    · refine ⟨_, List.mem_cons_of_mem _ (List.mem_cons_of_mem _ (List.mem_cons_of_mem _ List.mem_cons_self)), ?_, ?_⟩
      · have := onFace_of_coords ⟨⟨a.x, b.y, a.z⟩, ⟨a.x, b.y, b.z⟩, ⟨b.x, b.y, a.z⟩, ⟨b.x, b.y, b.z⟩⟩ (by simp [add, sub]) _ _ uz ux
        convert this using 1
        apply V3.ext' <;> simp only [add, smul, sub] <;> linarith
      · unfold Transversal det faceArea; simp only [dot, cross, sub, sub_self, abs_zero, zero_add, add_zero, mul_zero, zero_mul, sub_zero]
        rw [show -dir.y * ((b.z - a.z) * (b.x - a.x)) = -(dir.y * ((b.z - a.z) * (b.x - a.x))) by ring, abs_neg, abs_mul, abs_of_pos px, abs_of_pos pz, abs_of_pos (mul_pos pz px)]
        exact hT _ _ _ pz px hd
  · rintro (e | e) hd
    · refine ⟨_, List.mem_cons_of_mem _ (List.mem_cons_of_mem _ (List.mem_cons_of_mem _ (List.mem_cons_of_mem _ List.mem_cons_self))), ?_, ?_⟩
      · have := onFace_of_coords ⟨⟨a.x, a.y, a.z⟩, ⟨b.x, a.y, a.z⟩, ⟨a.x, b.y, a.z⟩, ⟨b.x, b.y, a.z⟩⟩ (by simp [add, sub]) _ _ ux uy
        convert this using 1
        apply V3.ext' <;> simp only [add, smul, sub] <;> linarith
      · unfold Transversal det faceArea; simp only [dot, cross, sub, sub_self, abs_zero, zero_add, add_zero, mul_zero, zero_mul, sub_zero]
        rw [show -dir.z * ((b.x - a.x) * (b.y - a.y)) = -(dir.z * ((b.x - a.x) * (b.y - a.y))) by ring, abs_neg, abs_mul, abs_of_pos px, abs_of_pos py, abs_of_pos (mul_pos px py)]
        exact hT _ _ _ px py hd
    · refine ⟨_, List.mem_cons_of_mem _ (List.mem_cons_of_mem _ (List.mem_cons_of_mem _ (List.mem_cons_of_mem _ (List.mem_cons_of_mem _ List.mem_cons_self)))), ?_, ?_⟩
      · have := onFace_of_coords ⟨⟨a.x, a.y, b.z⟩, ⟨b.x, a.y, b.z⟩, ⟨a.x, b.y, b.z⟩, ⟨b.x, b.y, b.z⟩⟩ (by simp [add, sub]) _ _ ux uy
        convert this using 1
        apply V3.ext' <;> simp only [add, smul, sub] <;> linarith
      · unfold Transversal det faceArea; simp only [dot, cross, sub, sub_self, abs_zero, zero_add, add_zero, mul_zero, zero_mul, sub_zero]
        rw [show -dir.z * ((b.x - a.x) * (b.y - a.y)) = -(dir.z * ((b.x - a.x) * (b.y - a.y))) by ring, abs_neg, abs_mul, abs_of_pos px, abs_of_pos py, abs_of_pos (mul_pos px py)]
        exact hT _ _ _ px py hd

/-- A direction component is exactly zero or not tiny. -/
def NotTiny (tol c : ℝ) : Prop := c = 0 ∨ tol ≤ |c|

/-- A ray that starts outside of a box and meets it, enters it through a face that is not parallel to it. -/
theorem enters (tol : ℝ) (a b : V3) (hx : a.x < b.x) (hy : a.y < b.y) (hz : a.z < b.z) (o dir : V3) (ho : ¬ InBox a b o)
    (hd : NotTiny tol dir.x ∧ NotTiny tol dir.y ∧ NotTiny tol dir.z) (s : ℝ) (hs : 0 ≤ s) (h : InBox a b (add o (smul s dir))) :
    ∃ f ∈ boxFaces a b, Transversal tol f dir ∧ ∃ t ≤ s, Hit f o dir t := by
  obtain ⟨tx, x1, x2, x3⟩ := entry1D a.x b.x o.x dir.x s hs h.1
  obtain ⟨ty, y1, y2, y3⟩ := entry1D a.y b.y o.y dir.y s hs h.2.1
  obtain ⟨tz, z1, z2, z3⟩ := entry1D a.z b.z o.z dir.z s hs h.2.2
  have hbox : ∀ t, tx ≤ t → ty ≤ t → tz ≤ t → t ≤ s → InBox a b (add o (smul t dir)) := fun t h1 h2 h3 h4 => ⟨x2 t h1 h4, y2 t h2 h4, z2 t h3 h4⟩
  have hpos : 0 < tx ∨ 0 < ty ∨ 0 < tz := by
    by_contra hc
    simp only [not_or, not_lt] at hc
    apply ho
    have := hbox 0 hc.1 hc.2.1 hc.2.2 hs
    convert this using 1
    apply V3.ext' <;> simp [add, smul]
  have hnt : ∀ c, NotTiny tol c → c ≠ 0 → tol ≤ |c| := fun c h1 h2 => h1.resolve_left h2
  have case : ∀ t, 0 < t → tx ≤ t → ty ≤ t → tz ≤ t → t ≤ s → (t = tx ∨ t = ty ∨ t = tz) → ∃ f ∈ boxFaces a b, Transversal tol f dir ∧ ∃ t ≤ s, Hit f o dir t := by
    intro t ht h1 h2 h3 h4 h5
    have hb := hbox t h1 h2 h3 h4
    have hbb := box_boundary a b _ hx hy hz hb tol dir
    rcases h5 with rfl | rfl | rfl
    · obtain ⟨f, hf, h6, h7⟩ := hbb.1 (x3 ht).2 (hnt _ hd.1 (x3 ht).1)
      exact ⟨f, hf, h7, t, h4, ht.le, h6⟩
    · obtain ⟨f, hf, h6, h7⟩ := hbb.2.1 (y3 ht).2 (hnt _ hd.2.1 (y3 ht).1)
      exact ⟨f, hf, h7, t, h4, ht.le, h6⟩
    · obtain ⟨f, hf, h6, h7⟩ := hbb.2.2 (z3 ht).2 (hnt _ hd.2.2 (z3 ht).1)
      exact ⟨f, hf, h7, t, h4, ht.le, h6⟩
  rcases le_total tx ty with hxy | hxy
  · rcases le_total ty tz with hyz | hyz
    · exact case tz (by rcases hpos with h | h | h <;> linarith) (by linarith) hyz (le_refl _) z1 (Or.inr (Or.inr rfl))
    · exact case ty (by rcases hpos with h | h | h <;> linarith) hxy (le_refl _) hyz y1 (Or.inr (Or.inl rfl))
  · rcases le_total tx tz with hxz | hxz
    · exact case tz (by rcases hpos with h | h | h <;> linarith) hxz (by linarith) (le_refl _) z1 (Or.inr (Or.inr rfl))
    · exact case tx (by rcases hpos with h | h | h <;> linarith) (le_refl _) hxy hxz x1 (Or.inl rfl)

/-- **C57** for axis-aligned cells (the meshes that adamantine generates): for every non-empty list of boxes whose faces are examined and every ray that starts outside of all of them and has no tiny direction
component, the reported point is the first point of the ray that belongs to one of the cells; and nothing is reported only if the ray meets none of them (before `far`). -/
theorem C57_boxes_partial (tol far : ℝ) (htol : 0 < tol) (cells : List (V3 × V3)) (hc : ∀ c ∈ cells, c.1.x < c.2.x ∧ c.1.y < c.2.y ∧ c.1.z < c.2.z) (o dir : V3)
    (ho : ∀ c ∈ cells, ¬ InBox c.1 c.2 o) (hd : NotTiny tol dir.x ∧ NotTiny tol dir.y ∧ NotTiny tol dir.z) :
    (∀ p, traceFaces tol far o dir (cells.flatMap fun c => boxFaces c.1 c.2) = some p →
      ∃ t, 0 ≤ t ∧ p = add o (smul t dir) ∧ (∃ c ∈ cells, InBox c.1 c.2 p) ∧ ∀ s, 0 ≤ s → s < t → ∀ c ∈ cells, ¬ InBox c.1 c.2 (add o (smul s dir))) ∧
    (traceFaces tol far o dir (cells.flatMap fun c => boxFaces c.1 c.2) = none → ∀ s, 0 ≤ s → s < far → ∀ c ∈ cells, ¬ InBox c.1 c.2 (add o (smul s dir))) := by
  have hflat : ∀ f ∈ cells.flatMap fun c => boxFaces c.1 c.2, Flat f := by
    intro f hf
    obtain ⟨c, hcm, hfc⟩ := List.mem_flatMap.1 hf
    exact boxFaces_flat c.1 c.2 (hc c hcm).1 (hc c hcm).2.1 (hc c hcm).2.2 f hfc
  obtain ⟨h1, h2⟩ := C57_nearest_partial tol far htol o dir _ hflat
  constructor
  · intro p hp
    obtain ⟨f, hf, t, hh, rfl, hmin⟩ := h1 p hp
    obtain ⟨c, hcm, hfc⟩ := List.mem_flatMap.1 hf
    refine ⟨t, hh.1, rfl, ⟨c, hcm, onFace_inBox c.1 c.2 (hc c hcm).1 (hc c hcm).2.1 (hc c hcm).2.2 f hfc _ hh.2⟩, ?_⟩
    intro s hs0 hst c' hc' hin
    obtain ⟨g, hg, htr, t', ht', hh'⟩ := enters tol c'.1 c'.2 (hc c' hc').1 (hc c' hc').2.1 (hc c' hc').2.2 o dir (ho c' hc') hd s hs0 hin
    have := hmin g (List.mem_flatMap.2 ⟨c', hc', hg⟩) htr t' hh'
    linarith
  · intro hn s hs0 hsf c hcm hin
    obtain ⟨g, hg, htr, t', ht', hh'⟩ := enters tol c.1 c.2 (hc c hcm).1 (hc c hcm).2.1 (hc c hcm).2.2 o dir (ho c hcm) hd s hs0 hin
    exact h2 hn g (List.mem_flatMap.2 ⟨c, hcm, hg⟩) htr t' (by linarith) hh'

/-- The hypotheses can be met: the unit cube seen from above. -/
example : ¬ InBox ⟨0, 0, 0⟩ ⟨1, 1, 1⟩ ⟨1 / 2, 1 / 2, 5⟩ ∧ NotTiny (1 / 10 ^ 10) (0 : ℝ) ∧ NotTiny (1 / 10 ^ 10) (-5 : ℝ) ∧
    InBox ⟨0, 0, 0⟩ ⟨1, 1, 1⟩ (add ⟨1 / 2, 1 / 2, 5⟩ (smul (4 / 5) ⟨0, 0, -5⟩)) := by
  refine ⟨by simp [InBox], Or.inl rfl, Or.inr (by norm_num), by simp [InBox, add, smul]; norm_num⟩

/-! ## the whole call -/

/-- **C57**: the number of points equals the number of values; every point is reported with the value of the ray it was found for; rank by rank the order of the rays is kept. -/
theorem C57_points_values (tol far : ℝ) (nRanks : ℕ) (rays : List (V3 × V3 × ℝ × List (ℕ × List Quad))) :
    let out := getPointsValues tol far nRanks rays
    out.1.length = out.2.length ∧
    ∀ (i : ℕ) (p : V3) (v : ℝ), out.1[i]? = some p → out.2[i]? = some v →
      ∃ r ∈ rays, ∃ my < nRanks, traceFaces tol far r.1 r.2.1 (examined my r.2.2.2) = some p ∧ r.2.2.1 = v := by
  have hpair : ∃ L : List (V3 × ℝ), (getPointsValues tol far nRanks rays).1 = L.map (·.1) ∧ (getPointsValues tol far nRanks rays).2 = L.map (·.2) ∧
      ∀ q ∈ L, ∃ r ∈ rays, ∃ my < nRanks, traceFaces tol far r.1 r.2.1 (examined my r.2.2.2) = some q.1 ∧ r.2.2.1 = q.2 := by
    refine ⟨(List.range nRanks).flatMap fun my => rays.filterMap fun r => (traceFaces tol far r.1 r.2.1 (examined my r.2.2.2)).map fun p => (p, r.2.2.1), ?_, ?_, ?_⟩
    · simp [getPointsValues, rankResult, List.map_flatMap]
    · simp [getPointsValues, rankResult, List.map_flatMap]
    · intro q hq
      obtain ⟨my, hmy, hq⟩ := List.mem_flatMap.1 hq
      obtain ⟨r, hr, hq⟩ := List.mem_filterMap.1 hq
      obtain ⟨p, hp, rfl⟩ := Option.map_eq_some_iff.1 hq
      exact ⟨r, hr, my, List.mem_range.1 hmy, hp, rfl⟩
  obtain ⟨L, h1, h2, h3⟩ := hpair
  intro out
  refine ⟨by simp [out, h1, h2], ?_⟩
  intro i p v hp hv
  simp only [out, h1, h2, List.getElem?_map, Option.map_eq_some_iff] at hp hv
  obtain ⟨q, hq, rfl⟩ := hp
  obtain ⟨q', hq', rfl⟩ := hv
  rw [hq] at hq'
  cases hq'
  obtain ⟨hlt, he⟩ := List.getElem?_eq_some_iff.1 hq
  exact h3 q (he ▸ List.getElem_mem hlt)

theorem traceFaces_nil (tol far : ℝ) (o dir : V3) : traceFaces tol far o dir [] = none := by simp [traceFaces]

/-- **C57**: a ray reports at most one point, on the rank that owns the nearest box found. -/
theorem C57_one_rank (tol far : ℝ) (my my' : ℕ) (o dir : V3) (hits : List (ℕ × List Quad)) (p p' : V3)
    (h : traceFaces tol far o dir (examined my hits) = some p) (h' : traceFaces tol far o dir (examined my' hits) = some p') : my = my' := by
  have key : ∀ m q, traceFaces tol far o dir (examined m hits) = some q → ∃ c rest, hits = c :: rest ∧ c.1 = m := by
    intro m q hq
    cases hits with
    | nil => simp [examined, traceFaces_nil] at hq
    | cons c rest =>
      refine ⟨c, rest, rfl, ?_⟩
      by_contra hne
      have : (c :: rest).filter (fun d => decide (d.1 = c.1 ∧ d.1 = m)) = [] := by
        rw [List.filter_eq_nil_iff]
        intro d _
        simp only [decide_eq_true_eq, not_and]
        intro e; rw [e]; exact hne
      simp only [examined] at hq
      rw [this] at hq
      simp [traceFaces_nil] at hq
  obtain ⟨c, rest, e, h1⟩ := key my p h
  obtain ⟨c', rest', e', h2⟩ := key my' p' h'
  rw [e] at e'
  obtain ⟨rfl, _⟩ := List.cons.inj e'
  rw [← h1, h2]

/-! ## lost rays -/

/-- A cell that leans in the `x` direction, with its lower corner at `(0, c, 0)`: bounding box `[0,3] × [c, c+1] × [0,1]`. -/
def leaning (c : ℝ) : List Quad :=
  [⟨⟨0, c, 0⟩, ⟨0, c + 1, 0⟩, ⟨2, c, 1⟩, ⟨2, c + 1, 1⟩⟩, ⟨⟨1, c, 0⟩, ⟨1, c + 1, 0⟩, ⟨3, c, 1⟩, ⟨3, c + 1, 1⟩⟩,
   ⟨⟨0, c, 0⟩, ⟨2, c, 1⟩, ⟨1, c, 0⟩, ⟨3, c, 1⟩⟩, ⟨⟨0, c + 1, 0⟩, ⟨2, c + 1, 1⟩, ⟨1, c + 1, 0⟩, ⟨3, c + 1, 1⟩⟩,
   ⟨⟨0, c, 0⟩, ⟨1, c, 0⟩, ⟨0, c + 1, 0⟩, ⟨1, c + 1, 0⟩⟩, ⟨⟨2, c, 1⟩, ⟨3, c, 1⟩, ⟨2, c + 1, 1⟩, ⟨3, c + 1, 1⟩⟩]

/-- The ray from `(1/4, -1, 3/4)` in direction `y` meets the bounding box of the leaning cell but not the cell. -/
theorem leaning_missed (tol : ℝ) (htol : 0 < tol) (c : ℝ) (acc : ℝ × V3) : (leaning c).foldl (faceStep tol ⟨1 / 4, -1, 3 / 4⟩ ⟨0, 1, 0⟩) acc = acc := by
  have hpar : ∀ f ∈ leaning c, Flat f → ¬ Hit f ⟨1 / 4, -1, 3 / 4⟩ ⟨0, 1, 0⟩ (param f ⟨1 / 4, -1, 3 / 4⟩ ⟨0, 1, 0⟩) ∨ ¬ Transversal tol f ⟨0, 1, 0⟩ := by
    intro f hf hfl
    simp only [leaning, List.mem_cons, List.not_mem_nil, or_false] at hf
    have pt : ∀ g : Quad, Flat g → det ⟨0, 1, 0⟩ (sub g.p1 g.p0) (sub g.p2 g.p0) = 0 → ¬ Transversal tol g ⟨0, 1, 0⟩ := by
      intro g hg hdet htr
      exact det_ne tol htol g hg _ htr hdet
    have pm : ∀ g : Quad, (∀ q, OnFace g q → 2 * q.z ≤ q.x) → ¬ Hit g ⟨1 / 4, -1, 3 / 4⟩ ⟨0, 1, 0⟩ (param g ⟨1 / 4, -1, 3 / 4⟩ ⟨0, 1, 0⟩) := by
      intro g hq hh
      have := hq _ hh.2
      simp [add, smul] at this
      norm_num at this
    have tri : ∀ p q r s : V3, 2 * p.z ≤ p.x → 2 * q.z ≤ q.x → 2 * r.z ≤ r.x → InTriangle p q r s → 2 * s.z ≤ s.x := by
      rintro p q r s h1 h2 h3 ⟨u, v, w, hu, hv, hw, _, rfl⟩
      simp only [add, smul]
      nlinarith [mul_le_mul_of_nonneg_left h1 hu, mul_le_mul_of_nonneg_left h2 hv, mul_le_mul_of_nonneg_left h3 hw]
    rcases hf with rfl | rfl | rfl | rfl | rfl | rfl
    · left; apply pm; rintro q (h | h)
      · exact tri _ _ _ _ (by norm_num) (by norm_num) (by norm_num) h
      · exact tri _ _ _ _ (by norm_num) (by norm_num) (by norm_num) h
    · left; apply pm; rintro q (h | h)
      · exact tri _ _ _ _ (by norm_num) (by norm_num) (by norm_num) h
      · exact tri _ _ _ _ (by norm_num) (by norm_num) (by norm_num) h
    · left; apply pm; rintro q (h | h)
      · exact tri _ _ _ _ (by norm_num) (by norm_num) (by norm_num) h
      · exact tri _ _ _ _ (by norm_num) (by norm_num) (by norm_num) h
    · left; apply pm; rintro q (h | h)
      · exact tri _ _ _ _ (by norm_num) (by norm_num) (by norm_num) h
      · exact tri _ _ _ _ (by norm_num) (by norm_num) (by norm_num) h
    · left; apply pm; rintro q (h | h)
      · exact tri _ _ _ _ (by norm_num) (by norm_num) (by norm_num) h
      · exact tri _ _ _ _ (by norm_num) (by norm_num) (by norm_num) h
    · left; apply pm; rintro q (h | h)
      · exact tri _ _ _ _ (by norm_num) (by norm_num) (by norm_num) h
      · exact tri _ _ _ _ (by norm_num) (by norm_num) (by norm_num) h
  have hflat : ∀ f ∈ leaning c, Flat f := by
    intro f hf
    simp only [leaning, List.mem_cons, List.not_mem_nil, or_false] at hf
    rcases hf with rfl | rfl | rfl | rfl | rfl | rfl <;> refine ⟨?_, ?_, ?_⟩ <;> simp [dot, cross, sub] <;> norm_num
  have gen : ∀ l : List Quad, (∀ f ∈ l, f ∈ leaning c) → l.foldl (faceStep tol ⟨1 / 4, -1, 3 / 4⟩ ⟨0, 1, 0⟩) acc = acc := by
    intro l hl
    induction l with
    | nil => rfl
    | cons f fs ih =>
      have hf := hl f List.mem_cons_self
      rw [List.foldl_cons, faceStep_eq tol htol _ _ _ _ (hflat f hf), if_neg, ih fun g hg => hl g (List.mem_cons_of_mem _ hg)]
      rintro ⟨h1, h2, _⟩
      rcases hpar f hf (hflat f hf) with h | h
      · exact h h2
      · exact h h1
  exact gen _ fun f hf => hf

/-- The ray meets the box at parameter `t`. -/
def BoxHit (a b o dir : V3) (t : ℝ) : Prop := 0 ≤ t ∧ InBox a b (add o (smul t dir))

/-- **C57**: a ray that meets a surface is lost when the nearest bounding box belongs to a cell of another rank that the ray misses: here the cell of rank 0 leans away from the ray, the cell of rank 1 is hit at
`(1/4, 2, 3/4)`, and no rank reports anything. -/
theorem C57_other_rank_refuted (tol far : ℝ) (htol : 0 < tol) :
    (∃ t, Hit ⟨⟨0, 2, 0⟩, ⟨0, 2, 1⟩, ⟨1, 2, 0⟩, ⟨1, 2, 1⟩⟩ ⟨1 / 4, -1, 3 / 4⟩ ⟨0, 1, 0⟩ t) ∧
    ⟨⟨0, 2, 0⟩, ⟨0, 2, 1⟩, ⟨1, 2, 0⟩, ⟨1, 2, 1⟩⟩ ∈ boxFaces ⟨0, 2, 0⟩ ⟨1, 3, 1⟩ ∧
    getPointsValues tol far 2 [(⟨1 / 4, -1, 3 / 4⟩, ⟨0, 1, 0⟩, 1500, [(0, leaning 0), (1, boxFaces ⟨0, 2, 0⟩ ⟨1, 3, 1⟩)])] = ([], []) := by
  refine ⟨⟨3, by norm_num, ?_⟩, by simp [boxFaces], ?_⟩
  · have := onFace_of_coords ⟨⟨0, 2, 0⟩, ⟨0, 2, 1⟩, ⟨1, 2, 0⟩, ⟨1, 2, 1⟩⟩ (by simp [add, sub]) (3 / 4) (1 / 4) (by norm_num) (by norm_num)
    convert this using 1
    apply V3.ext' <;> simp [add, smul, sub] <;> norm_num
  · have h0 : traceFaces tol far ⟨1 / 4, -1, 3 / 4⟩ ⟨0, 1, 0⟩ (leaning 0) = none := by
      unfold traceFaces; simp only; rw [leaning_missed tol htol]; simp
    simp only [one_div] at h0
    simp [getPointsValues, rankResult, examined, List.range_succ, traceFaces_nil, h0]

/-- **C57**: on one rank, a ray is lost behind eight bounding boxes that it meets without meeting their cells (`nearest(ray, 8)`, `RayTracing.cc:84`): the ninth cell is hit, but the search only returns the first eight. -/
theorem C57_eight_boxes_refuted (tol far : ℝ) (htol : 0 < tol) :
    let cells := ((List.range 8).map fun i : ℕ => (0, leaning (i : ℝ))) ++ [(0, boxFaces ⟨0, 8, 0⟩ ⟨1, 9, 1⟩)]
    (∀ i < 8, BoxHit ⟨0, (i : ℕ), 0⟩ ⟨3, (i : ℕ) + 1, 1⟩ ⟨1 / 4, -1, 3 / 4⟩ ⟨0, 1, 0⟩ ((i : ℕ) + 1)) ∧
    BoxHit ⟨0, 8, 0⟩ ⟨1, 9, 1⟩ ⟨1 / 4, -1, 3 / 4⟩ ⟨0, 1, 0⟩ 9 ∧
    getPointsValues tol far 1 [(⟨1 / 4, -1, 3 / 4⟩, ⟨0, 1, 0⟩, 1500, cells.take 8)] = ([], []) := by
  intro cells
  refine ⟨?_, ?_, ?_⟩
  · intro i hi
    refine ⟨by positivity, ?_⟩
    simp only [InBox, add, smul]
    norm_num
  · refine ⟨by norm_num, ?_⟩
    simp only [InBox, add, smul]
    norm_num
  · have ht : cells.take 8 = (List.range 8).map fun i : ℕ => (0, leaning (i : ℝ)) := by
      simp only [cells]; rw [List.take_left' (by simp)]
    have hex : examined 0 (cells.take 8) = (List.range 8).flatMap fun i : ℕ => leaning (i : ℝ) := by
      rw [ht]
      simp [examined, List.range_succ]
    have h0 : traceFaces tol far ⟨1 / 4, -1, 3 / 4⟩ ⟨0, 1, 0⟩ (examined 0 (cells.take 8)) = none := by
      rw [hex]
      have gen : ∀ (l : List ℕ) (acc : ℝ × V3), (l.flatMap fun i : ℕ => leaning (i : ℝ)).foldl (faceStep tol ⟨1 / 4, -1, 3 / 4⟩ ⟨0, 1, 0⟩) acc = acc := by
        intro l acc
        induction l with
        | nil => rfl
        | cons a as ih => rw [List.flatMap_cons, List.foldl_append, leaning_missed tol htol, ih]
      unfold traceFaces; simp only; rw [gen]; simp
    simp only [one_div] at h0
    simp [getPointsValues, rankResult, List.range_succ, h0]

/-- **C57**: a row whose two points are closer to each other than `1e-10` is treated as parallel to every face: the tolerance is compared with a determinant that scales with the length of the direction. The unit cube
is hit at `(1/2, 1/2, 1)` by the ray, whatever the length of its direction, but not reported. -/
theorem C57_short_direction_refuted (tol far : ℝ) (htol : 0 < tol) (ε : ℝ) (hε : 0 < ε) (h : ε < tol) (_hfar : 0 < far) :
    InBox ⟨0, 0, 0⟩ ⟨1, 1, 1⟩ (add ⟨1 / 2, 1 / 2, 2⟩ (smul (1 / ε) ⟨0, 0, -ε⟩)) ∧
    traceFaces tol far ⟨1 / 2, 1 / 2, 2⟩ ⟨0, 0, -ε⟩ (boxFaces ⟨0, 0, 0⟩ ⟨1, 1, 1⟩) = none := by
  constructor
  · have : 1 / ε * -ε = -1 := by field_simp
    simp only [InBox, add, smul, this]; norm_num
  · simp [traceFaces, boxFaces, faceStep, det, faceArea, dot, cross, sub, htol, abs_of_pos hε, h]

end Verif.ExpData.Ray
