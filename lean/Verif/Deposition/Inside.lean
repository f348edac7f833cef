import Mathlib.Analysis.Convex.PathConnected
import Mathlib.Algebra.Order.Pi
import Mathlib.LinearAlgebra.CrossProduct
import Mathlib.Tactic.Linarith
import Mathlib.Tactic.LinearCombination
import Mathlib.Tactic.FinCases

/-!
# C114: which cells are inside the shape of an STL file

Model of `Geometry::is_within_stl` and its callback, `source/Geometry.cc:48-76, 264-316`.

Simplifications.  Numbers are real.  ArborX is modelled by its contract: the first query returns the triangles that meet
the closed bounding box, the second one *a* triangle nearest to the centre of the cell (which of several is not
specified), with its point closest to the centre.
-/

namespace Verif.Stl

open Set Matrix

/-- Points of space. -/
abbrev P3 := Fin 3 → ℝ

/-- A triangle with its vertices in the order of the file. -/
structure Tri where
  a : P3
  b : P3
  c : P3

/-- The points of a triangle. -/
def Tri.pts (t : Tri) : Set P3 := {x | ∃ s u : ℝ, 0 ≤ s ∧ 0 ≤ u ∧ s + u ≤ 1 ∧ x = t.a + s • (t.b - t.a) + u • (t.c - t.a)}

/-- A cell of the mesh: its bounding box and its centre. -/
structure CellBox where
  lo : P3
  hi : P3
  center : P3

/-- `InsideCallBack::operator()`, `Geometry.cc:50-75`: `p` the predicate's point, `x` the point of the triangle closest to
it. -/
def callback (p : P3) (t : Tri) (x : P3) : Prop :=
  let pa : P3 := x - p;
  let e1 : P3 := t.b - t.a;
  let e2 : P3 := t.c - t.a;
  let nx := e1 1 * e2 2 - e2 1 * e1 2;
  let ny := -(e1 0 * e2 2 - e2 0 * e1 2);
  let nz := e1 0 * e2 1 - e2 0 * e1 1;
  pa 0 * nx + pa 1 * ny + pa 2 * nz > 0

/-- The result of the nearest query, lines 305-313; without triangles nothing is returned and `inside` keeps its
initial value. -/
def nearestInside (p : P3) : Option (Tri × P3) → Prop
  | none => False
  | some (t, x) => callback p t x

/-- `Geometry::is_within_stl`, lines 264-316.  `near` is what ArborX answers to the nearest query for a point. -/
def isWithinStl (dim : ℕ) (tris : List Tri) (near : P3 → Option (Tri × P3)) (c : CellBox) : Prop :=
  if dim = 2 then False
  else (¬ ∃ t ∈ tris, (t.pts ∩ Icc c.lo c.hi).Nonempty) ∧ nearestInside c.center (near c.center)

/-! ## Specification -/

/-- Squared distance. -/
def sqDist (p q : P3) : ℝ := (p - q) ⬝ᵥ (p - q)

/-- The contract of the nearest query for `p`: some triangle, its point closest to `p`, and no triangle is closer. -/
def IsNearest (tris : List Tri) (near : P3 → Option (Tri × P3)) (p : P3) : Prop :=
  ∃ t x, near p = some (t, x) ∧ t ∈ tris ∧ x ∈ t.pts ∧ ∀ t' ∈ tris, ∀ y ∈ t'.pts, sqDist p x ≤ sqDist p y

/-- The normal by the right-hand rule. -/
def Tri.normal (t : Tri) : P3 := crossProduct (t.b - t.a) (t.c - t.a)

/-- The triangles are the surface of the solid `S`. -/
def Covers (tris : List Tri) (S : Set P3) : Prop := ∀ x, x ∈ frontier S ↔ ∃ t ∈ tris, x ∈ t.pts

/-- The points of a triangle that are on none of its edges. -/
def Tri.inner (t : Tri) : Set P3 := {x | ∃ s u : ℝ, 0 < s ∧ 0 < u ∧ s + u < 1 ∧ x = t.a + s • (t.b - t.a) + u • (t.c - t.a)}

/-- The normals point outwards: close to an inner point of a triangle the solid is on the side against the normal
only. -/
def Outward (tris : List Tri) (S : Set P3) : Prop :=
  ∀ t ∈ tris, t.normal ≠ 0 ∧ ∀ x ∈ t.inner, ∃ ε₀ > (0 : ℝ), ∀ ε, 0 < ε → ε < ε₀ → x - ε • t.normal ∈ S ∧ x + ε • t.normal ∉ S

/-- A convex solid: the intersection of the half spaces behind the triangles. -/
def ConvexSolid (tris : List Tri) (S : Set P3) : Prop :=
  (∀ t ∈ tris, t.normal ≠ 0) ∧ ∀ x, x ∈ S ↔ ∀ t ∈ tris, t.normal ⬝ᵥ (x - t.a) ≤ 0

/-- Faces that meet do so at an angle of at least 90 degrees inside the solid. -/
def NoAcuteEdge (tris : List Tri) (S : Set P3) : Prop :=
  ∀ x ∈ S, ∀ t ∈ tris, ∀ t' ∈ tris, t.normal ⬝ᵥ (x - t.a) = 0 → t'.normal ⬝ᵥ (x - t'.a) = 0 → 0 ≤ t.normal ⬝ᵥ t'.normal

/-! ## Lemmas -/

theorem callback_iff (p : P3) (t : Tri) (x : P3) : callback p t x ↔ 0 < t.normal ⬝ᵥ (x - p) := by
  unfold callback Tri.normal
  rw [cross_apply]
  simp only [vec3_dotProduct, gt_iff_lt, Pi.sub_apply]
  simp
  constructor <;> intro h <;> linarith

/-- A connected set that does not meet the surface is inside or outside. -/
theorem connected_inside {S T : Set P3} (hT : IsPreconnected T) (hf : ∀ x ∈ T, x ∉ frontier S) {p : P3} (hp : p ∈ T)
    (hS : p ∈ S) : T ⊆ interior S := by
  intro x hx
  by_contra hxS
  have hcov : T ⊆ interior S ∪ (closure S)ᶜ := by
    intro y hy
    by_cases h1 : y ∈ interior S
    · exact Or.inl h1
    · right
      intro h2
      exact hf y hy ⟨h2, h1⟩
  have h1 : (T ∩ interior S).Nonempty := by
    refine ⟨p, hp, ?_⟩
    by_contra h
    exact hf p hp ⟨subset_closure hS, h⟩
  have h2 : (T ∩ (closure S)ᶜ).Nonempty := ⟨x, hx, (hcov hx).resolve_left hxS⟩
  obtain ⟨y, -, hy1, hy2⟩ := hT _ _ isOpen_interior isClosed_closure.isOpen_compl hcov h1 h2
  exact hy2 (subset_closure (interior_subset hy1))

theorem sqDist_seg (p x : P3) (θ : ℝ) : sqDist p (p + θ • (x - p)) = θ ^ 2 * sqDist p x := by
  unfold sqDist
  simp only [vec3_dotProduct, Pi.sub_apply, Pi.add_apply, Pi.smul_apply, smul_eq_mul]
  ring

theorem sqDist_nonneg (p x : P3) : 0 ≤ sqDist p x := by
  unfold sqDist
  simp only [vec3_dotProduct]
  nlinarith [mul_self_nonneg ((p - x) 0), mul_self_nonneg ((p - x) 1), mul_self_nonneg ((p - x) 2)]

theorem sqDist_eq_zero (p x : P3) (h : sqDist p x = 0) : p = x := by
  unfold sqDist at h
  simp only [vec3_dotProduct, Pi.sub_apply] at h
  have h0 := mul_self_nonneg (p 0 - x 0)
  have h1 := mul_self_nonneg (p 1 - x 1)
  have h2 := mul_self_nonneg (p 2 - x 2)
  funext i
  fin_cases i
  · exact sub_eq_zero.1 (mul_self_eq_zero.1 (show (p 0 - x 0) * (p 0 - x 0) = 0 by linarith))
  · exact sub_eq_zero.1 (mul_self_eq_zero.1 (show (p 1 - x 1) * (p 1 - x 1) = 0 by linarith))
  · exact sub_eq_zero.1 (mul_self_eq_zero.1 (show (p 2 - x 2) * (p 2 - x 2) = 0 by linarith))

/-- Before its end the way from `p` to the nearest point of the surface does not meet the surface. -/
theorem way_free (tris : List Tri) (S : Set P3) (hc : Covers tris S) (p x : P3) (hne : p ≠ x)
    (hmin : ∀ t' ∈ tris, ∀ y ∈ t'.pts, sqDist p x ≤ sqDist p y) (θ : ℝ) (h0 : 0 ≤ θ) (h1 : θ < 1) :
    p + θ • (x - p) ∉ frontier S := by
  intro hf
  obtain ⟨t, ht, hy⟩ := (hc _).1 hf
  have h := hmin t ht _ hy
  rw [sqDist_seg] at h
  have hpos : 0 < sqDist p x := lt_of_le_of_ne (sqDist_nonneg p x) fun h => hne (sqDist_eq_zero p x h.symm)
  have hθ : θ ^ 2 < 1 := by nlinarith
  nlinarith

/-- The set of the points before the end of a way. -/
def way (p x : P3) : Set P3 := {y | ∃ θ : ℝ, 0 ≤ θ ∧ θ < 1 ∧ y = p + θ • (x - p)}

theorem way_preconnected (p x : P3) : IsPreconnected (way p x) := by
  have h : way p x = (fun θ : ℝ => p + θ • (x - p)) '' Ico 0 1 := by
    ext y
    constructor
    · rintro ⟨θ, h0, h1, rfl⟩
      exact ⟨θ, ⟨h0, h1⟩, rfl⟩
    · rintro ⟨θ, ⟨h0, h1⟩, rfl⟩
      exact ⟨θ, h0, h1, rfl⟩
  rw [h]
  exact isPreconnected_Ico.image _ (by fun_prop)

/-- The way to the nearest surface point is inside the solid exactly if its start is. -/
theorem way_side (tris : List Tri) (S : Set P3) (hc : Covers tris S) (p x : P3) (hne : p ≠ x)
    (hmin : ∀ t' ∈ tris, ∀ y ∈ t'.pts, sqDist p x ≤ sqDist p y) (y : P3) (hy : y ∈ way p x) : y ∈ S ↔ p ∈ S := by
  have hf : ∀ y ∈ way p x, y ∉ frontier S := by
    rintro y ⟨θ, h0, h1, rfl⟩
    exact way_free tris S hc p x hne hmin θ h0 h1
  have hp : p ∈ way p x := ⟨0, le_refl _, one_pos, by simp⟩
  constructor
  · intro h
    exact interior_subset (connected_inside (way_preconnected p x) hf hy h hp)
  · intro h
    exact interior_subset (connected_inside (way_preconnected p x) hf hp h hy)

/-- The whole box is inside the solid exactly if its centre is, when no triangle meets it. -/
theorem box_side (tris : List Tri) (S : Set P3) (hc : Covers tris S) (c : CellBox) (hcen : c.center ∈ Icc c.lo c.hi)
    (hno : ¬ ∃ t ∈ tris, (t.pts ∩ Icc c.lo c.hi).Nonempty) : Icc c.lo c.hi ⊆ interior S ↔ c.center ∈ S := by
  constructor
  · intro h
    exact interior_subset (h hcen)
  · intro h
    refine connected_inside (convex_Icc (𝕜 := ℝ) c.lo c.hi).isPreconnected ?_ hcen h
    intro x hx hf
    obtain ⟨t, ht, hxt⟩ := (hc x).1 hf
    exact hno ⟨t, ht, x, hxt, hx⟩

/-- At a closest point that is on no edge the direction is that of the normal. -/
theorem inner_normal (t : Tri) (p x : P3) (hx : x ∈ t.inner) (hn : t.normal ≠ 0) (hmin : ∀ y ∈ t.pts, sqDist p x ≤ sqDist p y) :
    ∃ k : ℝ, x - p = k • t.normal := by
  obtain ⟨s, u, hs, hu, hsu, hxe⟩ := hx
  -- moving along an edge direction does not get closer
  have hmove : ∀ e : P3, (∃ δ > (0 : ℝ), ∀ r : ℝ, |r| < δ → x + r • e ∈ t.pts) → (x - p) ⬝ᵥ e = 0 := by
    rintro e ⟨δ, hδ, hin⟩
    by_contra hne
    set D := (x - p) ⬝ᵥ e with hD
    set E := e ⬝ᵥ e with hE
    have hq : ∀ r : ℝ, |r| < δ → 0 ≤ 2 * r * D + r ^ 2 * E := by
      intro r hr
      have h := hmin _ (hin r hr)
      have e1 : sqDist p (x + r • e) = sqDist p x + 2 * r * D + r ^ 2 * E := by
        unfold sqDist
        simp only [hD, hE, vec3_dotProduct, Pi.sub_apply, Pi.add_apply, Pi.smul_apply, smul_eq_mul]
        ring
      linarith
    have hE0 : 0 ≤ E := by
      simp only [hE, vec3_dotProduct]
      nlinarith [mul_self_nonneg (e 0), mul_self_nonneg (e 1), mul_self_nonneg (e 2)]
    -- a small step against the sign of D
    obtain ⟨r, hr0, hr1, hr2⟩ : ∃ r : ℝ, 0 < r ∧ r * |D| < δ ∧ r * E < 2 := by
      refine ⟨min (δ / (2 * (|D| + 1))) (1 / (E + 1)), ?_, ?_, ?_⟩
      · exact lt_min (by positivity) (by positivity)
      · have h1 : min (δ / (2 * (|D| + 1))) (1 / (E + 1)) * |D| ≤ δ / (2 * (|D| + 1)) * |D| :=
          mul_le_mul_of_nonneg_right (min_le_left _ _) (abs_nonneg _)
        have h2 : δ / (2 * (|D| + 1)) * |D| < δ := by
          rw [div_mul_eq_mul_div, div_lt_iff₀ (by positivity)]
          nlinarith [abs_nonneg D]
        linarith
      · have h1 : min (δ / (2 * (|D| + 1))) (1 / (E + 1)) * E ≤ 1 / (E + 1) * E :=
          mul_le_mul_of_nonneg_right (min_le_right _ _) hE0
        have h2 : 1 / (E + 1) * E < 2 := by
          rw [div_mul_eq_mul_div, div_lt_iff₀ (by positivity)]
          linarith
        linarith
    have h := hq (-(r * D)) (by rw [abs_neg, abs_mul, abs_of_pos hr0]; exact hr1)
    have hD2 : 0 < D * D := mul_self_pos.2 hne
    have h3 : r * (D * D) * (r * E) < r * (D * D) * 2 := mul_lt_mul_of_pos_left hr2 (by positivity)
    nlinarith
  have hb : (x - p) ⬝ᵥ (t.b - t.a) = 0 := by
    refine hmove _ ⟨min s (1 - (s + u)), lt_min hs (by linarith), fun r hr => ?_⟩
    have h1 : |r| < s := lt_of_lt_of_le hr (min_le_left _ _)
    have h2 : |r| < 1 - (s + u) := lt_of_lt_of_le hr (min_le_right _ _)
    rw [abs_lt] at h1 h2
    exact ⟨s + r, u, by linarith, hu.le, by linarith, by rw [hxe]; module⟩
  have hcc : (x - p) ⬝ᵥ (t.c - t.a) = 0 := by
    refine hmove _ ⟨min u (1 - (s + u)), lt_min hu (by linarith), fun r hr => ?_⟩
    have h1 : |r| < u := lt_of_lt_of_le hr (min_le_left _ _)
    have h2 : |r| < 1 - (s + u) := lt_of_lt_of_le hr (min_le_right _ _)
    rw [abs_lt] at h1 h2
    exact ⟨s, u + r, hs.le, by linarith, by linarith, by rw [hxe]; module⟩
  -- orthogonal to both edges: along the normal
  have hN : 0 < t.normal ⬝ᵥ t.normal := by
    rcases lt_or_eq_of_le (show 0 ≤ t.normal ⬝ᵥ t.normal by
      simp only [vec3_dotProduct]
      nlinarith [mul_self_nonneg (t.normal 0), mul_self_nonneg (t.normal 1), mul_self_nonneg (t.normal 2)]) with h | h
    · exact h
    · exfalso
      apply hn
      have := sqDist_eq_zero t.normal 0 (by unfold sqDist; rw [sub_zero]; exact h.symm)
      exact this
  refine ⟨((x - p) ⬝ᵥ t.normal) / (t.normal ⬝ᵥ t.normal), ?_⟩
  have key : (t.normal ⬝ᵥ t.normal) • (x - p) = ((x - p) ⬝ᵥ t.normal) • t.normal := by
    have h1 := hb
    have h2 := hcc
    unfold Tri.normal
    generalize t.b - t.a = e at h1 ⊢
    generalize t.c - t.a = f at h2 ⊢
    generalize x - p = d at h1 h2 ⊢
    rw [cross_apply]
    simp only [vec3_dotProduct] at h1 h2 ⊢
    funext i
    fin_cases i <;> simp [vec3_dotProduct] <;> grind
  rw [div_eq_inv_mul, mul_smul, ← key, smul_smul, inv_mul_cancel₀ hN.ne', one_smul]

theorem pts_plane (t : Tri) (x : P3) (hx : x ∈ t.pts) : t.normal ⬝ᵥ (x - t.a) = 0 := by
  obtain ⟨s, u, -, -, -, rfl⟩ := hx
  unfold Tri.normal
  generalize he : t.b - t.a = e
  generalize hf : t.c - t.a = f
  have : t.a + s • e + u • f - t.a = s • e + u • f := by abel
  rw [this, cross_apply]
  simp only [vec3_dotProduct, Pi.add_apply, Pi.smul_apply, smul_eq_mul]
  simp
  ring

theorem normal_pos (t : Tri) (hn : t.normal ≠ 0) : 0 < t.normal ⬝ᵥ t.normal := by
  rcases lt_or_eq_of_le (show 0 ≤ t.normal ⬝ᵥ t.normal by
    simp only [vec3_dotProduct]
    nlinarith [mul_self_nonneg (t.normal 0), mul_self_nonneg (t.normal 1), mul_self_nonneg (t.normal 2)]) with h | h
  · exact h
  · exfalso
    exact hn (sqDist_eq_zero t.normal 0 (by unfold sqDist; rw [sub_zero]; exact h.symm))

/-- The interior of a convex solid is strictly behind every face. -/
theorem interior_strict (tris : List Tri) (S : Set P3) (hS : ConvexSolid tris S) (p : P3) (hp : p ∈ interior S) (t : Tri)
    (ht : t ∈ tris) : t.normal ⬝ᵥ (p - t.a) < 0 := by
  have hN := normal_pos t (hS.1 t ht)
  -- p + ε n is still in S for some ε
  have hcont : Continuous fun ε : ℝ => p + ε • t.normal := by fun_prop
  have hev : ∀ᶠ ε in nhds (0 : ℝ), p + ε • t.normal ∈ interior S := by
    refine hcont.continuousAt.eventually_mem ?_
    have : p + (0 : ℝ) • t.normal = p := by simp
    rw [this]
    exact isOpen_interior.mem_nhds hp
  obtain ⟨δ, hδ, hball⟩ := Metric.eventually_nhds_iff.1 hev
  have h := hball (y := δ / 2) (by rw [Real.dist_eq, sub_zero, abs_of_pos (by positivity)]; linarith)
  have h2 := (hS.2 _).1 (interior_subset h) t ht
  have e : t.normal ⬝ᵥ (p + (δ / 2) • t.normal - t.a) = t.normal ⬝ᵥ (p - t.a) + δ / 2 * (t.normal ⬝ᵥ t.normal) := by
    simp only [vec3_dotProduct, Pi.sub_apply, Pi.add_apply, Pi.smul_apply, smul_eq_mul]
    ring
  rw [e] at h2
  have : 0 < δ / 2 * (t.normal ⬝ᵥ t.normal) := by positivity
  linarith

/-- A small step against a normal stays behind every face, if faces that meet there do so without an acute angle. -/
theorem step_back (l : List Tri) (n x : P3) (hx : ∀ t ∈ l, t.normal ⬝ᵥ (x - t.a) ≤ 0)
    (hn : ∀ t ∈ l, t.normal ⬝ᵥ (x - t.a) = 0 → 0 ≤ t.normal ⬝ᵥ n) :
    ∃ δ > (0 : ℝ), ∀ ε, 0 ≤ ε → ε ≤ δ → ∀ t ∈ l, t.normal ⬝ᵥ (x - ε • n - t.a) ≤ 0 := by
  induction l with
  | nil => exact ⟨1, one_pos, by simp⟩
  | cons t l ih =>
    obtain ⟨δ, hδ, h⟩ := ih (fun t ht => hx t (List.mem_cons_of_mem _ ht)) fun t ht => hn t (List.mem_cons_of_mem _ ht)
    have e : ∀ ε : ℝ, t.normal ⬝ᵥ (x - ε • n - t.a) = t.normal ⬝ᵥ (x - t.a) - ε * (t.normal ⬝ᵥ n) := by
      intro ε
      simp only [vec3_dotProduct, Pi.sub_apply, Pi.smul_apply, smul_eq_mul]
      ring
    rcases lt_or_eq_of_le (hx t (by simp)) with h0 | h0
    · refine ⟨min δ (-(t.normal ⬝ᵥ (x - t.a)) / (|t.normal ⬝ᵥ n| + 1)), lt_min hδ (div_pos (by linarith) (by positivity)), ?_⟩
      intro ε hε0 hε t' ht'
      rcases List.mem_cons.1 ht' with rfl | ht'
      · rw [e]
        have h1 : ε ≤ -(t'.normal ⬝ᵥ (x - t'.a)) / (|t'.normal ⬝ᵥ n| + 1) := hε.trans (min_le_right _ _)
        rw [le_div_iff₀ (by positivity)] at h1
        have h2 := neg_abs_le (t'.normal ⬝ᵥ n)
        nlinarith
      · exact h ε hε0 (hε.trans (min_le_left _ _)) t' ht'
    · refine ⟨δ, hδ, ?_⟩
      intro ε hε0 hε t' ht'
      rcases List.mem_cons.1 ht' with rfl | ht'
      · rw [e, h0]
        have := mul_nonneg hε0 (hn t' (by simp) h0)
        linarith
      · exact h ε hε0 hε t' ht'

theorem convex_closed (tris : List Tri) (S : Set P3) (hS : ConvexSolid tris S) : IsClosed S := by
  have : S = ⋂ t ∈ tris, {y : P3 | t.normal ⬝ᵥ (y - t.a) ≤ 0} := by
    ext y
    rw [hS.2 y]
    simp
  rw [this]
  refine isClosed_biInter fun t _ => isClosed_le ?_ continuous_const
  simp only [vec3_dotProduct]
  fun_prop

/-! ## Theorems -/

/-- **C114**, any solid (not only convex ones) with outward normals whose triangles cover its surface: if the point of the
surface nearest to the centre of a cell is on no edge, the cell is accepted exactly if it is completely inside the solid.
Missing: nearest points on an edge, see `C114_acute_refuted`. -/
theorem C114_face_partial (tris : List Tri) (S : Set P3) (hcov : Covers tris S) (hout : Outward tris S)
    (near : P3 → Option (Tri × P3)) (c : CellBox) (hnear : IsNearest tris near c.center) (hcen : c.center ∈ Icc c.lo c.hi)
    (hinner : ∀ t x, near c.center = some (t, x) → x ∈ t.inner) :
    isWithinStl 3 tris near c ↔ Icc c.lo c.hi ⊆ interior S := by
  unfold isWithinStl
  rw [if_neg (by decide)]
  obtain ⟨t, x, hx1, ht, hx2, hmin⟩ := hnear
  have hi := hinner t x hx1
  have hne' : Icc c.lo c.hi ⊆ interior S ↔
      (¬ ∃ t ∈ tris, (t.pts ∩ Icc c.lo c.hi).Nonempty) ∧ Icc c.lo c.hi ⊆ interior S := by
    refine ⟨fun h => ⟨?_, h⟩, fun h => h.2⟩
    rintro ⟨t', ht', y, hy1, hy2⟩
    exact ((hcov y).2 ⟨t', ht', hy1⟩).2 (h hy2)
  rw [hne']
  refine and_congr_right fun hno => ?_
  rw [box_side tris S hcov c hcen hno, hx1]
  show callback c.center t x ↔ _
  rw [callback_iff]
  set p := c.center
  have hpx : p ≠ x := by
    intro h
    exact hno ⟨t, ht, x, hx2, h ▸ hcen⟩
  obtain ⟨hn, ho⟩ := hout t ht
  obtain ⟨k, hk⟩ := inner_normal t p x hi hn (hmin t ht)
  obtain ⟨ε₀, hε₀, hside⟩ := ho x hi
  have hN := normal_pos t hn
  have hk0 : k ≠ 0 := by
    intro h
    rw [h, zero_smul] at hk
    exact hpx (sub_eq_zero.1 hk).symm
  rw [hk, dotProduct_smul, smul_eq_mul]
  -- the point of the way just before `x`
  obtain ⟨η, hη0, hη1, hη2⟩ : ∃ η : ℝ, 0 < η ∧ η ≤ 1 ∧ η * |k| < ε₀ := by
    refine ⟨min 1 (ε₀ / (2 * (|k| + 1))), lt_min one_pos (by positivity), min_le_left _ _, ?_⟩
    have h1 : min 1 (ε₀ / (2 * (|k| + 1))) * |k| ≤ ε₀ / (2 * (|k| + 1)) * |k| :=
      mul_le_mul_of_nonneg_right (min_le_right _ _) (abs_nonneg _)
    have h2 : ε₀ / (2 * (|k| + 1)) * |k| < ε₀ := by
      rw [div_mul_eq_mul_div, div_lt_iff₀ (by positivity)]
      nlinarith [abs_nonneg k]
    linarith
  have hw : p + (1 - η) • (x - p) ∈ way p x := ⟨1 - η, by linarith, by linarith, rfl⟩
  have hs := way_side tris S hcov p x hpx hmin _ hw
  have hpt : p + (1 - η) • (x - p) = x - (η * k) • t.normal := by
    rw [sub_smul, one_smul, hk, smul_smul, ← hk]
    abel
  rw [hpt] at hs
  rw [← hs]
  rcases lt_or_gt_of_ne hk0 with hneg | hpos
  · have h1 : ¬ 0 < k * (t.normal ⬝ᵥ t.normal) := by nlinarith
    have h2 := (hside (η * |k|) (by positivity) hη2).2
    rw [abs_of_neg hneg] at h2
    have h3 : x + (η * -k) • t.normal = x - (η * k) • t.normal := by
      rw [mul_neg, neg_smul]; abel
    rw [h3] at h2
    simp [h1, h2]
  · have h1 : 0 < k * (t.normal ⬝ᵥ t.normal) := by positivity
    have h2 := (hside (η * |k|) (by positivity) hη2).1
    rw [abs_of_pos hpos] at h2
    simp [h1, h2]

/-- **C114**, convex solids: a cell inside the solid is accepted, whichever of several nearest triangles ArborX
returns. -/
theorem C114_convex_inside (tris : List Tri) (S : Set P3) (hS : ConvexSolid tris S) (near : P3 → Option (Tri × P3))
    (c : CellBox) (hnear : IsNearest tris near c.center) (hcen : c.center ∈ Icc c.lo c.hi) (hin : Icc c.lo c.hi ⊆ interior S) :
    isWithinStl 3 tris near c := by
  unfold isWithinStl
  rw [if_neg (by decide)]
  obtain ⟨t, x, hx1, ht, hx2, -⟩ := hnear
  refine ⟨?_, ?_⟩
  · rintro ⟨t', ht', y, hy1, hy2⟩
    have h1 := interior_strict tris S hS y (hin hy2) t' ht'
    rw [pts_plane t' y hy1] at h1
    exact lt_irrefl _ h1
  · rw [hx1]
    show callback c.center t x
    rw [callback_iff]
    have h1 := interior_strict tris S hS c.center (hin hcen) t ht
    have h2 := pts_plane t x hx2
    have e : t.normal ⬝ᵥ (x - c.center) = t.normal ⬝ᵥ (x - t.a) - t.normal ⬝ᵥ (c.center - t.a) := by
      simp only [vec3_dotProduct, Pi.sub_apply]
      ring
    rw [e, h2]
    linarith

/-- **C114**, convex solids without acute edges (boxes, for example): a cell is accepted exactly if it is completely
inside, whichever of several nearest triangles ArborX returns. -/
theorem C114_convex (tris : List Tri) (S : Set P3) (hS : ConvexSolid tris S) (hcov : Covers tris S)
    (hang : NoAcuteEdge tris S) (near : P3 → Option (Tri × P3)) (c : CellBox) (hnear : IsNearest tris near c.center)
    (hcen : c.center ∈ Icc c.lo c.hi) : isWithinStl 3 tris near c ↔ Icc c.lo c.hi ⊆ interior S := by
  refine ⟨fun h => ?_, C114_convex_inside tris S hS near c hnear hcen⟩
  unfold isWithinStl at h
  rw [if_neg (by decide)] at h
  obtain ⟨hno, hn⟩ := h
  rw [box_side tris S hcov c hcen hno]
  by_contra hp
  obtain ⟨t, x, hx1, ht, hx2, hmin⟩ := hnear
  rw [hx1] at hn
  have hn : callback c.center t x := hn
  rw [callback_iff] at hn
  set p := c.center with hpdef
  -- the solid is not nearer than its surface
  have hproj : ∀ y ∈ S, sqDist p x ≤ sqDist p y := by
    intro y hy
    have hpre := (convex_segment (𝕜 := ℝ) p y).isPreconnected
    obtain ⟨z, hz1, hz2⟩ : ∃ z ∈ segment ℝ p y, z ∈ frontier S := by
      by_contra hcon
      push Not at hcon
      exact hp (interior_subset (connected_inside hpre hcon (right_mem_segment ℝ p y) hy (left_mem_segment ℝ p y)))
    obtain ⟨t', ht', hz⟩ := (hcov z).1 hz2
    refine (hmin t' ht' z hz).trans ?_
    rw [segment_eq_image'] at hz1
    obtain ⟨θ, ⟨h0, h1⟩, rfl⟩ := hz1
    dsimp only
    rw [sqDist_seg]
    have := sqDist_nonneg p y
    have hθ : θ ^ 2 ≤ 1 := by nlinarith
    nlinarith
  -- the nearest point belongs to the solid
  have hxS : x ∈ S := by
    have h1 := ((hcov x).2 ⟨t, ht, hx2⟩).1
    rwa [(convex_closed tris S hS).closure_eq] at h1
  -- a small step from it against the normal stays in the solid and gets closer
  obtain ⟨δ, hδ, hst⟩ := step_back tris t.normal x ((hS.2 x).1 hxS)
    fun t' ht' h0 => hang x hxS t' ht' t ht h0 (pts_plane t x hx2)
  have hN := normal_pos t (hS.1 t ht)
  set D := t.normal ⬝ᵥ (x - p) with hD
  set N := t.normal ⬝ᵥ t.normal with hNd
  set ε := min δ (D / N) with hε
  have hε0 : 0 < ε := lt_min hδ (by positivity)
  have hεN : ε * N ≤ D := by
    have := min_le_right δ (D / N)
    rw [← hε, le_div_iff₀ hN] at this
    exact this
  have h1 := hproj (x - ε • t.normal) ((hS.2 _).2 fun t' ht' => hst ε hε0.le (min_le_left _ _) t' ht')
  have e : sqDist p (x - ε • t.normal) = sqDist p x - 2 * ε * D + ε ^ 2 * N := by
    unfold sqDist
    simp only [hD, hNd, vec3_dotProduct, Pi.sub_apply, Pi.smul_apply, smul_eq_mul]
    ring
  rw [e] at h1
  have : ε * (ε * N) ≤ ε * D := mul_le_mul_of_nonneg_left hεN hε0.le
  nlinarith

/-- **C114**: in two dimensions no cell is inside, so with an STL file nothing is ever deposited. -/
theorem C114_two_dim_refuted (tris : List Tri) (near : P3 → Option (Tri × P3)) (c : CellBox) : ¬ isWithinStl 2 tris near c := by
  unfold isWithinStl
  rw [if_pos rfl]
  exact not_false

/-! ### Concrete cases -/

/-- A convex solid is bounded by its triangles if their vertices belong to it and every point on the plane of a face
is in some triangle. -/
theorem covers_convex (tris : List Tri) (S : Set P3) (hS : ConvexSolid tris S) (hv : ∀ t ∈ tris, t.a ∈ S ∧ t.b ∈ S ∧ t.c ∈ S)
    (hface : ∀ x ∈ S, ∀ t ∈ tris, t.normal ⬝ᵥ (x - t.a) = 0 → ∃ t' ∈ tris, x ∈ t'.pts) : Covers tris S := by
  intro x
  constructor
  · intro hx
    have hxS : x ∈ S := by
      have h1 := hx.1
      rwa [(convex_closed tris S hS).closure_eq] at h1
    by_contra hcon
    apply hx.2
    have hstrict : ∀ t ∈ tris, t.normal ⬝ᵥ (x - t.a) < 0 := by
      intro t ht
      rcases lt_or_eq_of_le ((hS.2 x).1 hxS t ht) with h | h
      · exact h
      · exact absurd (hface x hxS t ht h) hcon
    have hopen : IsOpen {y : P3 | ∀ t ∈ tris, t.normal ⬝ᵥ (y - t.a) < 0} := by
      have : {y : P3 | ∀ t ∈ tris, t.normal ⬝ᵥ (y - t.a) < 0} = ⋂ t ∈ {t | t ∈ tris}, {y : P3 | t.normal ⬝ᵥ (y - t.a) < 0} := by
        ext y; simp
      rw [this]
      refine Set.Finite.isOpen_biInter (List.finite_toSet tris) fun t _ => isOpen_lt ?_ continuous_const
      simp only [vec3_dotProduct]
      fun_prop
    refine mem_interior.2 ⟨_, ?_, hopen, hstrict⟩
    intro y hy
    exact (hS.2 y).2 fun t ht => (hy t ht).le
  · rintro ⟨t, ht, hxt⟩
    obtain ⟨ha, hb, hc⟩ := hv t ht
    have hxS : x ∈ S := by
      refine (hS.2 x).2 fun t' ht' => ?_
      have h1 := (hS.2 _).1 ha t' ht'
      have h2 := (hS.2 _).1 hb t' ht'
      have h3 := (hS.2 _).1 hc t' ht'
      obtain ⟨s, u, hs, hu, hsu, rfl⟩ := hxt
      have e : t'.normal ⬝ᵥ (t.a + s • (t.b - t.a) + u • (t.c - t.a) - t'.a) = (1 - s - u) * (t'.normal ⬝ᵥ (t.a - t'.a)) +
          s * (t'.normal ⬝ᵥ (t.b - t'.a)) + u * (t'.normal ⬝ᵥ (t.c - t'.a)) := by
        simp only [vec3_dotProduct, Pi.sub_apply, Pi.add_apply, Pi.smul_apply, smul_eq_mul]
        ring
      rw [e]
      have g1 := mul_nonneg (show 0 ≤ 1 - s - u by linarith) (neg_nonneg.2 h1)
      have g2 := mul_nonneg hs (neg_nonneg.2 h2)
      have g3 := mul_nonneg hu (neg_nonneg.2 h3)
      linarith
    refine ⟨subset_closure hxS, fun hint => ?_⟩
    have := interior_strict tris S hS x hint t ht
    rw [pts_plane t x hxt] at this
    exact lt_irrefl _ this

/-! A box without acute edges: the unit cube. -/

/-- The unit cube, two triangles per face. -/
def cube : List Tri :=
  [⟨![0, 0, 0], ![0, 1, 0], ![1, 1, 0]⟩, ⟨![0, 0, 0], ![1, 1, 0], ![1, 0, 0]⟩,
    ⟨![0, 0, 1], ![1, 1, 1], ![0, 1, 1]⟩, ⟨![0, 0, 1], ![1, 0, 1], ![1, 1, 1]⟩,
    ⟨![0, 0, 0], ![1, 0, 1], ![0, 0, 1]⟩, ⟨![0, 0, 0], ![1, 0, 0], ![1, 0, 1]⟩,
    ⟨![0, 1, 0], ![0, 1, 1], ![1, 1, 1]⟩, ⟨![0, 1, 0], ![1, 1, 1], ![1, 1, 0]⟩,
    ⟨![0, 0, 0], ![0, 0, 1], ![0, 1, 1]⟩, ⟨![0, 0, 0], ![0, 1, 1], ![0, 1, 0]⟩,
    ⟨![1, 0, 0], ![1, 1, 1], ![1, 0, 1]⟩, ⟨![1, 0, 0], ![1, 1, 0], ![1, 1, 1]⟩]

/-- The solid. -/
def cubeSolid : Set P3 := {x | ∀ i, 0 ≤ x i ∧ x i ≤ 1}

theorem cube_normals : cube.map Tri.normal = [![0, 0, -1], ![0, 0, -1], ![0, 0, 1], ![0, 0, 1], ![0, -1, 0], ![0, -1, 0],
    ![0, 1, 0], ![0, 1, 0], ![-1, 0, 0], ![-1, 0, 0], ![1, 0, 0], ![1, 0, 0]] := by
  simp only [cube, List.map_cons, List.map_nil, Tri.normal, cross_apply]
  norm_num [Matrix.cons_val_two]

/-- The normals as a list beside the triangles. -/
theorem cube_mem {t : Tri} (ht : t ∈ cube) :
    (t.normal = ![0, 0, -1] ∧ t.a 2 = 0) ∨ (t.normal = ![0, 0, 1] ∧ t.a 2 = 1) ∨ (t.normal = ![0, -1, 0] ∧ t.a 1 = 0) ∨
    (t.normal = ![0, 1, 0] ∧ t.a 1 = 1) ∨ (t.normal = ![-1, 0, 0] ∧ t.a 0 = 0) ∨ (t.normal = ![1, 0, 0] ∧ t.a 0 = 1) := by
  have hn := cube_normals
  simp only [cube, List.map_cons, List.map_nil, List.cons.injEq, and_true] at hn
  obtain ⟨n0, n1, n2, n3, n4, n5, n6, n7, n8, n9, n10, n11⟩ := hn
  simp only [cube, List.mem_cons, List.not_mem_nil, or_false] at ht
  rcases ht with rfl | rfl | rfl | rfl | rfl | rfl | rfl | rfl | rfl | rfl | rfl | rfl
  · exact Or.inl ⟨n0, rfl⟩
  · exact Or.inl ⟨n1, rfl⟩
  · exact Or.inr (Or.inl ⟨n2, rfl⟩)
  · exact Or.inr (Or.inl ⟨n3, rfl⟩)
  · exact Or.inr (Or.inr (Or.inl ⟨n4, rfl⟩))
  · exact Or.inr (Or.inr (Or.inl ⟨n5, rfl⟩))
  · exact Or.inr (Or.inr (Or.inr (Or.inl ⟨n6, rfl⟩)))
  · exact Or.inr (Or.inr (Or.inr (Or.inl ⟨n7, rfl⟩)))
  · exact Or.inr (Or.inr (Or.inr (Or.inr (Or.inl ⟨n8, rfl⟩))))
  · exact Or.inr (Or.inr (Or.inr (Or.inr (Or.inl ⟨n9, rfl⟩))))
  · exact Or.inr (Or.inr (Or.inr (Or.inr (Or.inr ⟨n10, rfl⟩))))
  · exact Or.inr (Or.inr (Or.inr (Or.inr (Or.inr ⟨n11, rfl⟩))))

/-- The half space behind a triangle of the cube. -/
theorem cube_dot (x a : P3) :
    (![0, 0, -1] : P3) ⬝ᵥ (x - a) = a 2 - x 2 ∧ (![0, 0, 1] : P3) ⬝ᵥ (x - a) = x 2 - a 2 ∧
    (![0, -1, 0] : P3) ⬝ᵥ (x - a) = a 1 - x 1 ∧ (![0, 1, 0] : P3) ⬝ᵥ (x - a) = x 1 - a 1 ∧
    (![-1, 0, 0] : P3) ⬝ᵥ (x - a) = a 0 - x 0 ∧ (![1, 0, 0] : P3) ⬝ᵥ (x - a) = x 0 - a 0 := by
  simp only [vec3_dotProduct, Pi.sub_apply]
  simp

theorem cube_convex : ConvexSolid cube cubeSolid := by
  refine ⟨fun t ht h => ?_, fun x => ⟨fun hx t ht => ?_, fun h => ?_⟩⟩
  · rcases cube_mem ht with h' | h' | h' | h' | h' | h' <;> rw [h'.1] at h
    · have := congrFun h 2; simp at this
    · have := congrFun h 2; simp at this
    · have := congrFun h 1; simp at this
    · have := congrFun h 1; simp at this
    · have := congrFun h 0; simp at this
    · have := congrFun h 0; simp at this
  · obtain ⟨d0, d1, d2, d3, d4, d5⟩ := cube_dot x t.a
    have h0 := hx 0
    have h1 := hx 1
    have h2 := hx 2
    rcases cube_mem ht with h' | h' | h' | h' | h' | h' <;> rw [h'.1]
    · rw [d0]; linarith [h'.2]
    · rw [d1]; linarith [h'.2]
    · rw [d2]; linarith [h'.2]
    · rw [d3]; linarith [h'.2]
    · rw [d4]; linarith [h'.2]
    · rw [d5]; linarith [h'.2]
  · have hn := cube_normals
    simp only [cube, List.map_cons, List.map_nil, List.cons.injEq, and_true] at hn
    obtain ⟨n0, n1, n2, n3, n4, n5, n6, n7, n8, n9, n10, n11⟩ := hn
    have g0 := h ⟨![0, 0, 0], ![0, 1, 0], ![1, 1, 0]⟩ (by simp [cube])
    have g2 := h ⟨![0, 0, 1], ![1, 1, 1], ![0, 1, 1]⟩ (by simp [cube])
    have g4 := h ⟨![0, 0, 0], ![1, 0, 1], ![0, 0, 1]⟩ (by simp [cube])
    have g6 := h ⟨![0, 1, 0], ![0, 1, 1], ![1, 1, 1]⟩ (by simp [cube])
    have g8 := h ⟨![0, 0, 0], ![0, 0, 1], ![0, 1, 1]⟩ (by simp [cube])
    have g10 := h ⟨![1, 0, 0], ![1, 1, 1], ![1, 0, 1]⟩ (by simp [cube])
    rw [n0, (cube_dot x _).1] at g0
    rw [n2, (cube_dot x _).2.1] at g2
    rw [n4, (cube_dot x _).2.2.1] at g4
    rw [n6, (cube_dot x _).2.2.2.1] at g6
    rw [n8, (cube_dot x _).2.2.2.2.1] at g8
    rw [n10, (cube_dot x _).2.2.2.2.2] at g10
    simp at g0 g2 g4 g6 g8 g10
    intro i
    fin_cases i
    · exact ⟨g8, g10⟩
    · exact ⟨g4, g6⟩
    · exact ⟨g0, g2⟩

theorem cube_noAcute : NoAcuteEdge cube cubeSolid := by
  intro x _ t ht t' ht' h h'
  obtain ⟨d0, d1, d2, d3, d4, d5⟩ := cube_dot x t.a
  obtain ⟨e0, e1, e2, e3, e4, e5⟩ := cube_dot x t'.a
  rcases cube_mem ht with g | g | g | g | g | g <;> rcases cube_mem ht' with g' | g' | g' | g' | g' | g' <;>
    rw [g.1] at h ⊢ <;> rw [g'.1] at h' ⊢ <;>
    first
      | (simp only [vec3_dotProduct]; simp; done)
      | (exfalso; simp only [d0, d1, d2, d3, d4, d5, e0, e1, e2, e3, e4, e5] at h h'; linarith [g.2, g'.2])

theorem cube_covers : Covers cube cubeSolid := by
  refine covers_convex cube cubeSolid cube_convex ?_ ?_
  · intro t ht
    simp only [cube, List.mem_cons, List.not_mem_nil, or_false] at ht
    rcases ht with rfl | rfl | rfl | rfl | rfl | rfl | rfl | rfl | rfl | rfl | rfl | rfl <;>
      refine ⟨?_, ?_, ?_⟩ <;> intro i <;> fin_cases i <;> simp
  · intro x hx t ht h0
    have hx0 := hx 0
    have hx1 := hx 1
    have hx2 := hx 2
    obtain ⟨d0, d1, d2, d3, d4, d5⟩ := cube_dot x t.a
    rcases cube_mem ht with g | g | g | g | g | g <;> rw [g.1] at h0
    · rw [d0] at h0
      rcases le_total (x 0) (x 1) with hl | hl
      · refine ⟨⟨![0, 0, 0], ![0, 1, 0], ![1, 1, 0]⟩, by simp [cube], x 1 - x 0, x 0, by linarith, by linarith, by linarith, ?_⟩
        funext i; fin_cases i <;> simp <;> linarith [g.2]
      · refine ⟨⟨![0, 0, 0], ![1, 1, 0], ![1, 0, 0]⟩, by simp [cube], x 1, x 0 - x 1, by linarith, by linarith, by linarith, ?_⟩
        funext i; fin_cases i <;> simp <;> linarith [g.2]
    · rw [d1] at h0
      rcases le_total (x 0) (x 1) with hl | hl
      · refine ⟨⟨![0, 0, 1], ![1, 1, 1], ![0, 1, 1]⟩, by simp [cube], x 0, x 1 - x 0, by linarith, by linarith, by linarith, ?_⟩
        funext i; fin_cases i <;> simp <;> linarith [g.2]
      · refine ⟨⟨![0, 0, 1], ![1, 0, 1], ![1, 1, 1]⟩, by simp [cube], x 0 - x 1, x 1, by linarith, by linarith, by linarith, ?_⟩
        funext i; fin_cases i <;> simp <;> linarith [g.2]
    · rw [d2] at h0
      rcases le_total (x 0) (x 2) with hl | hl
      · refine ⟨⟨![0, 0, 0], ![1, 0, 1], ![0, 0, 1]⟩, by simp [cube], x 0, x 2 - x 0, by linarith, by linarith, by linarith, ?_⟩
        funext i; fin_cases i <;> simp <;> linarith [g.2]
      · refine ⟨⟨![0, 0, 0], ![1, 0, 0], ![1, 0, 1]⟩, by simp [cube], x 0 - x 2, x 2, by linarith, by linarith, by linarith, ?_⟩
        funext i; fin_cases i <;> simp <;> linarith [g.2]
    · rw [d3] at h0
      rcases le_total (x 0) (x 2) with hl | hl
      · refine ⟨⟨![0, 1, 0], ![0, 1, 1], ![1, 1, 1]⟩, by simp [cube], x 2 - x 0, x 0, by linarith, by linarith, by linarith, ?_⟩
        funext i; fin_cases i <;> simp <;> linarith [g.2]
      · refine ⟨⟨![0, 1, 0], ![1, 1, 1], ![1, 1, 0]⟩, by simp [cube], x 2, x 0 - x 2, by linarith, by linarith, by linarith, ?_⟩
        funext i; fin_cases i <;> simp <;> linarith [g.2]
    · rw [d4] at h0
      rcases le_total (x 1) (x 2) with hl | hl
      · refine ⟨⟨![0, 0, 0], ![0, 0, 1], ![0, 1, 1]⟩, by simp [cube], x 2 - x 1, x 1, by linarith, by linarith, by linarith, ?_⟩
        funext i; fin_cases i <;> simp <;> linarith [g.2]
      · refine ⟨⟨![0, 0, 0], ![0, 1, 1], ![0, 1, 0]⟩, by simp [cube], x 2, x 1 - x 2, by linarith, by linarith, by linarith, ?_⟩
        funext i; fin_cases i <;> simp <;> linarith [g.2]
    · rw [d5] at h0
      rcases le_total (x 1) (x 2) with hl | hl
      · refine ⟨⟨![1, 0, 0], ![1, 1, 1], ![1, 0, 1]⟩, by simp [cube], x 1, x 2 - x 1, by linarith, by linarith, by linarith, ?_⟩
        funext i; fin_cases i <;> simp <;> linarith [g.2]
      · refine ⟨⟨![1, 0, 0], ![1, 1, 0], ![1, 1, 1]⟩, by simp [cube], x 1 - x 2, x 2, by linarith, by linarith, by linarith, ?_⟩
        funext i; fin_cases i <;> simp <;> linarith [g.2]

/-- The hypotheses of `C114_convex` are met by the unit cube, whatever nearest answers ArborX gives. -/
example (near : P3 → Option (Tri × P3)) (c : CellBox) (hnear : IsNearest cube near c.center) (hcen : c.center ∈ Icc c.lo c.hi) :
    isWithinStl 3 cube near c ↔ Icc c.lo c.hi ⊆ interior cubeSolid :=
  C114_convex cube cubeSolid cube_convex cube_covers cube_noAcute near c hnear hcen

theorem inner_pts (t : Tri) (x : P3) (hx : x ∈ t.inner) : x ∈ t.pts := by
  obtain ⟨s, u, hs, hu, hsu, e⟩ := hx
  exact ⟨s, u, hs.le, hu.le, hsu.le, e⟩

theorem cube_outward : Outward cube cubeSolid := by
  intro t ht
  refine ⟨cube_convex.1 t ht, fun x hx => ⟨1, one_pos, fun ε h0 h1 => ?_⟩⟩
  have hp := pts_plane t x (inner_pts t x hx)
  have hxS : x ∈ cubeSolid := by
    have := ((cube_covers x).2 ⟨t, ht, inner_pts t x hx⟩).1
    rwa [(convex_closed cube cubeSolid cube_convex).closure_eq] at this
  have hx0 := hxS 0
  have hx1 := hxS 1
  have hx2 := hxS 2
  obtain ⟨d0, d1, d2, d3, d4, d5⟩ := cube_dot x t.a
  rcases cube_mem ht with g | g | g | g | g | g <;> rw [g.1] at hp ⊢ <;>
    simp only [d0, d1, d2, d3, d4, d5] at hp <;>
    refine ⟨fun i => ?_, fun hcon => ?_⟩
  · fin_cases i <;> simp <;> constructor <;> linarith [g.2]
  · have := hcon 2
    simp at this
    linarith [g.2]
  · fin_cases i <;> simp <;> constructor <;> linarith [g.2]
  · have := hcon 2
    simp at this
    linarith [g.2]
  · fin_cases i <;> simp <;> constructor <;> linarith [g.2]
  · have := hcon 1
    simp at this
    linarith [g.2]
  · fin_cases i <;> simp <;> constructor <;> linarith [g.2]
  · have := hcon 1
    simp at this
    linarith [g.2]
  · fin_cases i <;> simp <;> constructor <;> linarith [g.2]
  · have := hcon 0
    simp at this
    linarith [g.2]
  · fin_cases i <;> simp <;> constructor <;> linarith [g.2]
  · have := hcon 0
    simp at this
    linarith [g.2]

/-- The hypotheses of `C114_face_partial` (and of `C114_convex`) are met by a cell at the bottom of the unit cube, whose
nearest point on the surface is inside a triangle of the bottom; the cell is accepted. -/
example : ∃ (near : P3 → Option (Tri × P3)) (c : CellBox), Covers cube cubeSolid ∧ Outward cube cubeSolid ∧
    IsNearest cube near c.center ∧ c.center ∈ Icc c.lo c.hi ∧ (∀ t x, near c.center = some (t, x) → x ∈ t.inner) ∧
    isWithinStl 3 cube near c := by
  have hin : ∀ t x, (fun _ : P3 => some ((⟨![0, 0, 0], ![1, 1, 0], ![1, 0, 0]⟩ : Tri), (![1 / 2, 1 / 4, 0] : P3)))
      ![1 / 2, 1 / 4, 1 / 8] = some (t, x) → x ∈ t.inner := by
    intro t x h
    simp only [Option.some.injEq, Prod.mk.injEq] at h
    obtain ⟨rfl, rfl⟩ := h
    refine ⟨1 / 4, 1 / 4, by norm_num, by norm_num, by norm_num, ?_⟩
    funext i
    fin_cases i <;> simp <;> norm_num
  have hnear : IsNearest cube (fun _ : P3 => some ((⟨![0, 0, 0], ![1, 1, 0], ![1, 0, 0]⟩ : Tri), (![1 / 2, 1 / 4, 0] : P3)))
      ![1 / 2, 1 / 4, 1 / 8] := by
    refine ⟨_, _, rfl, by simp [cube], inner_pts _ _ (hin _ _ rfl), fun t ht y hy => ?_⟩
    have hp := pts_plane t y hy
    obtain ⟨d0, d1, d2, d3, d4, d5⟩ := cube_dot y t.a
    unfold sqDist
    simp only [vec3_dotProduct, Pi.sub_apply]
    simp
    rcases cube_mem ht with g | g | g | g | g | g <;> rw [g.1] at hp <;>
      simp only [d0, d1, d2, d3, d4, d5] at hp
    · have : y 2 = 0 := by linarith [g.2]
      rw [this]; nlinarith [mul_self_nonneg (2⁻¹ - y 0), mul_self_nonneg (4⁻¹ - y 1)]
    · have : y 2 = 1 := by linarith [g.2]
      rw [this]; nlinarith [mul_self_nonneg (2⁻¹ - y 0), mul_self_nonneg (4⁻¹ - y 1)]
    · have : y 1 = 0 := by linarith [g.2]
      rw [this]; nlinarith [mul_self_nonneg (2⁻¹ - y 0), mul_self_nonneg (8⁻¹ - y 2)]
    · have : y 1 = 1 := by linarith [g.2]
      rw [this]; nlinarith [mul_self_nonneg (2⁻¹ - y 0), mul_self_nonneg (8⁻¹ - y 2)]
    · have : y 0 = 0 := by linarith [g.2]
      rw [this]; nlinarith [mul_self_nonneg (4⁻¹ - y 1), mul_self_nonneg (8⁻¹ - y 2)]
    · have : y 0 = 1 := by linarith [g.2]
      rw [this]; nlinarith [mul_self_nonneg (4⁻¹ - y 1), mul_self_nonneg (8⁻¹ - y 2)]
  have hcen : (![1 / 2, 1 / 4, 1 / 8] : P3) ∈ Icc (![7 / 16, 3 / 16, 1 / 16] : P3) ![9 / 16, 5 / 16, 3 / 16] := by
    constructor <;> intro i <;> fin_cases i <;> simp <;> norm_num
  refine ⟨_, ⟨![7 / 16, 3 / 16, 1 / 16], ![9 / 16, 5 / 16, 3 / 16], ![1 / 2, 1 / 4, 1 / 8]⟩, cube_covers, cube_outward, hnear, hcen,
    hin, ?_⟩
  refine C114_convex_inside cube cubeSolid cube_convex _ _ hnear hcen ?_
  rintro y ⟨hy1, hy2⟩
  by_contra hcon
  have hyS : y ∈ cubeSolid := by
    have a0 := hy1 0; have a1 := hy1 1; have a2 := hy1 2
    have b0 := hy2 0; have b1 := hy2 1; have b2 := hy2 2
    simp at a0 a1 a2 b0 b1 b2
    intro i
    fin_cases i <;> simp <;> constructor <;> linarith
  obtain ⟨t, ht, hyt⟩ := (cube_covers y).1 ⟨subset_closure hyS, hcon⟩
  have hp := pts_plane t y hyt
  obtain ⟨d0, d1, d2, d3, d4, d5⟩ := cube_dot y t.a
  have a0 := hy1 0; have a1 := hy1 1; have a2 := hy1 2
  have b0 := hy2 0; have b1 := hy2 1; have b2 := hy2 2
  simp at a0 a1 a2 b0 b1 b2
  rcases cube_mem ht with g | g | g | g | g | g <;> rw [g.1] at hp <;>
    simp only [d0, d1, d2, d3, d4, d5] at hp <;> linarith [g.2]

/-- A tetrahedron with an edge of 45 degrees along the second axis. -/
def wedge : List Tri :=
  [⟨![0, -1, 0], ![0, 1, 0], ![1, 0, 0]⟩, ⟨![0, -1, 0], ![1, 0, 1], ![0, 1, 0]⟩,
    ⟨![0, 1, 0], ![1, 0, 1], ![1, 0, 0]⟩, ⟨![0, -1, 0], ![1, 0, 0], ![1, 0, 1]⟩]

/-- The solid. -/
def wedgeSolid : Set P3 := {x | 0 ≤ x 2 ∧ x 2 ≤ x 0 ∧ x 0 + x 1 ≤ 1 ∧ x 0 - x 1 ≤ 1}

theorem wedge_normals : wedge.map Tri.normal = [![0, 0, -2], ![-2, 0, 2], ![1, 1, 0], ![1, -1, 0]] := by
  simp only [wedge, List.map_cons, List.map_nil, Tri.normal, cross_apply]
  norm_num [Matrix.cons_val_two]

theorem forall_wedge (Q : Tri → P3 → Prop) (h0 : Q ⟨![0, -1, 0], ![0, 1, 0], ![1, 0, 0]⟩ ![0, 0, -2])
    (h1 : Q ⟨![0, -1, 0], ![1, 0, 1], ![0, 1, 0]⟩ ![-2, 0, 2]) (h2 : Q ⟨![0, 1, 0], ![1, 0, 1], ![1, 0, 0]⟩ ![1, 1, 0])
    (h3 : Q ⟨![0, -1, 0], ![1, 0, 0], ![1, 0, 1]⟩ ![1, -1, 0]) : ∀ t ∈ wedge, Q t t.normal := by
  have hn := wedge_normals
  simp only [wedge, List.map_cons, List.map_nil, List.cons.injEq, and_true] at hn
  obtain ⟨n0, n1, n2, n3⟩ := hn
  intro t ht
  simp only [wedge, List.mem_cons, List.not_mem_nil, or_false] at ht
  rcases ht with rfl | rfl | rfl | rfl
  · rw [n0]; exact h0
  · rw [n1]; exact h1
  · rw [n2]; exact h2
  · rw [n3]; exact h3

theorem wedge_convex : ConvexSolid wedge wedgeSolid := by
  have hn := wedge_normals
  simp only [wedge, List.map_cons, List.map_nil, List.cons.injEq, and_true] at hn
  obtain ⟨n0, n1, n2, n3⟩ := hn
  refine ⟨?_, fun x => ?_⟩
  · refine forall_wedge (fun _ n => n ≠ 0) ?_ ?_ ?_ ?_ <;> intro h
    · have := congrFun h 2; simp at this
    · have := congrFun h 0; simp at this
    · have := congrFun h 0; simp at this
    · have := congrFun h 0; simp at this
  · simp only [wedge, List.mem_cons, List.not_mem_nil, or_false, forall_eq_or_imp, forall_eq, n0, n1, n2, n3, wedgeSolid,
      Set.mem_setOf_eq, vec3_dotProduct, Pi.sub_apply]
    simp
    intro h1 h2
    constructor <;> rintro ⟨h3, h4⟩ <;> exact ⟨by linarith, by linarith⟩

theorem wedge_covers : Covers wedge wedgeSolid := by
  have hn := wedge_normals
  simp only [wedge, List.map_cons, List.map_nil, List.cons.injEq, and_true] at hn
  obtain ⟨n0, n1, n2, n3⟩ := hn
  refine covers_convex wedge wedgeSolid wedge_convex ?_ ?_
  · intro t ht
    simp only [wedge, List.mem_cons, List.not_mem_nil, or_false] at ht
    rcases ht with rfl | rfl | rfl | rfl <;> simp [wedgeSolid] <;> norm_num
  · rintro x ⟨h1, h2, h3, h4⟩ t ht h0
    refine ⟨t, ht, ?_⟩
    simp only [wedge, List.mem_cons, List.not_mem_nil, or_false] at ht
    rcases ht with rfl | rfl | rfl | rfl
    · rw [n0] at h0
      simp only [vec3_dotProduct, Pi.sub_apply] at h0
      simp at h0
      refine ⟨(x 1 + 1 - x 0) / 2, x 0, by linarith, by linarith, by linarith, ?_⟩
      funext i
      fin_cases i <;> simp <;> linarith
    · rw [n1] at h0
      simp only [vec3_dotProduct, Pi.sub_apply] at h0
      simp at h0
      refine ⟨x 0, (x 1 + 1 - x 0) / 2, by linarith, by linarith, by linarith, ?_⟩
      funext i
      fin_cases i <;> simp <;> linarith
    · rw [n2] at h0
      simp only [vec3_dotProduct, Pi.sub_apply] at h0
      simp at h0
      refine ⟨x 2, x 0 - x 2, by linarith, by linarith, by linarith, ?_⟩
      funext i
      fin_cases i <;> simp <;> linarith
    · rw [n3] at h0
      simp only [vec3_dotProduct, Pi.sub_apply] at h0
      simp at h0
      refine ⟨x 0 - x 2, x 2, by linarith, by linarith, by linarith, ?_⟩
      funext i
      fin_cases i <;> simp <;> linarith

/-- **C114 refuted**: at an acute edge several triangles are equally near, and the answer depends on which one is
returned.  The tetrahedron is convex, bounded by its triangles, all normals pointing outwards; the cell is outside
(below the edge); both answers below are nearest ones, one accepts the cell and the other rejects it. -/
theorem C114_acute_refuted :
    ∃ (c : CellBox) (near near' : P3 → Option (Tri × P3)),
      ConvexSolid wedge wedgeSolid ∧ Covers wedge wedgeSolid ∧ c.center ∈ Icc c.lo c.hi ∧ Icc c.lo c.hi ∩ wedgeSolid = ∅ ∧
      IsNearest wedge near c.center ∧ IsNearest wedge near' c.center ∧
      isWithinStl 3 wedge near c ∧ ¬ isWithinStl 3 wedge near' c := by
  have hn := wedge_normals
  simp only [wedge, List.map_cons, List.map_nil, List.cons.injEq, and_true] at hn
  obtain ⟨n0, n1, n2, n3⟩ := hn
  -- all triangles are in the solid
  have hsub : ∀ t ∈ wedge, ∀ y ∈ t.pts, y ∈ wedgeSolid := by
    intro t ht y hy
    have := ((wedge_covers y).2 ⟨t, ht, hy⟩).1
    rwa [(convex_closed wedge wedgeSolid wedge_convex).closure_eq] at this
  have hmin : ∀ t ∈ wedge, ∀ y ∈ t.pts, sqDist (![-0.1, 0, -0.9] : P3) 0 ≤ sqDist ![-0.1, 0, -0.9] y := by
    intro t ht y hy
    obtain ⟨h1, h2, h3, h4⟩ := hsub t ht y hy
    unfold sqDist
    simp only [vec3_dotProduct, Pi.sub_apply]
    simp
    nlinarith [mul_self_nonneg (y 1), mul_self_nonneg (y 0), mul_self_nonneg (y 2)]
  have hdis : Icc (![-0.15, -0.05, -0.95] : P3) ![-0.05, 0.05, -0.85] ∩ wedgeSolid = ∅ := by
    rw [Set.eq_empty_iff_forall_notMem]
    rintro x ⟨⟨-, hx⟩, h1, -⟩
    have := hx 2
    simp at this
    norm_num at this
    linarith
  refine ⟨⟨![-0.15, -0.05, -0.95], ![-0.05, 0.05, -0.85], ![-0.1, 0, -0.9]⟩,
    fun _ => some (⟨![0, -1, 0], ![1, 0, 1], ![0, 1, 0]⟩, 0), fun _ => some (⟨![0, -1, 0], ![0, 1, 0], ![1, 0, 0]⟩, 0),
    wedge_convex, wedge_covers, ?_, hdis, ?_, ?_, ?_, ?_⟩
  · constructor <;> intro i <;> fin_cases i <;> simp <;> norm_num
  · refine ⟨_, _, rfl, by simp [wedge], ⟨0, 1 / 2, by norm_num, by norm_num, by norm_num, ?_⟩, hmin⟩
    funext i
    fin_cases i <;> simp <;> norm_num
  · refine ⟨_, _, rfl, by simp [wedge], ⟨1 / 2, 0, by norm_num, by norm_num, by norm_num, ?_⟩, hmin⟩
    funext i
    fin_cases i <;> simp <;> norm_num
  · unfold isWithinStl
    rw [if_neg (by decide)]
    refine ⟨?_, ?_⟩
    · rintro ⟨t, ht, y, hy1, hy2⟩
      have : y ∈ Icc (![-0.15, -0.05, -0.95] : P3) ![-0.05, 0.05, -0.85] ∩ wedgeSolid := ⟨hy2, hsub t ht y hy1⟩
      rw [hdis] at this
      exact this
    · show callback _ _ _
      rw [callback_iff, n1]
      simp only [vec3_dotProduct, Pi.sub_apply]
      simp
      norm_num
  · unfold isWithinStl
    rw [if_neg (by decide)]
    rintro ⟨-, h⟩
    have h : callback _ _ _ := h
    rw [callback_iff, n0] at h
    simp only [vec3_dotProduct, Pi.sub_apply] at h
    simp at h
    norm_num at h

end Verif.Stl
