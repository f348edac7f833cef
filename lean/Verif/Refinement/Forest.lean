import Mathlib.Tactic.Ring
import Mathlib.Data.Real.Basic
import Mathlib.Data.Fin.VecNotation
import Mathlib.Tactic.Linarith
import Mathlib.Tactic.NormNum
import Mathlib.Tactic.FinCases
import Mathlib.Data.Fintype.Basic
import Mathlib.Data.List.Forall2

/-!
# C21: adaptive refinement of the mesh around the beams

Model of `refine_mesh` and `compute_cells_to_refine`, `application/adamantine.hh:541-675`.  The mesh is a forest of
octrees (quadtrees): every coarse cell is an axis-parallel box, a refined cell has `2^n` halves as children.  (Curved or
imported coarse cells are outside the model.)  deal.II/p4est executes the flags as described at `Adapts`.
-/

namespace Verif.Refinement

/-- A closed axis-parallel box (`cell->bounding_box()`, beam bounding boxes). -/
structure Box (n : ℕ) where
  lo : Fin n → ℝ
  hi : Fin n → ℝ

/-- A proper box. -/
def Box.Proper {n : ℕ} (b : Box n) : Prop := ∀ d, b.lo d ≤ b.hi d

/-- Closed boxes intersect (ArborX). -/
def Box.meets {n : ℕ} (a b : Box n) : Prop := ∀ d, a.lo d ≤ b.hi d ∧ b.lo d ≤ a.hi d

/-- The two closed boxes have a common point.  (Specification.) -/
def Box.Touches {n : ℕ} (a b : Box n) : Prop := ∃ x : Fin n → ℝ, (∀ d, a.lo d ≤ x d ∧ x d ≤ a.hi d) ∧ ∀ d, b.lo d ≤ x d ∧ x d ≤ b.hi d

theorem Box.meets_iff {n : ℕ} (a b : Box n) (ha : ∀ d, a.lo d ≤ a.hi d) (hb : ∀ d, b.lo d ≤ b.hi d) : a.meets b ↔ a.Touches b := by
  constructor
  · intro h
    refine ⟨fun d => max (a.lo d) (b.lo d), fun d => ⟨le_max_left _ _, max_le (ha d) (h d).2⟩, fun d => ⟨le_max_right _ _, max_le (h d).1 (hb d)⟩⟩
  · rintro ⟨x, h1, h2⟩ d
    exact ⟨(h1 d).1.trans (h2 d).2, (h2 d).1.trans (h1 d).2⟩

/-- Child `c` of a cell: the half in each direction chosen by `c`. -/
noncomputable def Box.child {n : ℕ} (b : Box n) (c : Fin n → Bool) : Box n where
  lo := fun d => if c d then (b.lo d + b.hi d) / 2 else b.lo d
  hi := fun d => if c d then b.hi d else (b.lo d + b.hi d) / 2

/-- The refinement tree of one coarse cell. -/
inductive Tree (n : ℕ)
  | leaf
  | node (children : (Fin n → Bool) → Tree n)

/-- The active cells (leaves) of a tree below a cell with box `b` on level `l`. -/
inductive IsLeaf {n : ℕ} : Box n → ℕ → Tree n → Box n → ℕ → Prop
  | here (b : Box n) (l : ℕ) : IsLeaf b l .leaf b l
  | inChild (b : Box n) (l : ℕ) (f : (Fin n → Bool) → Tree n) (c : Fin n → Bool) (b' : Box n) (l' : ℕ)
      (h : IsLeaf (b.child c) (l + 1) (f c) b' l') : IsLeaf b l (.node f) b' l'

/-! ## Flags -/

/-- The flags of an active cell on level `l` after the two loops of `refine_mesh`, `application/adamantine.hh:651-670`.
`listed`: the cell is in `cells_to_refine`. -/
structure Flags where
  refine : Bool
  coarsen : Bool

/-- `application/adamantine.hh:646-670`. -/
def setFlags (coarsenAfterBeam listed : Bool) (nRefinements l : ℕ) : Flags :=
  let coarsen := coarsenAfterBeam && decide (l > 0)
  if listed then
    { refine := decide (l < nRefinements), coarsen := if coarsenAfterBeam then false else coarsen }
  else { refine := false, coarsen := coarsen }

/-- What `triangulation.execute_coarsening_and_refinement()` may do with the flags (deal.II/p4est contract):
a cell flagged for refinement is refined once; an unflagged cell stays, or is refined to keep the 2:1 balance, which happens
only next to a cell that ends up two levels finer, i.e. only on a level `l` with `l + 1` below the finest level of the new
mesh (`top`); a family of active siblings that are all flagged for coarsening is replaced by its parent, or stays. -/
inductive Adapts {n : ℕ} (flags : Box n → ℕ → Flags) (top : ℕ) : Box n → ℕ → Tree n → Tree n → Prop
  | keep (b : Box n) (l : ℕ) (h : (flags b l).refine = false) : Adapts flags top b l .leaf .leaf
  | refine (b : Box n) (l : ℕ) (h : (flags b l).refine = true) : Adapts flags top b l .leaf (.node fun _ => .leaf)
  | balance (b : Box n) (l : ℕ) (h : l + 1 < top) : Adapts flags top b l .leaf (.node fun _ => .leaf)
  | node (b : Box n) (l : ℕ) (f f' : (Fin n → Bool) → Tree n)
      (h : ∀ c, Adapts flags top (b.child c) (l + 1) (f c) (f' c)) : Adapts flags top b l (.node f) (.node f')
  | coarsen (b : Box n) (l : ℕ) (h : ∀ c, (flags (b.child c) (l + 1)).coarsen = true) :
      Adapts flags top b l (.node fun _ => .leaf) .leaf

/-! ## `compute_cells_to_refine` -/

/-- `compute_cells_to_refine`, `application/adamantine.hh:541-607`: the cells whose index is among the indices returned by
the search. -/
def cellsToRefine {α : Type} (cells : List α) (indices : List ℕ) : List α :=
  (cells.zipIdx.filter fun p => indices.contains p.2).map Prod.fst

/-- The beam boxes of lines 565-579: `box beam time` for the sampled times. -/
noncomputable def beamBoxes {n : ℕ} {beam : Type} (box : beam → ℝ → Box n) (beams : List beam) (t next : ℝ)
    (nSteps : ℕ) : List (Box n) :=
  (List.range nSteps).flatMap fun i : ℕ => beams.map fun s => box s (t + (i : ℝ) / nSteps * (next - t))

/-- Contract of the bounding-volume search: exactly the indices of cells that meet one of the boxes. -/
def IsSearch {n : ℕ} (cells queries : List (Box n)) (indices : List ℕ) : Prop :=
  ∀ i, i ∈ indices ↔ ∃ b q, cells[i]? = some b ∧ q ∈ queries ∧ b.meets q

/-- C21: the list of cells to refine consists of exactly the cells that have a point in common with a beam box at one of the sampled times. -/
theorem C21_cells_to_refine {n : ℕ} {beam : Type} (box : beam → ℝ → Box n) (beams : List beam) (t next : ℝ)
    (nSteps : ℕ) (cells : List (Box n)) (indices : List ℕ)
    (hs : IsSearch cells (beamBoxes box beams t next nSteps) indices) (hc : ∀ c ∈ cells, ∀ d, c.lo d ≤ c.hi d)
    (hb : ∀ s ∈ beams, ∀ τ d, (box s τ).lo d ≤ (box s τ).hi d) (b : Box n) :
    b ∈ cellsToRefine cells indices ↔
      b ∈ cells ∧ ∃ s ∈ beams, ∃ i : ℕ, i < nSteps ∧ b.Touches (box s (t + (i : ℝ) / nSteps * (next - t))) := by
  have hq : ∀ q, q ∈ beamBoxes box beams t next nSteps ↔
      ∃ s ∈ beams, ∃ i : ℕ, i < nSteps ∧ q = box s (t + (i : ℝ) / nSteps * (next - t)) := by
    intro q
    simp only [beamBoxes, List.mem_flatMap, List.mem_range, List.mem_map]
    constructor
    · rintro ⟨i, hi, s, hs, rfl⟩; exact ⟨s, hs, i, hi, rfl⟩
    · rintro ⟨s, hs, i, hi, rfl⟩; exact ⟨i, hi, s, hs, rfl⟩
  simp only [cellsToRefine, List.mem_map, List.mem_filter, Prod.exists, exists_and_right, exists_eq_right,
    List.mem_zipIdx_iff_getElem?, List.contains_iff_mem]
  constructor
  · rintro ⟨i, hbi, hi⟩
    obtain ⟨b', q, hb', hqm, hm⟩ := (hs i).1 hi
    rw [hbi] at hb'
    cases hb'
    obtain ⟨s, hs, k, hk, rfl⟩ := (hq q).1 hqm
    have hmem := List.mem_of_getElem? hbi
    exact ⟨hmem, s, hs, k, hk, (Box.meets_iff _ _ (hc b hmem) (hb s hs _)).1 hm⟩
  · rintro ⟨hbm, s, hsb, k, hk, hm⟩
    have hm := (Box.meets_iff _ _ (hc b hbm) (hb s hsb _)).2 hm
    obtain ⟨i, hi⟩ := List.getElem?_of_mem hbm
    exact ⟨i, hi, (hs i).2 ⟨b, _, hi, (hq _).2 ⟨s, hsb, k, hk, rfl⟩, hm⟩⟩

example : beamBoxes (n := 1) (fun (v : ℝ) t => ⟨![v * t], ![v * t + 1]⟩) [1, 2] 0 1 2 ≠ [] := by
  simp [beamBoxes]
  exact ⟨0, by norm_num⟩

/-! ## One pass and all passes of `refine_mesh` -/

/-- Whether a cell is in the list of cells to refine: its box meets one of the beam boxes. -/
def Hit {n : ℕ} (beams : List (Box n)) (b : Box n) : Prop := ∃ q ∈ beams, b.meets q

open Classical in
/-- The flags of one pass. -/
noncomputable def passFlags {n : ℕ} (coarsenAfterBeam : Bool) (N : ℕ) (beams : List (Box n)) (b : Box n) (l : ℕ) :
    Flags :=
  setFlags coarsenAfterBeam (decide (Hit beams b)) N l

/-- The loop of `refine_mesh` over `n_refinements` passes, `application/adamantine.hh:639-675`, for the tree of one coarse
cell with box `b`; the flags are recomputed on the current mesh in each pass. -/
inductive Passes {n : ℕ} (co : Bool) (N : ℕ) (beams : List (Box n)) (b : Box n) : ℕ → Tree n → Tree n → Prop
  | zero (t : Tree n) : Passes co N beams b 0 t t
  | succ (k : ℕ) (t t' t'' : Tree n) (h : Passes co N beams b k t t')
      (h' : Adapts (passFlags co N beams) N b 0 t' t'') : Passes co N beams b (k + 1) t t''

/-- `refine_mesh` on a forest: coarse cells with their trees before and after. -/
def RefineMesh {n : ℕ} (co : Bool) (N : ℕ) (beams : List (Box n)) (before after : List (Box n × Tree n)) : Prop :=
  List.Forall₂ (fun x y => x.1 = y.1 ∧ Passes co N beams x.1 N x.2 y.2) before after

/-- The active cells of a forest. -/
def ActiveCell {n : ℕ} (m : List (Box n × Tree n)) (b : Box n) (l : ℕ) : Prop :=
  ∃ x ∈ m, IsLeaf x.1 0 x.2 b l

/-! ## Proofs -/

theorem child_proper {n : ℕ} (b : Box n) (h : b.Proper) (c : Fin n → Bool) : (b.child c).Proper := by
  intro d
  have := h d
  simp only [Box.child]
  split <;> linarith

/-- A child that meets a box: so does the parent. -/
theorem meets_of_child {n : ℕ} (b q : Box n) (h : b.Proper) (c : Fin n → Bool) (hm : (b.child c).meets q) :
    b.meets q := by
  intro d
  have h1 := h d
  have h2 := hm d
  simp only [Box.child] at h2
  split at h2 <;> constructor <;> linarith [h2.1, h2.2]

/-- A cell that meets a proper box has a child that meets it. -/
theorem child_of_meets {n : ℕ} (b q : Box n) (hq : q.Proper) (hm : b.meets q) :
    ∃ c, (b.child c).meets q := by
  classical
  refine ⟨fun d => decide ((b.lo d + b.hi d) / 2 ≤ q.hi d), fun d => ?_⟩
  have h1 := hm d
  have h2 := hq d
  simp only [Box.child]
  by_cases h : (b.lo d + b.hi d) / 2 ≤ q.hi d
  · simp only [h, decide_true, if_true]
    exact ⟨trivial, h1.2⟩
  · simp only [h, decide_false, Bool.false_eq_true, if_false]
    exact ⟨h1.1, by linarith⟩

theorem hit_of_child {n : ℕ} (beams : List (Box n)) (b : Box n) (h : b.Proper) (c : Fin n → Bool)
    (hh : Hit beams (b.child c)) : Hit beams b := by
  obtain ⟨q, hq, hm⟩ := hh
  exact ⟨q, hq, meets_of_child b q h c hm⟩

theorem child_of_hit {n : ℕ} (beams : List (Box n)) (hb : ∀ q ∈ beams, q.Proper) (b : Box n) (hh : Hit beams b) :
    ∃ c, Hit beams (b.child c) := by
  obtain ⟨q, hq, hm⟩ := hh
  obtain ⟨c, hc⟩ := child_of_meets b q (hb q hq) hm
  exact ⟨c, q, hq, hc⟩

theorem refine_flag {n : ℕ} (co : Bool) (N : ℕ) (beams : List (Box n)) (b : Box n) (l : ℕ) :
    (passFlags co N beams b l).refine = true ↔ Hit beams b ∧ l < N := by
  classical
  unfold passFlags setFlags
  by_cases h : Hit beams b <;> simp [h]

theorem coarsen_flag {n : ℕ} (co : Bool) (N : ℕ) (beams : List (Box n)) (b : Box n) (l : ℕ) :
    (passFlags co N beams b l).coarsen = true ↔ co = true ∧ 0 < l ∧ ¬ Hit beams b := by
  classical
  unfold passFlags setFlags
  by_cases h : Hit beams b <;> cases co <;> simp [h]

theorem leaf_level_ge {n : ℕ} {b b' : Box n} {l l' : ℕ} {t : Tree n} (h : IsLeaf b l t b' l') : l ≤ l' := by
  induction h with
  | here => exact le_rfl
  | inChild _ _ _ _ _ _ _ ih => omega

/-- Level bound of one pass. -/
theorem adapts_level {n : ℕ} (co : Bool) (N : ℕ) (beams : List (Box n)) (b : Box n) (l : ℕ) (t t' : Tree n)
    (h : Adapts (passFlags co N beams) N b l t t') (hl : l ≤ N)
    (hbound : ∀ b' l', IsLeaf b l t b' l' → l' ≤ N) : ∀ b' l', IsLeaf b l t' b' l' → l' ≤ N := by
  induction h with
  | keep => exact hbound
  | refine b l h =>
    intro b' l' hleaf
    have hlt := ((refine_flag co N beams b l).1 h).2
    cases hleaf with
    | inChild _ _ _ c _ _ h2 => cases h2; omega
  | balance b l h =>
    intro b' l' hleaf
    cases hleaf with
    | inChild _ _ _ c _ _ h2 => cases h2; omega
  | node b l f f' h ih =>
    intro b' l' hleaf
    cases hleaf with
    | inChild _ _ _ c _ _ h2 =>
      have hb2 : ∀ b' l', IsLeaf (b.child c) (l + 1) (f c) b' l' → l' ≤ N :=
        fun b' l' hx => hbound b' l' (IsLeaf.inChild b l f c b' l' hx)
      have hex : ∃ b' l', IsLeaf (b.child c) (l + 1) (f c) b' l' := by
        have : ∀ (t : Tree n) (b : Box n) (l : ℕ), ∃ b' l', IsLeaf b l t b' l' := by
          intro t
          induction t with
          | leaf => intro b l; exact ⟨b, l, IsLeaf.here b l⟩
          | node g ihg =>
            intro b l
            obtain ⟨b', l', hx⟩ := ihg (fun _ => false) (b.child fun _ => false) (l + 1)
            exact ⟨b', l', IsLeaf.inChild b l g _ b' l' hx⟩
        exact this _ _ _
      obtain ⟨b2, l2, hx⟩ := hex
      have hl2 := hb2 b2 l2 hx
      have := leaf_level_ge hx
      exact ih c (by omega) hb2 b' l' h2
  | coarsen b l h =>
    intro b' l' hleaf
    cases hleaf
    exact hl

/-- Resolution of one pass: if every cell that meets a beam box is at least on level `k`, then afterwards it is at least on
level `min (k+1) N`. -/
theorem adapts_resolve {n : ℕ} (co : Bool) (N k : ℕ) (beams : List (Box n)) (hbeams : ∀ q ∈ beams, q.Proper)
    (b : Box n) (l : ℕ) (t t' : Tree n) (h : Adapts (passFlags co N beams) N b l t t') (hb : b.Proper)
    (hres : ∀ b' l', IsLeaf b l t b' l' → Hit beams b' → min k N ≤ l') :
    ∀ b' l', IsLeaf b l t' b' l' → Hit beams b' → min (k + 1) N ≤ l' := by
  induction h with
  | keep b l h =>
    intro b' l' hleaf hhit
    cases hleaf
    have : ¬ (Hit beams b ∧ l < N) := by rw [← refine_flag co N beams b l]; simp [h]
    have : N ≤ l := not_lt.1 fun hc => this ⟨hhit, hc⟩
    omega
  | refine b l h =>
    intro b' l' hleaf hhit
    cases hleaf with
    | inChild _ _ _ c _ _ h2 =>
      cases h2
      have := hres b l (IsLeaf.here b l) (hit_of_child beams b hb c hhit)
      omega
  | balance b l h =>
    intro b' l' hleaf hhit
    cases hleaf with
    | inChild _ _ _ c _ _ h2 =>
      cases h2
      have := hres b l (IsLeaf.here b l) (hit_of_child beams b hb c hhit)
      omega
  | node b l f f' h ih =>
    intro b' l' hleaf hhit
    cases hleaf with
    | inChild _ _ _ c _ _ h2 =>
      exact ih c (child_proper b hb c) (fun b' l' hx hh => hres b' l' (IsLeaf.inChild b l f c b' l' hx) hh) b' l' h2 hhit
  | coarsen b l h =>
    intro b' l' hleaf hhit
    cases hleaf
    obtain ⟨c, hc⟩ := child_of_hit beams hbeams b hhit
    exact absurd hc ((coarsen_flag co N beams _ _).1 (h c)).2.2

theorem passes_inv {n : ℕ} (co : Bool) (N : ℕ) (beams : List (Box n)) (hbeams : ∀ q ∈ beams, q.Proper) (b : Box n)
    (hb : b.Proper) (k : ℕ) (t t' : Tree n) (h : Passes co N beams b k t t')
    (hbound : ∀ b' l', IsLeaf b 0 t b' l' → l' ≤ N) :
    (∀ b' l', IsLeaf b 0 t' b' l' → l' ≤ N) ∧
    (∀ b' l', IsLeaf b 0 t' b' l' → Hit beams b' → min k N ≤ l') := by
  induction h with
  | zero t => exact ⟨hbound, fun _ _ _ _ => by omega⟩
  | succ k t t' t'' h h' ih =>
    obtain ⟨h1, h2⟩ := ih hbound
    exact ⟨adapts_level co N beams b 0 t' t'' h' (by omega) h1,
      adapts_resolve co N k beams hbeams b 0 t' t'' h' hb h2⟩

/-- C21: however the 2:1 balance and the coarsening turn out, after `refine_mesh` no cell is finer than `n_refinements`,
every coarse cell is still there, and every cell that has a point in common with a beam box, if only on its boundary, is on level
`n_refinements`. -/
theorem C21_refine_mesh {n : ℕ} (co : Bool) (N : ℕ) (beams : List (Box n)) (hbeams : ∀ q ∈ beams, q.Proper)
    (before after : List (Box n × Tree n)) (hproper : ∀ x ∈ before, x.1.Proper)
    (hbound : ∀ b l, ActiveCell before b l → l ≤ N) (h : RefineMesh co N beams before after) :
    after.map Prod.fst = before.map Prod.fst ∧
    (∀ b l, ActiveCell after b l → l ≤ N) ∧
    (∀ b l, ActiveCell after b l → (∃ q ∈ beams, b.Touches q) → l = N) := by
  have key : ∀ y ∈ after, ∃ x ∈ before, x.1 = y.1 ∧ Passes co N beams x.1 N x.2 y.2 := by
    intro y hy
    clear hproper hbound
    induction h with
    | nil => cases hy
    | cons hd _ ih =>
      rcases List.mem_cons.1 hy with rfl | hy
      · exact ⟨_, by simp, hd⟩
      · obtain ⟨x, hx, hr⟩ := ih hy
        exact ⟨x, by simp [hx], hr⟩
  refine ⟨?_, ?_, ?_⟩
  · clear hproper hbound key
    induction h with
    | nil => rfl
    | cons hd _ ih => simp [hd.1, ih]
  · rintro b l ⟨y, hy, hleaf⟩
    obtain ⟨x, hx, he, hp⟩ := key y hy
    have := (passes_inv co N beams hbeams x.1 (hproper x hx) N x.2 y.2 hp
      (fun b' l' hl => hbound b' l' ⟨x, hx, hl⟩)).1
    rw [he] at this
    exact this b l hleaf
  · rintro b l ⟨y, hy, hleaf⟩ hhit
    obtain ⟨x, hx, he, hp⟩ := key y hy
    have := passes_inv co N beams hbeams x.1 (hproper x hx) N x.2 y.2 hp
      (fun b' l' hl => hbound b' l' ⟨x, hx, hl⟩)
    rw [he] at this
    have h1 := this.1 b l hleaf
    have h2 := this.2 b l hleaf (by
      obtain ⟨q, hq, x, hx1, hx2⟩ := hhit
      exact ⟨q, hq, fun d => ⟨(hx1 d).1.trans (hx2 d).2, (hx2 d).1.trans (hx1 d).2⟩⟩)
    omega

/-- `t'` refines `t`: every cell of `t` is still a cell or has been subdivided. -/
inductive Refines {n : ℕ} : Tree n → Tree n → Prop
  | leaf (t' : Tree n) : Refines .leaf t'
  | node (f f' : (Fin n → Bool) → Tree n) (h : ∀ c, Refines (f c) (f' c)) : Refines (.node f) (.node f')

theorem Refines.refl {n : ℕ} (t : Tree n) : Refines t t := by
  induction t with
  | leaf => exact .leaf _
  | node f ih => exact .node f f ih

theorem Refines.trans {n : ℕ} {t t' t'' : Tree n} (h : Refines t t') (h' : Refines t' t'') : Refines t t'' := by
  induction h generalizing t'' with
  | leaf => exact .leaf _
  | node f f' _ ih =>
    cases h' with
    | node _ f'' h'' => exact .node f f'' fun c => ih c (h'' c)

theorem adapts_refines {n : ℕ} (N : ℕ) (beams : List (Box n)) (b : Box n) (l : ℕ) (t t' : Tree n)
    (h : Adapts (passFlags false N beams) N b l t t') : Refines t t' := by
  induction h with
  | keep => exact .leaf _
  | refine => exact .leaf _
  | balance => exact .leaf _
  | node b l f f' _ ih => exact .node f f' ih
  | coarsen b l h =>
    have := (coarsen_flag false N beams _ _).1 (h fun _ => false)
    exact absurd this.1 (by simp)

/-- C21: without `coarsen_after_beam` no cell is coarsened: the new tree of every coarse cell refines the old one. -/
theorem C21_no_coarsening {n : ℕ} (N : ℕ) (beams : List (Box n)) (before after : List (Box n × Tree n))
    (h : RefineMesh false N beams before after) : List.Forall₂ (fun x y => Refines x.2 y.2) before after := by
  have key : ∀ (b : Box n) (k : ℕ) (t t' : Tree n), Passes false N beams b k t t' → Refines t t' := by
    intro b k t t' hp
    induction hp with
    | zero t => exact Refines.refl t
    | succ k t t' t'' _ h' ih => exact ih.trans (adapts_refines N beams b 0 t' t'' h')
  have h' : List.Forall₂ (fun x y => x.1 = y.1 ∧ Passes false N beams x.1 N x.2 y.2) before after := h
  clear h
  induction h' with
  | nil => exact .nil
  | cons hd _ ih => exact .cons (key _ _ _ _ hd.2) ih

/-- With coarsening, a family of active cells none of which meets a beam box may be merged, and no other cell ever is:
a coarsened cell meets no beam box. -/
theorem C21_coarsened_away_from_beam {n : ℕ} (co : Bool) (N : ℕ) (beams : List (Box n))
    (hbeams : ∀ q ∈ beams, q.Proper) (b : Box n) (l : ℕ) (f : (Fin n → Bool) → Tree n)
    (h : Adapts (passFlags co N beams) N b l (.node f) .leaf) :
    co = true ∧ (∀ c, f c = .leaf) ∧ ¬ ∃ q ∈ beams, b.Touches q := by
  cases h with
  | coarsen _ _ h =>
    refine ⟨((coarsen_flag co N beams _ _).1 (h fun _ => false)).1, fun _ => rfl, ?_⟩
    rintro ⟨q, hq, x, hx1, hx2⟩
    obtain ⟨c, hc⟩ := child_of_hit beams hbeams b ⟨q, hq, fun d => ⟨(hx1 d).1.trans (hx2 d).2, (hx2 d).1.trans (hx1 d).2⟩⟩
    exact ((coarsen_flag co N beams _ _).1 (h c)).2.2 hc

/-- A one-dimensional example: the coarse cell `[0,1]`, a beam at `[0.1, 0.2]` and two refinements; one admissible run ends
with the cells `[0,1/4]`, `[1/4,1/2]`, `[1/2,1]`. -/
noncomputable def exampleTree : Tree 1 :=
  .node fun c => if c 0 then .leaf else .node fun _ => .leaf

example : RefineMesh false 2 [(⟨![0.1], ![0.2]⟩ : Box 1)] [(⟨![0], ![1]⟩, .leaf)] [(⟨![0], ![1]⟩, exampleTree)] := by
  refine List.Forall₂.cons ⟨rfl, ?_⟩ List.Forall₂.nil
  have h0 : Hit [(⟨![0.1], ![0.2]⟩ : Box 1)] ⟨![0], ![1]⟩ :=
    ⟨⟨![0.1], ![0.2]⟩, by simp, fun d => by fin_cases d; norm_num⟩
  have hleft : Hit [(⟨![0.1], ![0.2]⟩ : Box 1)] (Box.child ⟨![0], ![1]⟩ fun _ => false) :=
    ⟨⟨![0.1], ![0.2]⟩, by simp, fun d => by fin_cases d; norm_num [Box.child]⟩
  have hright : ∀ c : Fin 1 → Bool, c 0 = true → ¬ Hit [(⟨![0.1], ![0.2]⟩ : Box 1)] (Box.child ⟨![0], ![1]⟩ c) := by
    rintro c hc ⟨q, hq, hm⟩
    simp only [List.mem_singleton] at hq
    subst hq
    have := (hm 0).1
    simp only [Box.child, hc, if_true] at this
    norm_num at this
  refine Passes.succ 1 _ (.node fun _ => .leaf) _ (Passes.succ 0 _ .leaf _ (Passes.zero _) ?_) ?_
  · exact Adapts.refine _ _ ((refine_flag _ _ _ _ _).2 ⟨h0, by omega⟩)
  · refine Adapts.node _ _ _ _ fun c => ?_
    by_cases hc : c 0 = true
    · simp only [hc, if_true]
      refine Adapts.keep _ _ ?_
      rw [Bool.eq_false_iff]
      intro hr
      exact hright c hc ((refine_flag _ _ _ _ _).1 hr).1
    · have hcf : c = fun _ => false := by
        funext i; fin_cases i; simpa using hc
      subst hcf
      simp only [Bool.false_eq_true, if_false]
      exact Adapts.refine _ _ ((refine_flag _ _ _ _ _).2 ⟨hleft, by omega⟩)

/-! ## The active cells are a mesh -/

theorem leaf_size {n : ℕ} {b b' : Box n} {l l' : ℕ} {t : Tree n} (h : IsLeaf b l t b' l') :
    l ≤ l' ∧ ∀ d, (b'.hi d - b'.lo d) * 2 ^ (l' - l) = b.hi d - b.lo d := by
  induction h with
  | here b l => exact ⟨le_rfl, fun d => by simp⟩
  | inChild b l f c b' l' h ih =>
    obtain ⟨h1, h2⟩ := ih
    refine ⟨by omega, fun d => ?_⟩
    have h3 := h2 d
    rw [show l' - l = l' - (l + 1) + 1 by omega, pow_succ, ← mul_assoc, h3]
    simp only [Box.child]
    split <;> ring

theorem leaf_inside {n : ℕ} {b b' : Box n} {l l' : ℕ} {t : Tree n} (h : IsLeaf b l t b' l') (hb : b.Proper) :
    b'.Proper ∧ ∀ d, b.lo d ≤ b'.lo d ∧ b'.hi d ≤ b.hi d := by
  induction h with
  | here b l => exact ⟨hb, fun d => ⟨le_rfl, le_rfl⟩⟩
  | inChild b l f c b' l' h ih =>
    obtain ⟨h1, h2⟩ := ih (child_proper b hb c)
    refine ⟨h1, fun d => ?_⟩
    have h3 := h2 d
    have h4 := hb d
    simp only [Box.child] at h3
    split at h3 <;> constructor <;> linarith [h3.1, h3.2]

theorem leaf_cover {n : ℕ} (t : Tree n) : ∀ (b : Box n) (l : ℕ) (x : Fin n → ℝ), (∀ d, b.lo d ≤ x d ∧ x d ≤ b.hi d) →
    ∃ b' l', IsLeaf b l t b' l' ∧ ∀ d, b'.lo d ≤ x d ∧ x d ≤ b'.hi d := by
  classical
  induction t with
  | leaf => exact fun b l x hx => ⟨b, l, .here b l, hx⟩
  | node f ih =>
    intro b l x hx
    obtain ⟨b', l', h1, h2⟩ := ih (fun d => decide ((b.lo d + b.hi d) / 2 ≤ x d)) (b.child fun d => decide ((b.lo d + b.hi d) / 2 ≤ x d))
      (l + 1) x (fun d => by
        simp only [Box.child]
        by_cases h : (b.lo d + b.hi d) / 2 ≤ x d
        · simp [h, (hx d).2]
        · simp only [h, decide_false, Bool.false_eq_true, if_false]
          exact ⟨(hx d).1, (not_le.1 h).le⟩)
    exact ⟨b', l', .inChild b l f _ b' l' h1, h2⟩

theorem leaf_unique {n : ℕ} {b b1 : Box n} {l l1 : ℕ} {t : Tree n} (h1 : IsLeaf b l t b1 l1) (hb : b.Proper) :
    ∀ {b2 : Box n} {l2 : ℕ}, IsLeaf b l t b2 l2 → ∀ x : Fin n → ℝ, (∀ d, b1.lo d < x d ∧ x d < b1.hi d) →
      (∀ d, b2.lo d < x d ∧ x d < b2.hi d) → b1 = b2 ∧ l1 = l2 := by
  induction h1 with
  | here b l =>
    intro b2 l2 h2 x _ _
    cases h2
    exact ⟨rfl, rfl⟩
  | inChild b l f c b1 l1 h ih =>
    intro b2 l2 h2 x hx1 hx2
    cases h2 with
    | inChild _ _ _ c' _ _ h' =>
      have hin := (leaf_inside h (child_proper b hb c)).2
      have hin' := (leaf_inside h' (child_proper b hb c')).2
      have hc : c = c' := by
        funext d
        have a1 := hin d
        have a2 := hin' d
        have x1 := hx1 d
        have x2 := hx2 d
        simp only [Box.child] at a1 a2
        cases hcd : c d <;> cases hcd' : c' d <;> simp only [hcd, hcd', Bool.false_eq_true, if_false, if_true] at a1 a2
        · rfl
        · exact absurd (lt_of_lt_of_le x1.2 a1.2) (not_lt.2 (le_of_lt (lt_of_le_of_lt a2.1 x2.1)))
        · exact absurd (lt_of_lt_of_le x2.2 a2.2) (not_lt.2 (le_of_lt (lt_of_le_of_lt a1.1 x1.1)))
        · rfl
      subst hc
      exact ih (child_proper b hb c) h' x hx1 hx2

/-- C21: the active cells of a coarse cell are a mesh of it: they fill it, do not overlap, and on level `l` have edges `2^l` times shorter
than the coarse cell. -/
theorem C21_cells_fill {n : ℕ} (b : Box n) (hb : b.Proper) (t : Tree n) :
    (∀ x : Fin n → ℝ, (∀ d, b.lo d ≤ x d ∧ x d ≤ b.hi d) ↔ ∃ b' l, IsLeaf b 0 t b' l ∧ ∀ d, b'.lo d ≤ x d ∧ x d ≤ b'.hi d) ∧
    (∀ b1 b2 l1 l2, IsLeaf b 0 t b1 l1 → IsLeaf b 0 t b2 l2 →
      (∃ x : Fin n → ℝ, (∀ d, b1.lo d < x d ∧ x d < b1.hi d) ∧ ∀ d, b2.lo d < x d ∧ x d < b2.hi d) → b1 = b2 ∧ l1 = l2) ∧
    ∀ b' l, IsLeaf b 0 t b' l → ∀ d, (b'.hi d - b'.lo d) * 2 ^ l = b.hi d - b.lo d := by
  refine ⟨fun x => ⟨leaf_cover t b 0 x, ?_⟩, ?_, ?_⟩
  · rintro ⟨b', l, h, hx⟩ d
    have := (leaf_inside h hb).2 d
    exact ⟨this.1.trans (hx d).1, (hx d).2.trans this.2⟩
  · rintro b1 b2 l1 l2 h1 h2 ⟨x, hx1, hx2⟩
    exact leaf_unique h1 hb h2 x hx1 hx2
  · intro b' l h d
    exact (leaf_size h).2 d

end Verif.Refinement
