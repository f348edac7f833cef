import Mathlib.Analysis.InnerProductSpace.PiL2
import Mathlib.Data.List.FinRange
import Mathlib.Tactic.Linarith

/-!
# C70: quadrature-point data at mesh adaptation, `source/ClosestSourcePointAdaptation.hh`

`double` is `ℝ`; `std::numeric_limits<double>::max()` is a number `big` that the theorems assume to exceed all squared
distances.  A cell has `nq` quadrature points, a parent has `nc` children.  The value `none` of an index is the `-1` of the
code; reading `values[-1]` is undefined behaviour and gives `none`.
-/

namespace Verif.Refinement.Quad

/-- Positions. -/
abbrev Pos (dim : ℕ) := EuclideanSpace ℝ (Fin dim)

variable {dim nc nq : ℕ} {V : Type*}

/-- `(a - b).norm_square()` -/
noncomputable def dist2 (a b : Pos dim) : ℝ := ∑ d, (a d - b d) ^ 2

/-- Inner loop of `coarse_to_fine`, `ClosestSourcePointAdaptation.hh:61-72`: first coarse point with the smallest distance. -/
noncomputable def nearestCoarse (big : ℝ) (coarse : Fin nq → Pos dim) (x : Pos dim) : Option (Fin nq) × ℝ :=
  (List.finRange nq).foldl (fun m k => if dist2 x (coarse k) < m.2 then (some k, dist2 x (coarse k)) else m) (none, big)

/-- `coarse_to_fine`, `ClosestSourcePointAdaptation.hh:41-77`. -/
noncomputable def coarseToFine (big : ℝ) (coarse : Fin nq → Pos dim) (fine : Fin nc → Fin nq → Pos dim)
    (parentValues : Fin nq → V) (i : Fin nc) (j : Fin nq) : Option V :=
  (nearestCoarse big coarse (fine i j)).1.map parentValues

/-- Body of the innermost loop of `fine_to_coarse`, `ClosestSourcePointAdaptation.hh:105-113`: state `min_index_distances`. -/
noncomputable def coarseStep (coarse : Fin nq → Pos dim) (fine : Fin nc → Fin nq → Pos dim) (i : Fin nc) (j : Fin nq)
    (m : Fin nq → Option (Fin nc × Fin nq) × ℝ) (k : Fin nq) : Fin nq → Option (Fin nc × Fin nq) × ℝ :=
  if dist2 (fine i j) (coarse k) < (m k).2 then Function.update m k (some (i, j), dist2 (fine i j) (coarse k)) else m

/-- The three loops of `fine_to_coarse`, `ClosestSourcePointAdaptation.hh:94-115`. -/
noncomputable def nearestFine (big : ℝ) (coarse : Fin nq → Pos dim) (fine : Fin nc → Fin nq → Pos dim) :
    Fin nq → Option (Fin nc × Fin nq) × ℝ :=
  (List.finRange nc).foldl (fun m i => (List.finRange nq).foldl (fun m j =>
    (List.finRange nq).foldl (coarseStep coarse fine i j) m) m) (fun _ => (none, big))

/-- `fine_to_coarse`, `ClosestSourcePointAdaptation.hh:86-123`. -/
noncomputable def fineToCoarse (big : ℝ) (coarse : Fin nq → Pos dim) (fine : Fin nc → Fin nq → Pos dim)
    (childValues : Fin nc → Fin nq → V) (k : Fin nq) : Option V :=
  (nearestFine big coarse fine k).1.map fun p => childValues p.1 p.2

/-! ## Lemmas -/

theorem dist2_eq (a b : Pos dim) : dist2 a b = dist a b ^ 2 := by
  rw [EuclideanSpace.dist_eq, Real.sq_sqrt (Finset.sum_nonneg fun _ _ => sq_nonneg _)]
  refine Finset.sum_congr rfl fun d _ => ?_
  rw [Real.dist_eq, sq_abs]

theorem dist2_le_iff {a b c d : Pos dim} : dist2 a b ≤ dist2 c d ↔ dist a b ≤ dist c d := by
  rw [dist2_eq, dist2_eq]
  exact sq_le_sq₀ dist_nonneg dist_nonneg

/-- Running minimum over a list: the result is an element with the smallest value below the initial bound. -/
theorem runMin {ι : Type*} (f : ι → ℝ) (l : List ι) (m₀ : Option ι × ℝ) :
    let m := l.foldl (fun m k => if f k < m.2 then (some k, f k) else m) m₀
    (m.2 ≤ m₀.2) ∧ (∀ k ∈ l, m.2 ≤ f k) ∧ (m = m₀ ∨ ∃ k ∈ l, m = (some k, f k)) := by
  induction l generalizing m₀ with
  | nil => simp
  | cons a t ih =>
    simp only [List.foldl_cons]
    obtain ⟨h1, h2, h3⟩ := ih (if f a < m₀.2 then (some a, f a) else m₀)
    have ha : (if f a < m₀.2 then (some a, f a) else m₀).2 ≤ f a ∧
        (if f a < m₀.2 then (some a, f a) else m₀).2 ≤ m₀.2 := by
      split_ifs with h
      · exact ⟨le_refl _, h.le⟩
      · exact ⟨not_lt.1 h, le_refl _⟩
    refine ⟨h1.trans ha.2, fun k hk => ?_, ?_⟩
    · rcases List.mem_cons.1 hk with rfl | hk
      · exact h1.trans ha.1
      · exact h2 k hk
    · rcases h3 with h3 | ⟨k, hk, h3⟩
      · rw [h3]
        split_ifs
        · exact Or.inr ⟨a, by simp, rfl⟩
        · exact Or.inl rfl
      · exact Or.inr ⟨k, List.mem_cons_of_mem _ hk, h3⟩

theorem nearestCoarse_spec {big : ℝ} {coarse : Fin nq → Pos dim} {x : Pos dim} (hb : ∀ k, dist2 x (coarse k) < big)
    (hq : 0 < nq) :
    ∃ k, (nearestCoarse big coarse x).1 = some k ∧ ∀ k', dist2 x (coarse k) ≤ dist2 x (coarse k') := by
  obtain ⟨-, h2, h3⟩ := runMin (fun k => dist2 x (coarse k)) (List.finRange nq) (none, big)
  rcases h3 with h3 | ⟨k, -, h3⟩
  · exfalso
    have := h2 ⟨0, hq⟩ (List.mem_finRange _)
    rw [h3] at this
    exact absurd (hb ⟨0, hq⟩) (not_lt.2 this)
  · refine ⟨k, by unfold nearestCoarse; rw [h3], fun k' => ?_⟩
    have := h2 k' (List.mem_finRange _)
    rw [h3] at this
    exact this

/-- The innermost loop over `k` updates every entry independently. -/
theorem coarseLoop (coarse : Fin nq → Pos dim) (fine : Fin nc → Fin nq → Pos dim) (i : Fin nc) (j : Fin nq)
    (l : List (Fin nq)) (hl : l.Nodup) (m : Fin nq → Option (Fin nc × Fin nq) × ℝ) (k : Fin nq) :
    l.foldl (coarseStep coarse fine i j) m k =
      if k ∈ l ∧ dist2 (fine i j) (coarse k) < (m k).2 then (some (i, j), dist2 (fine i j) (coarse k)) else m k := by
  induction l generalizing m with
  | nil => simp
  | cons a t ih =>
    have hat := (List.nodup_cons.1 hl).1
    rw [List.foldl_cons, ih (List.nodup_cons.1 hl).2]
    by_cases hka : k = a
    · subst hka
      simp only [hat, false_and, if_false, List.mem_cons, true_or, true_and]
      unfold coarseStep
      split_ifs <;> simp
    · have : coarseStep coarse fine i j m a k = m k := by
        unfold coarseStep
        split_ifs
        · rw [Function.update_of_ne hka]
        · rfl
      rw [this]
      simp [hka]

/-- Entry `k` of `fine_to_coarse` is a running minimum over all pairs of child and point. -/
theorem nearestFine_eq (big : ℝ) (coarse : Fin nq → Pos dim) (fine : Fin nc → Fin nq → Pos dim) (k : Fin nq) :
    nearestFine big coarse fine k =
      ((List.finRange nc).flatMap fun i => (List.finRange nq).map fun j => (i, j)).foldl
        (fun m (p : Fin nc × Fin nq) => if dist2 (fine p.1 p.2) (coarse k) < m.2 then
          (some p, dist2 (fine p.1 p.2) (coarse k)) else m) (none, big) := by
  have inner : ∀ (i : Fin nc) (l : List (Fin nq)) (m : Fin nq → Option (Fin nc × Fin nq) × ℝ),
      l.foldl (fun m j => (List.finRange nq).foldl (coarseStep coarse fine i j) m) m k =
        (l.map fun j => (i, j)).foldl (fun m (p : Fin nc × Fin nq) => if dist2 (fine p.1 p.2) (coarse k) < m.2 then
          (some p, dist2 (fine p.1 p.2) (coarse k)) else m) (m k) := by
    intro i l
    induction l with
    | nil => intro m; rfl
    | cons j t ih =>
      intro m
      rw [List.foldl_cons, ih, List.map_cons, List.foldl_cons, coarseLoop _ _ _ _ _ (List.nodup_finRange nq)]
      simp
  have outer : ∀ (l : List (Fin nc)) (m : Fin nq → Option (Fin nc × Fin nq) × ℝ),
      l.foldl (fun m i => (List.finRange nq).foldl (fun m j =>
        (List.finRange nq).foldl (coarseStep coarse fine i j) m) m) m k =
        (l.flatMap fun i => (List.finRange nq).map fun j => (i, j)).foldl
        (fun m (p : Fin nc × Fin nq) => if dist2 (fine p.1 p.2) (coarse k) < m.2 then
          (some p, dist2 (fine p.1 p.2) (coarse k)) else m) (m k) := by
    intro l
    induction l with
    | nil => intro m; rfl
    | cons i t ih =>
      intro m
      rw [List.foldl_cons, ih, List.flatMap_cons, List.foldl_append, inner]
  exact outer _ _

theorem nearestFine_spec {big : ℝ} {coarse : Fin nq → Pos dim} {fine : Fin nc → Fin nq → Pos dim} {k : Fin nq}
    (hb : ∀ i j, dist2 (fine i j) (coarse k) < big) (hc : 0 < nc) :
    ∃ p : Fin nc × Fin nq, (nearestFine big coarse fine k).1 = some p ∧
      ∀ i j, dist2 (fine p.1 p.2) (coarse k) ≤ dist2 (fine i j) (coarse k) := by
  have hmem : ∀ (i : Fin nc) (j : Fin nq),
      (i, j) ∈ (List.finRange nc).flatMap fun i => (List.finRange nq).map fun j => (i, j) := by
    intro i j
    exact List.mem_flatMap.2 ⟨i, List.mem_finRange _, List.mem_map.2 ⟨j, List.mem_finRange _, rfl⟩⟩
  obtain ⟨-, h2, h3⟩ := runMin (fun p : Fin nc × Fin nq => dist2 (fine p.1 p.2) (coarse k))
    ((List.finRange nc).flatMap fun i => (List.finRange nq).map fun j => (i, j)) (none, big)
  rcases h3 with h3 | ⟨p, -, h3⟩
  · exfalso
    have := h2 (⟨0, hc⟩, k) (hmem _ _)
    rw [h3] at this
    exact absurd (hb ⟨0, hc⟩ k) (not_lt.2 this)
  · refine ⟨p, by rw [nearestFine_eq, h3], fun i j => ?_⟩
    have := h2 (i, j) (hmem i j)
    rw [h3] at this
    exact this

/-! ## C70 -/

/-- **C70** (refinement). Every quadrature point of every child gets the value of a quadrature point of the parent that is
nearest to it. -/
theorem C70_refine_takes_nearest (big : ℝ) (coarse : Fin nq → Pos dim) (fine : Fin nc → Fin nq → Pos dim) (hq : 0 < nq)
    (hb : ∀ i j k, dist (fine i j) (coarse k) ^ 2 < big) (v : Fin nq → V) (i : Fin nc) (j : Fin nq) :
    ∃ k, coarseToFine big coarse fine v i j = some (v k) ∧
      ∀ k', dist (fine i j) (coarse k) ≤ dist (fine i j) (coarse k') := by
  obtain ⟨k, h1, h2⟩ := nearestCoarse_spec (coarse := coarse) (x := fine i j) (big := big)
    (fun k => by rw [dist2_eq]; exact hb i j k) hq
  exact ⟨k, by simp [coarseToFine, h1], fun k' => dist2_le_iff.1 (h2 k')⟩

/-- **C70** (coarsening). Every quadrature point of the parent gets the value of a quadrature point of the children that is
nearest to it. -/
theorem C70_coarsen_takes_nearest (big : ℝ) (coarse : Fin nq → Pos dim) (fine : Fin nc → Fin nq → Pos dim) (hc : 0 < nc)
    (hb : ∀ i j k, dist (fine i j) (coarse k) ^ 2 < big) (v : Fin nc → Fin nq → V) (k : Fin nq) :
    ∃ i j, fineToCoarse big coarse fine v k = some (v i j) ∧
      ∀ i' j', dist (fine i j) (coarse k) ≤ dist (fine i' j') (coarse k) := by
  obtain ⟨p, h1, h2⟩ := nearestFine_spec (coarse := coarse) (fine := fine) (big := big) (k := k)
    (fun i j => by rw [dist2_eq]; exact hb i j k) hc
  exact ⟨p.1, p.2, by simp [fineToCoarse, h1], fun i' j' => dist2_le_iff.1 (h2 i' j')⟩

/-- **C70** (constants). A constant field stays the same constant under refinement and under coarsening. -/
theorem C70_constant_preserved (big : ℝ) (coarse : Fin nq → Pos dim) (fine : Fin nc → Fin nq → Pos dim) (hq : 0 < nq)
    (hc : 0 < nc) (hb : ∀ i j k, dist (fine i j) (coarse k) ^ 2 < big) (a : V) :
    (∀ i j, coarseToFine big coarse fine (fun _ => a) i j = some a) ∧
    (∀ k, fineToCoarse big coarse fine (fun _ _ => a) k = some a) := by
  constructor
  · intro i j
    obtain ⟨k, h, -⟩ := C70_refine_takes_nearest big coarse fine hq hb (fun _ => a) i j
    exact h
  · intro k
    obtain ⟨i, j, h, -⟩ := C70_coarsen_takes_nearest big coarse fine hc hb (fun _ _ => a) k
    exact h

/-- **C70** (bounds). Refinement and coarsening create no new values, so they keep every pointwise property of the data (for
instance bounds on stresses and plastic strains). -/
theorem C70_no_new_values (big : ℝ) (coarse : Fin nq → Pos dim) (fine : Fin nc → Fin nq → Pos dim) (hq : 0 < nq)
    (hc : 0 < nc) (hb : ∀ i j k, dist (fine i j) (coarse k) ^ 2 < big) (P : V → Prop) :
    (∀ v : Fin nq → V, (∀ k, P (v k)) → ∀ i j, ∃ x, coarseToFine big coarse fine v i j = some x ∧ P x) ∧
    (∀ v : Fin nc → Fin nq → V, (∀ i j, P (v i j)) → ∀ k, ∃ x, fineToCoarse big coarse fine v k = some x ∧ P x) := by
  constructor
  · intro v hv i j
    obtain ⟨k, h, -⟩ := C70_refine_takes_nearest big coarse fine hq hb v i j
    exact ⟨_, h, hv k⟩
  · intro v hv k
    obtain ⟨i, j, h, -⟩ := C70_coarsen_takes_nearest big coarse fine hc hb v k
    exact ⟨_, h, hv i j⟩

/-- **C70** (round trip). If every quadrature point of the parent has a quadrature point of a child closer to it than half the
distance to every other quadrature point of the parent, then refining a cell and coarsening it again gives back the data. -/
theorem C70_refine_then_coarsen (big : ℝ) (coarse : Fin nq → Pos dim) (fine : Fin nc → Fin nq → Pos dim) (hq : 0 < nq)
    (hc : 0 < nc) (hb : ∀ i j k, dist (fine i j) (coarse k) ^ 2 < big)
    (hclose : ∀ k, ∃ i j, ∀ k', k' ≠ k → 2 * dist (fine i j) (coarse k) < dist (coarse k) (coarse k')) (v : Fin nq → V)
    (w : Fin nc → Fin nq → V) (hw : ∀ i j, coarseToFine big coarse fine v i j = some (w i j)) (k : Fin nq) :
    fineToCoarse big coarse fine w k = some (v k) := by
  obtain ⟨i, j, h, hmin⟩ := C70_coarsen_takes_nearest big coarse fine hc hb w k
  obtain ⟨k', h', hmin'⟩ := C70_refine_takes_nearest big coarse fine hq hb v i j
  rw [h]
  rw [hw i j] at h'
  rw [h']
  by_cases hk : k' = k
  · rw [hk]
  · exfalso
    obtain ⟨i₀, j₀, hc0⟩ := hclose k
    have h1 := hc0 k' hk
    have h2 := hmin i₀ j₀
    have h3 := hmin' k
    have h4 : dist (coarse k) (coarse k') ≤ dist (fine i j) (coarse k) + dist (fine i j) (coarse k') := by
      rw [dist_comm (fine i j) (coarse k)]
      exact dist_triangle _ _ _
    linarith

/-! ## A concrete instance: the interval `[0, 1]`, two children, two points per cell -/

/-- Two points of the parent. -/
noncomputable def coarse1 : Fin 2 → Pos 1 := ![EuclideanSpace.single 0 (1 / 4), EuclideanSpace.single 0 (3 / 4)]
/-- Two points in each half. -/
noncomputable def fine1 : Fin 2 → Fin 2 → Pos 1 :=
  ![![EuclideanSpace.single 0 (1 / 8), EuclideanSpace.single 0 (3 / 8)],
    ![EuclideanSpace.single 0 (5 / 8), EuclideanSpace.single 0 (7 / 8)]]

/-- The hypotheses of all C70 theorems are met. -/
example : (∀ i j k, dist (fine1 i j) (coarse1 k) ^ 2 < 1) ∧
    (∀ k, ∃ i j, ∀ k', k' ≠ k → 2 * dist (fine1 i j) (coarse1 k) < dist (coarse1 k) (coarse1 k')) := by
  constructor
  · intro i j k
    match i, j, k with
    | 0, 0, 0 => norm_num [fine1, coarse1, Real.dist_eq, abs_of_nonneg, abs_of_neg]
    | 0, 0, 1 => norm_num [fine1, coarse1, Real.dist_eq, abs_of_nonneg, abs_of_neg]
    | 0, 1, 0 => norm_num [fine1, coarse1, Real.dist_eq, abs_of_nonneg, abs_of_neg]
    | 0, 1, 1 => norm_num [fine1, coarse1, Real.dist_eq, abs_of_nonneg, abs_of_neg]
    | 1, 0, 0 => norm_num [fine1, coarse1, Real.dist_eq, abs_of_nonneg, abs_of_neg]
    | 1, 0, 1 => norm_num [fine1, coarse1, Real.dist_eq, abs_of_nonneg, abs_of_neg]
    | 1, 1, 0 => norm_num [fine1, coarse1, Real.dist_eq, abs_of_nonneg, abs_of_neg]
    | 1, 1, 1 => norm_num [fine1, coarse1, Real.dist_eq, abs_of_nonneg, abs_of_neg]
  · intro k
    match k with
    | 0 =>
      refine ⟨0, 0, fun k' hk => ?_⟩
      match k' with
      | 0 => exact absurd rfl hk
      | 1 => norm_num [fine1, coarse1, Real.dist_eq, abs_of_nonneg, abs_of_neg]
    | 1 =>
      refine ⟨1, 0, fun k' hk => ?_⟩
      match k' with
      | 0 => norm_num [fine1, coarse1, Real.dist_eq, abs_of_nonneg, abs_of_neg]
      | 1 => exact absurd rfl hk

end Verif.Refinement.Quad
