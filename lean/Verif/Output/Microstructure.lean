import Mathlib.Analysis.Calculus.Gradient.Basic
import Mathlib.Analysis.InnerProductSpace.PiL2
import Mathlib.Analysis.InnerProductSpace.Calculus
import Mathlib.Data.List.FinRange

/-!
# C68: solidification data, `source/Microstructure.hh:84-205` (`compute_G_and_R`)

`double` is `ℝ`.  A cell carries its degrees of freedom, its shape functions as functions of the position (deal.II evaluates
values and gradients of these), and its Gauss–Lobatto points.  The vectors `relevant_indices`, `G`, `cooling_rate` and
`quad_to_support_pts` live across cells in the code; they do so in the model too, so that reading a stale entry would show.
-/

namespace Verif.Output.Micro

open scoped InnerProductSpace

/-- Positions. -/
abbrev Pos (dim : ℕ) := EuclideanSpace ℝ (Fin dim)

/-- What `compute_G_and_R` uses of a cell; `n` is `n_dofs_per_cell`, which is also the number of points of the quadrature. -/
structure Cell (dim n : ℕ) where
  /-- `cell->is_locally_owned()` -/
  owned : Bool
  /-- `cell->active_fe_index()`: 0 is material, 1 is `FE_Nothing` -/
  fe : ℕ
  /-- `material_properties.get(cell->material_id(), Property::liquidus)` -/
  liquidus : ℝ
  /-- `local_dof_indices` -/
  dof : Fin n → ℕ
  /-- the shape functions on the cell -/
  shape : Fin n → Pos dim → ℝ
  /-- `fe_values.quadrature_point(q)` -/
  point : Fin n → Pos dim

/-- One line of the output file.  The third number is `cooling_rate / G`, infinite (here `none`) when `G = 0`. -/
structure Record (dim : ℕ) where
  x : Pos dim
  G : ℝ
  cooling : ℝ
  R : Option ℝ

/-- The vectors that live across cells, `Microstructure.hh:122-126`. -/
structure Buf (n : ℕ) where
  relevant : Fin n → Bool
  G : Fin n → ℝ
  cooling : Fin n → ℝ
  support : Fin n → Fin n

variable {dim n : ℕ}

/-- `fe_values.shape_grad(i, q)[d]`: the derivative of the shape function in direction `d`. -/
noncomputable def shapeGrad (c : Cell dim n) (i q : Fin n) (d : Fin dim) : ℝ :=
  fderiv ℝ (c.shape i) (c.point q) (EuclideanSpace.single d 1)

/-- Body of the first loop, `Microstructure.hh:139-153`, for one degree of freedom; the Boolean is `skip_cell`. -/
noncomputable def dofStep (c : Cell dim n) (old new : ℕ → ℝ) (dt : ℝ) (b : Buf n × Bool) (i : Fin n) : Buf n × Bool :=
  if old (c.dof i) > c.liquidus ∧ new (c.dof i) ≤ c.liquidus then
    ({ b.1 with relevant := Function.update b.1.relevant i true
                cooling := Function.update b.1.cooling i (old (c.dof i) - new (c.dof i) / dt) }, false)
  else ({ b.1 with relevant := Function.update b.1.relevant i false }, b.2)

/-- Body of the loop over points, `Microstructure.hh:163-194`: the gradient components are sums over the degrees of freedom,
the map entry is the last degree of freedom whose shape function is (almost) one at the point. -/
noncomputable def pointStep (c : Cell dim n) (new : ℕ → ℝ) (b : Buf n) (q : Fin n) : Buf n :=
  let r := (List.finRange n).foldl (fun (a : (Fin dim → ℝ) × Fin n) i =>
    (fun d => a.1 d + new (c.dof i) * shapeGrad c i q d,
      if c.shape i (c.point q) - 1 > -1e-12 then i else a.2)) (fun _ => 0, b.support q)
  { b with support := Function.update b.support q r.2
           G := Function.update b.G q (Real.sqrt (∑ d, r.1 d ^ 2)) }

/-- Writing, `Microstructure.hh:197-210`. -/
noncomputable def writeStep (c : Cell dim n) (b : Buf n) : List (Record dim) :=
  (List.finRange n).filterMap fun q =>
    if b.relevant (b.support q) then
      some ⟨c.point q, b.G q, b.cooling (b.support q),
        if b.G q = 0 then none else some (b.cooling (b.support q) / b.G q)⟩
    else none

/-- Body of the cell loop, `Microstructure.hh:128-211`. -/
noncomputable def cellStep (old new : ℕ → ℝ) (dt : ℝ) (s : Buf n × List (Record dim)) (c : Cell dim n) :
    Buf n × List (Record dim) :=
  if c.owned = true ∧ c.fe = 0 then
    let r := (List.finRange n).foldl (dofStep c old new dt) (s.1, true)
    if r.2 then (r.1, s.2)
    else
      let b := (List.finRange n).foldl (pointStep c new) r.1
      (b, s.2 ++ writeStep c b)
  else s

/-- `compute_G_and_R`, `Microstructure.hh:84-205`: the lines appended to the file (`b₀` is the zero-initialised memory; the
theorems hold for every `b₀`). -/
noncomputable def computeGR (b₀ : Buf n) (cells : List (Cell dim n)) (old new : ℕ → ℝ) (dt : ℝ) : List (Record dim) :=
  (cells.foldl (cellStep old new dt) (b₀, [])).2

/-! ## Specification -/

/-- Lagrange element: the shape functions are differentiable at the quadrature points, and the quadrature points are the support points
in the order `σ`: shape function `i` is one at its own point and zero at the others. -/
structure Nodal (c : Cell dim n) (σ : Fin n ≃ Fin n) : Prop where
  diff : ∀ i q, DifferentiableAt ℝ (c.shape i) (c.point q)
  value : ∀ i q, c.shape i (c.point q) = if i = σ q then 1 else 0

/-- The temperature field on a cell. -/
noncomputable def field (c : Cell dim n) (T : ℕ → ℝ) (x : Pos dim) : ℝ := ∑ i, T (c.dof i) * c.shape i x

/-- The temperature at `x` went from above the liquidus to the liquidus or below. -/
def Solidified (c : Cell dim n) (old new : ℕ → ℝ) (x : Pos dim) : Prop :=
  c.liquidus < field c old x ∧ field c new x ≤ c.liquidus

/-- Cells the rank has to report: locally owned and made of material. -/
def Reported (c : Cell dim n) : Prop := c.owned = true ∧ c.fe = 0

/-! ## Lemmas -/

theorem field_at_point {c : Cell dim n} {σ : Fin n ≃ Fin n} (h : Nodal c σ) (T : ℕ → ℝ) (q : Fin n) :
    field c T (c.point q) = T (c.dof (σ q)) := by
  simp [field, h.value]

/-- The values left by the loop over the degrees of freedom. -/
theorem dofLoop (c : Cell dim n) (old new : ℕ → ℝ) (dt : ℝ) (l : List (Fin n)) (hl : l.Nodup) (s : Buf n × Bool) :
    let r := l.foldl (dofStep c old new dt) s
    let P := fun i => old (c.dof i) > c.liquidus ∧ new (c.dof i) ≤ c.liquidus
    (∀ i ∈ l, (r.1.relevant i = true ↔ P i) ∧ (P i → r.1.cooling i = old (c.dof i) - new (c.dof i) / dt)) ∧
    (∀ i ∉ l, r.1.relevant i = s.1.relevant i ∧ r.1.cooling i = s.1.cooling i) ∧
    (r.2 = true ↔ s.2 = true ∧ ∀ i ∈ l, ¬ P i) := by
  induction l generalizing s with
  | nil => simp
  | cons a t ih =>
    have hat : a ∉ t := (List.nodup_cons.1 hl).1
    obtain ⟨h1, h2, h3⟩ := ih (List.nodup_cons.1 hl).2 (dofStep c old new dt s a)
    simp only [List.foldl_cons]
    refine ⟨fun i hi => ?_, fun i hi => ?_, ?_⟩
    · rcases List.mem_cons.1 hi with rfl | hi
      · rw [(h2 i hat).1, (h2 i hat).2]
        unfold dofStep
        split_ifs with hp
        · simp [hp]
        · simp only [Function.update_self]
          exact ⟨⟨fun h => by simp at h, fun h => absurd h hp⟩, fun h => absurd h hp⟩
      · exact h1 i hi
    · have hia : i ≠ a := fun e => hi (by simp [e])
      have hit : i ∉ t := fun e => hi (by simp [e])
      rw [(h2 i hit).1, (h2 i hit).2]
      unfold dofStep
      split_ifs <;> simp [Function.update_of_ne hia]
    · rw [h3]
      unfold dofStep
      split_ifs with hp
      · constructor
        · rintro ⟨h, -⟩
          cases h
        · rintro ⟨-, h⟩
          exact absurd hp (h a (by simp))
      · constructor
        · rintro ⟨h, h'⟩
          refine ⟨h, fun i hi => ?_⟩
          rcases List.mem_cons.1 hi with rfl | hi
          · exact hp
          · exact h' i hi
        · rintro ⟨h, h'⟩
          exact ⟨h, fun i hi => h' i (List.mem_cons_of_mem _ hi)⟩

/-- The inner loop of `pointStep`: the sums. -/
theorem gradLoop (c : Cell dim n) (new : ℕ → ℝ) (q : Fin n) (l : List (Fin n)) (a : (Fin dim → ℝ) × Fin n) (d : Fin dim) :
    (l.foldl (fun (a : (Fin dim → ℝ) × Fin n) i =>
      (fun d => a.1 d + new (c.dof i) * shapeGrad c i q d,
        if c.shape i (c.point q) - 1 > -1e-12 then i else a.2)) a).1 d =
      a.1 d + (l.map fun i => new (c.dof i) * shapeGrad c i q d).sum := by
  induction l generalizing a with
  | nil => simp
  | cons b t ih =>
    rw [List.foldl_cons, ih]
    simp [add_assoc]

/-- The inner loop of `pointStep`: the map. -/
theorem supportLoop {c : Cell dim n} {σ : Fin n ≃ Fin n} (h : Nodal c σ) (new : ℕ → ℝ) (q : Fin n) (l : List (Fin n))
    (a : (Fin dim → ℝ) × Fin n) :
    (l.foldl (fun (a : (Fin dim → ℝ) × Fin n) i =>
      (fun d => a.1 d + new (c.dof i) * shapeGrad c i q d,
        if c.shape i (c.point q) - 1 > -1e-12 then i else a.2)) a).2 = if σ q ∈ l then σ q else a.2 := by
  induction l generalizing a with
  | nil => simp
  | cons b t ih =>
    rw [List.foldl_cons, ih]
    by_cases hb : b = σ q
    · subst hb
      have hv : c.shape (σ q) (c.point q) - 1 > -1e-12 := by
        rw [h.value, if_pos rfl]; norm_num
      simp only [hv, if_true, List.mem_cons, true_or]
      split_ifs <;> rfl
    · have hb' : ¬ σ q = b := fun e => hb e.symm
      have hv : ¬ (c.shape b (c.point q) - 1 > -1e-12) := by
        rw [h.value, if_neg hb]; norm_num
      simp only [hv, if_false, List.mem_cons, hb', false_or]

/-- The gradient of the field, component by component. -/
theorem gradient_field {c : Cell dim n} {σ : Fin n ≃ Fin n} (h : Nodal c σ) (T : ℕ → ℝ) (q : Fin n) (d : Fin dim) :
    gradient (field c T) (c.point q) d = ∑ i, T (c.dof i) * shapeGrad c i q d := by
  have hs : ∀ i ∈ (Finset.univ : Finset (Fin n)),
      DifferentiableAt ℝ (fun x => T (c.dof i) * c.shape i x) (c.point q) :=
    fun i _ => (h.diff i q).const_mul _
  have h1 : fderiv ℝ (field c T) (c.point q) = ∑ i, T (c.dof i) • fderiv ℝ (c.shape i) (c.point q) := by
    have : field c T = fun x => ∑ i, T (c.dof i) * c.shape i x := rfl
    rw [this, fderiv_fun_sum hs]
    refine Finset.sum_congr rfl fun i _ => ?_
    rw [fderiv_const_mul (h.diff i q)]
  have h2 : gradient (field c T) (c.point q) d =
      fderiv ℝ (field c T) (c.point q) (EuclideanSpace.single d 1) := by
    have : ⟪gradient (field c T) (c.point q), EuclideanSpace.single d (1 : ℝ)⟫_ℝ =
        fderiv ℝ (field c T) (c.point q) (EuclideanSpace.single d 1) := by
      simp [gradient]
    rw [← this, EuclideanSpace.inner_single_right]
    simp
  rw [h2, h1]
  simp [shapeGrad, ContinuousLinearMap.sum_apply]

/-- `pointStep` leaves the length of the gradient and the right degree of freedom. -/
theorem pointStep_spec {c : Cell dim n} {σ : Fin n ≃ Fin n} (h : Nodal c σ) (new : ℕ → ℝ) (b : Buf n) (q : Fin n) :
    pointStep c new b q =
      { b with support := Function.update b.support q (σ q)
               G := Function.update b.G q ‖gradient (field c new) (c.point q)‖ } := by
  unfold pointStep
  simp only [supportLoop h]
  rw [if_pos (List.mem_finRange _)]
  congr 2
  rw [EuclideanSpace.norm_eq]
  congr 1
  refine Finset.sum_congr rfl fun d _ => ?_
  rw [gradLoop, gradient_field h, Real.norm_eq_abs, sq_abs, zero_add, ← List.ofFn_eq_map, List.sum_ofFn]

theorem pointLoop {c : Cell dim n} {σ : Fin n ≃ Fin n} (h : Nodal c σ) (new : ℕ → ℝ) (l : List (Fin n)) (b : Buf n) :
    let r := l.foldl (pointStep c new) b
    (∀ q ∈ l, r.support q = σ q ∧ r.G q = ‖gradient (field c new) (c.point q)‖) ∧
    (∀ q ∉ l, r.support q = b.support q ∧ r.G q = b.G q) ∧ r.relevant = b.relevant ∧ r.cooling = b.cooling := by
  induction l generalizing b with
  | nil => simp
  | cons a t ih =>
    obtain ⟨h1, h2, h3, h4⟩ := ih (pointStep c new b a)
    simp only [List.foldl_cons]
    refine ⟨fun q hq => ?_, fun q hq => ?_, ?_, ?_⟩
    · by_cases hqt : q ∈ t
      · exact h1 q hqt
      · rcases List.mem_cons.1 hq with rfl | hq
        · rw [(h2 q hqt).1, (h2 q hqt).2, pointStep_spec h]
          simp
        · exact absurd hq hqt
    · have hqa : q ≠ a := fun e => hq (by simp [e])
      have hqt : q ∉ t := fun e => hq (by simp [e])
      rw [(h2 q hqt).1, (h2 q hqt).2, pointStep_spec h]
      simp [Function.update_of_ne hqa]
    · rw [h3, pointStep_spec h]
    · rw [h4, pointStep_spec h]

open Classical in
/-- The lines written for one cell, in the vocabulary of the specification. -/
noncomputable def specCell (c : Cell dim n) (old new : ℕ → ℝ) (dt : ℝ) : List (Record dim) :=
  (List.finRange n).filterMap fun q =>
    if Solidified c old new (c.point q) then
      let G := ‖gradient (field c new) (c.point q)‖
      let r := field c old (c.point q) - field c new (c.point q) / dt
      some ⟨c.point q, G, r, if G = 0 then none else some (r / G)⟩
    else none

open Classical in
theorem cellStep_spec {c : Cell dim n} {σ : Fin n ≃ Fin n} (h : Nodal c σ) (old new : ℕ → ℝ) (dt : ℝ)
    (s : Buf n × List (Record dim)) :
    (cellStep old new dt s c).2 = s.2 ++ if Reported c then specCell c old new dt else [] := by
  unfold cellStep
  by_cases hr : c.owned = true ∧ c.fe = 0
  · rw [if_pos hr, if_pos (show Reported c from hr)]
    obtain ⟨d1, -, d3⟩ := dofLoop c old new dt (List.finRange n) (List.nodup_finRange n) (s.1, true)
    have hsol : ∀ q, Solidified c old new (c.point q) ↔
        (old (c.dof (σ q)) > c.liquidus ∧ new (c.dof (σ q)) ≤ c.liquidus) := by
      intro q; unfold Solidified; rw [field_at_point h, field_at_point h]
    by_cases hskip : ((List.finRange n).foldl (dofStep c old new dt) (s.1, true)).2 = true
    · simp only [hskip, if_true]
      have hall := (d3.1 hskip).2
      have : specCell c old new dt = [] := by
        unfold specCell
        rw [List.filterMap_eq_nil_iff]
        intro q _
        rw [if_neg]
        rw [hsol]
        exact hall (σ q) (List.mem_finRange _)
      simp [this]
    · simp only [hskip]
      simp only [Bool.false_eq_true, if_false, List.append_cancel_left_eq]
      obtain ⟨p1, -, p3, p4⟩ := pointLoop h new (List.finRange n)
        ((List.finRange n).foldl (dofStep c old new dt) (s.1, true)).1
      unfold writeStep specCell
      refine List.filterMap_congr fun q _ => ?_
      obtain ⟨e1, e2⟩ := p1 q (List.mem_finRange _)
      obtain ⟨r1, r2⟩ := d1 (σ q) (List.mem_finRange _)
      rw [e1, e2, p3, p4]
      by_cases hs : Solidified c old new (c.point q)
      · have hp := (hsol q).1 hs
        rw [if_pos (r1.2 hp), if_pos hs, r2 hp, field_at_point h, field_at_point h]
      · rw [if_neg hs, if_neg (fun hh => hs ((hsol q).2 (r1.1 hh)))]
  · rw [if_neg hr, if_neg (show ¬ Reported c from hr)]
    simp

open Classical in
theorem computeGR_spec (b₀ : Buf n) (cells : List (Cell dim n)) (hN : ∀ c ∈ cells, ∃ σ, Nodal c σ) (old new : ℕ → ℝ)
    (dt : ℝ) :
    computeGR b₀ cells old new dt = cells.flatMap fun c => if Reported c then specCell c old new dt else [] := by
  have key : ∀ (l : List (Cell dim n)) (_ : ∀ c ∈ l, ∃ σ, Nodal c σ) (s : Buf n × List (Record dim)),
      (l.foldl (cellStep old new dt) s).2 = s.2 ++ l.flatMap fun c => if Reported c then specCell c old new dt else [] := by
    intro l
    induction l with
    | nil => intro _ s; simp
    | cons c t ih =>
      intro hl s
      obtain ⟨σ, hσ⟩ := hl c (by simp)
      rw [List.foldl_cons, ih (fun c hc => hl c (List.mem_cons_of_mem _ hc)), cellStep_spec hσ, List.flatMap_cons,
        List.append_assoc]
  simpa [computeGR] using key cells hN (b₀, [])

/-! ## C68 -/

/-- **C68** (points and gradient). For every list of cells with Lagrange elements, all old and new temperatures and every
stale content of the work arrays: the positions written, in order and with multiplicity, are, cell by cell, exactly the points
of the reported cells that cooled from above the liquidus to the liquidus or below; and every line holds the length of the
temperature gradient at its point in a reported cell. -/
theorem C68_records_partial (b₀ : Buf n) (cells : List (Cell dim n)) (hN : ∀ c ∈ cells, ∃ σ, Nodal c σ) (old new : ℕ → ℝ)
    (dt : ℝ) :
    (open Classical in (computeGR b₀ cells old new dt).map Record.x =
      (cells.filter fun c => Reported c).flatMap fun c =>
        ((List.finRange n).map c.point).filter fun x => Solidified c old new x) ∧
    (∀ r ∈ computeGR b₀ cells old new dt, ∃ c ∈ cells, ∃ q, Reported c ∧ r.x = c.point q ∧ Solidified c old new r.x ∧
      r.G = ‖gradient (field c new) r.x‖ ∧ (r.G ≠ 0 → r.R = some (r.cooling / r.G)) ∧ (r.G = 0 → r.R = none)) := by
  classical
  rw [computeGR_spec b₀ cells hN]
  constructor
  · clear hN
    induction cells with
    | nil => rfl
    | cons c t ih =>
      rw [List.flatMap_cons, List.map_append, ih]
      by_cases hr : Reported c
      · rw [if_pos hr, List.filter_cons_of_pos (by simpa using hr), List.flatMap_cons]
        congr 1
        unfold specCell
        rw [List.map_filterMap, List.filter_map]
        rw [← List.filterMap_eq_filter, List.map_filterMap]
        refine List.filterMap_congr fun q _ => ?_
        by_cases hs : Solidified c old new (c.point q) <;> simp [hs, Option.guard]
      · rw [if_neg hr, List.filter_cons_of_neg (by simpa using hr)]
        simp
  · intro r hr
    rw [List.mem_flatMap] at hr
    obtain ⟨c, hc, hr⟩ := hr
    by_cases hrep : Reported c
    · rw [if_pos hrep] at hr
      unfold specCell at hr
      rw [List.mem_filterMap] at hr
      obtain ⟨q, -, hq⟩ := hr
      by_cases hs : Solidified c old new (c.point q)
      · rw [if_pos hs] at hq
        simp only [Option.some.injEq] at hq
        subst hq
        refine ⟨c, hc, q, hrep, rfl, hs, rfl, fun h => ?_, fun h => ?_⟩
        · exact if_neg h
        · exact if_pos h
      · rw [if_neg hs] at hq; cases hq
    · rw [if_neg hrep] at hr; cases hr

/-- **C68** (cooling rate, exactly when it is right). The rate on a line is that of the English property, `(old - new)/dt`,
exactly when the step is one second (or the old temperature is 0 K). -/
theorem C68_cooling_rate_iff_partial (b₀ : Buf n) (cells : List (Cell dim n)) (hN : ∀ c ∈ cells, ∃ σ, Nodal c σ)
    (old new : ℕ → ℝ) (dt : ℝ) (hdt : 0 < dt) (r : Record dim) (hr : r ∈ computeGR b₀ cells old new dt) :
    ∃ c ∈ cells, Solidified c old new r.x ∧
      (r.cooling = (field c old r.x - field c new r.x) / dt ↔ dt = 1 ∨ field c old r.x = 0) := by
  classical
  rw [computeGR_spec b₀ cells hN, List.mem_flatMap] at hr
  obtain ⟨c, hc, hr⟩ := hr
  by_cases hrep : Reported c
  · rw [if_pos hrep] at hr
    unfold specCell at hr
    rw [List.mem_filterMap] at hr
    obtain ⟨q, -, hq⟩ := hr
    by_cases hs : Solidified c old new (c.point q)
    · rw [if_pos hs] at hq
      simp only [Option.some.injEq] at hq
      subst hq
      refine ⟨c, hc, hs, ?_⟩
      simp only
      rw [sub_div, sub_left_inj]
      constructor
      · intro h
        rw [eq_div_iff hdt.ne'] at h
        by_cases h0 : field c old (c.point q) = 0
        · exact Or.inr h0
        · left
          have : field c old (c.point q) * dt = field c old (c.point q) * 1 := by rw [h, mul_one]
          exact mul_left_cancel₀ h0 this
      · rintro (h | h)
        · rw [h, div_one]
        · rw [h, zero_div]
    · rw [if_neg hs] at hq; cases hq
  · rw [if_neg hrep] at hr; cases hr

/-- **C68** refuted for the rate. With any step other than one second every recorded rate is wrong (temperatures in Kelvin,
liquidus not negative); and as soon as the new temperature exceeds `dt · old` — so for all small steps — the recorded rate of
a cooling point is negative. -/
theorem C68_cooling_rate_refuted (b₀ : Buf n) (cells : List (Cell dim n)) (hN : ∀ c ∈ cells, ∃ σ, Nodal c σ)
    (old new : ℕ → ℝ) (dt : ℝ) (hdt : 0 < dt) (h1 : dt ≠ 1) (hl : ∀ c ∈ cells, 0 ≤ c.liquidus) (r : Record dim)
    (hr : r ∈ computeGR b₀ cells old new dt) :
    ∃ c ∈ cells, Solidified c old new r.x ∧ r.cooling ≠ (field c old r.x - field c new r.x) / dt ∧
      (dt * field c old r.x < field c new r.x → r.cooling < 0) := by
  classical
  rw [computeGR_spec b₀ cells hN, List.mem_flatMap] at hr
  obtain ⟨c, hc, hr⟩ := hr
  by_cases hrep : Reported c
  · rw [if_pos hrep] at hr
    unfold specCell at hr
    rw [List.mem_filterMap] at hr
    obtain ⟨q, -, hq⟩ := hr
    by_cases hs : Solidified c old new (c.point q)
    · rw [if_pos hs] at hq
      simp only [Option.some.injEq] at hq
      subst hq
      have hpos : 0 < field c old (c.point q) := (hl c hc).trans_lt hs.1
      refine ⟨c, hc, hs, ?_, ?_⟩
      · simp only
        intro h
        rw [sub_div, sub_left_inj, eq_div_iff hdt.ne'] at h
        exact h1 (mul_left_cancel₀ hpos.ne' (by rw [h, mul_one]))
      · simp only
        intro h
        rw [sub_neg, lt_div_iff₀ hdt, mul_comm]
        exact h
    · rw [if_neg hs] at hq; cases hq
  · rw [if_neg hrep] at hr; cases hr

/-! ## A concrete instance: one linear element on `[0, 1]` -/

/-- The unit interval with its two linear shape functions; the quadrature has the points in the other order. -/
noncomputable def unitCell : Cell 1 2 where
  owned := true
  fe := 0
  liquidus := 1600
  dof := fun i => i
  shape := ![fun x => 1 - x 0, fun x => x 0]
  point := ![EuclideanSpace.single 0 1, EuclideanSpace.single 0 0]

theorem unitCell_nodal : Nodal unitCell (Equiv.swap 0 1) where
  diff := by
    intro i q
    have h0 : DifferentiableAt ℝ (fun x : Pos 1 => x 0) (unitCell.point q) :=
      (EuclideanSpace.proj (𝕜 := ℝ) (0 : Fin 1)).differentiableAt
    match i with
    | 0 => exact (differentiableAt_const 1).sub h0
    | 1 => exact h0
  value := by
    intro i q
    match i, q with
    | 0, 0 => simp [unitCell]
    | 0, 1 => simp [unitCell]
    | 1, 0 => simp [unitCell]
    | 1, 1 => simp [unitCell]

/-- The hypotheses are met and a point is recorded: the right node cools from 1700 K to 1500 K in 10 ms. -/
example (b₀ : Buf 2) : ∃ r ∈ computeGR b₀ [unitCell] (fun i => if i = 1 then 1700 else 1800)
    (fun i => if i = 1 then 1500 else 1750) (1 / 100), r.x = EuclideanSpace.single 0 1 := by
  classical
  have hN : ∀ c ∈ [unitCell], ∃ σ, Nodal c σ := by
    intro c hc
    rw [List.mem_singleton.1 hc]
    exact ⟨_, unitCell_nodal⟩
  have h := (C68_records_partial b₀ [unitCell] hN (fun i => if i = 1 then 1700 else 1800)
    (fun i => if i = 1 then 1500 else 1750) (1 / 100)).1
  have : (EuclideanSpace.single 0 1 : Pos 1) ∈ (computeGR b₀ [unitCell] (fun i => if i = 1 then 1700 else 1800)
    (fun i => if i = 1 then 1500 else 1750) (1 / 100)).map Record.x := by
    rw [h]
    rw [List.mem_flatMap]
    refine ⟨unitCell, by simp [Reported, unitCell], ?_⟩
    rw [List.mem_filter]
    refine ⟨List.mem_map.2 ⟨0, List.mem_finRange _, rfl⟩, ?_⟩
    have e : (EuclideanSpace.single 0 1 : Pos 1) = unitCell.point 0 := rfl
    refine decide_eq_true ?_
    rw [e, Solidified, field_at_point unitCell_nodal, field_at_point unitCell_nodal]
    norm_num [unitCell, Equiv.swap_apply_left]
  obtain ⟨r, hr, hx⟩ := List.mem_map.1 this
  exact ⟨r, hr, hx⟩

end Verif.Output.Micro
