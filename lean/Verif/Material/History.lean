import Verif.Material.Phase
import Verif.Refinement.Forest
import Mathlib.Data.Fintype.Pi
import Mathlib.Data.Fintype.BigOperators
import Mathlib.Data.List.Infix

/-!
# C120: the phases over a whole run with an adapting mesh

The mesh is a forest of refinement trees as in `Verif.Refinement.Forest`; every active cell carries the fractions kept by
`MaterialProperty` and those at its quadrature points kept by the thermal operator.  A run is any sequence of operator applications,
of `set_state_to_material_properties` (output) and of adaptations (`refine_and_transfer`, `application/adamantine.hh:325-520`;
`add_material`, `source/ThermalPhysics.templates.hh:613-817`, is an adaptation that keeps every cell).  The copies between cells, lanes,
ranks and messages are `C22`, `C105` and `C106`; here they are composed.
-/

namespace Verif.Material.History

open Verif.Material

/-- The fractions of an active cell: those of `MaterialProperty` and those at the quadrature points of the operator. -/
structure Rec (nq : ℕ) where
  cell : Ratios
  point : Fin nq → Ratios

/-- One of the `2^n` children of a cell. -/
abbrev Child (n : ℕ) := Fin n → Bool

/-- The refinement tree of a coarse cell with the data of its active cells. -/
inductive DTree (n nq : ℕ)
  | leaf (d : Rec nq)
  | node (children : Child n → DTree n nq)

/-- The tree without the data: the mesh of `Verif.Refinement.Forest`. -/
def DTree.shape {n nq : ℕ} : DTree n nq → Refinement.Tree n
  | .leaf _ => .leaf
  | .node f => .node fun c => (f c).shape

/-- The active cell reached from the coarse cell by the children `p`, if there is one. -/
def DTree.active {n nq : ℕ} : DTree n nq → List (Child n) → Option (Rec nq)
  | .leaf d, [] => some d
  | .leaf _, _ :: _ => none
  | .node _, [] => none
  | .node f, c :: p => (f c).active p

/-- `set_state_to_material_properties` on a cell, `source/MaterialProperty.templates.hh:532-620`. -/
noncomputable def Rec.stored {nq : ℕ} (k : Kind) (d : Rec nq) : Rec nq := { d with cell := average k d.point }

/-- `set_state_to_material_properties`, the transfer of the fractions of the cell and `get_state_from_material_properties`,
`application/adamantine.hh:337`, `:361-512`, `:515`, `source/ThermalOperator.templates.hh:753-800`: every quadrature point gets the
fractions of the cell. -/
noncomputable def Rec.reloaded {nq : ℕ} (k : Kind) (d : Rec nq) : Rec nq := ⟨average k d.point, fun _ => average k d.point⟩

/-- An adaptation with the data (`application/adamantine.hh:325-520`).  An unchanged cell keeps its data, a refined cell
passes them to its children, and the parent of a coarsened family gets the data of the first child
(`CellDataTransfer` with its default strategies `preserve` and `check_equality`; in debug builds the latter throws if the children
differ).  Coarsening needs `coarsen_after_beam` (`co`). -/
inductive Adapted {n nq : ℕ} (k : Kind) (co : Bool) : DTree n nq → DTree n nq → Prop
  | keep (d : Rec nq) : Adapted k co (.leaf d) (.leaf (d.reloaded k))
  | refine (d : Rec nq) : Adapted k co (.leaf d) (.node fun _ => .leaf (d.reloaded k))
  | node (f f' : Child n → DTree n nq) (h : ∀ c, Adapted k co (f c) (f' c)) : Adapted k co (.node f) (.node f')
  | coarsen (d : Child n → Rec nq) (h : co = true) :
      Adapted k co (.node fun c => .leaf (d c)) (.leaf ((d fun _ => false).reloaded k))

/-- One application of the operator to a cell with temperatures `T` at its points (`none`: a cell without material is not visited):
each point is one lane `i` of some batch (`W` lanes, powder fractions `old`, liquid fractions `l`) treated by the rule of the host or of the
device, `source/ThermalOperator.templates.hh:231-317`, `source/ThermalOperatorDevice.templates.hh:156-231`. -/
structure Evaluates {nq : ℕ} (rule : ∀ W, LaneRule W) (k : Kind) (m : Melt) (T : Option (Fin nq → ℝ)) (d d' : Rec nq) : Prop where
  cell : d'.cell = d.cell
  outside : T = none → d' = d
  inside : ∀ t, T = some t → ∀ q, ∃ (W : ℕ) (i : Fin W) (old l : Fin W → ℝ), old i = (d.point q).powder ∧
    (k ≠ .solid → liquidRatio m (t q) = some (l i)) ∧ 0 ≤ l i ∧ l i ≤ 1 ∧ d'.point q = rule W k old l i

/-- A relation applied at every active cell. -/
inductive Everywhere {n nq : ℕ} (R : List (Child n) → Rec nq → Rec nq → Prop) : List (Child n) → DTree n nq → DTree n nq → Prop
  | leaf (p : List (Child n)) (d d' : Rec nq) (h : R p d d') : Everywhere R p (.leaf d) (.leaf d')
  | node (p : List (Child n)) (f f' : Child n → DTree n nq) (h : ∀ c, Everywhere R (p ++ [c]) (f c) (f' c)) :
      Everywhere R p (.node f) (.node f')

/-- What happens to the material of a coarse cell. -/
inductive Op (n nq : ℕ)
  | evaluate (T : List (Child n) → Option (Fin nq → ℝ))
  | store
  | adapt

/-- One event on the tree of a coarse cell of a material with melting range `m` (children inherit the material of their parent). -/
def Step {n nq : ℕ} (rule : ∀ W, LaneRule W) (k : Kind) (m : Melt) (co : Bool) : Op n nq → DTree n nq → DTree n nq → Prop
  | .evaluate T, t, t' => Everywhere (fun p => Evaluates rule k m (T p)) [] t t'
  | .store, t, t' => Everywhere (fun _ d d' => d' = d.stored k) [] t t'
  | .adapt, t, t' => Adapted k co t t'

/-- A history. -/
inductive Run {n nq : ℕ} (rule : ∀ W, LaneRule W) (k : Kind) (m : Melt) (co : Bool) : List (Op n nq) → DTree n nq → DTree n nq → Prop
  | nil (t : DTree n nq) : Run rule k m co [] t t
  | cons (e : Op n nq) (es : List (Op n nq)) (t t1 t2 : DTree n nq) (h : Step rule k m co e t t1) (hs : Run rule k m co es t1 t2) :
      Run rule k m co (e :: es) t t2

/-! ## Specification -/

/-- The start of a run: a partition in every cell, the same at all points of a cell. -/
def Fresh {n nq : ℕ} (t : DTree n nq) : Prop :=
  ∀ p d, t.active p = some d → Partition d.cell ∧ ∀ q, d.point q = d.cell

/-- The mean of a quantity over a coarse cell: every child has the same share of its parent. -/
noncomputable def DTree.mean {n nq : ℕ} (f : Rec nq → ℝ) : DTree n nq → ℝ
  | .leaf d => f d
  | .node g => (∑ c, (g c).mean f) / 2 ^ n

/-! ## Proofs -/

theorem everywhere_active {n nq : ℕ} {R : List (Child n) → Rec nq → Rec nq → Prop} {p : List (Child n)} {t t' : DTree n nq}
    (h : Everywhere R p t t') : ∀ p', (∀ d', t'.active p' = some d' → ∃ d, t.active p' = some d ∧ R (p ++ p') d d') := by
  induction h with
  | leaf p d d' h =>
    intro p' e he
    cases p' with
    | nil => cases he; exact ⟨d, rfl, by simpa using h⟩
    | cons c p' => cases he
  | node p f f' h ih =>
    intro p' e he
    cases p' with
    | nil => cases he
    | cons c p' =>
      obtain ⟨d, h1, h2⟩ := ih c p' e he
      exact ⟨d, h1, by simpa using h2⟩

/-- Two active cells of one tree, one below the other, are the same cell. -/
theorem active_unique {n nq : ℕ} (t : DTree n nq) : ∀ p p' d d', t.active p = some d → t.active p' = some d' → p <+: p' → p = p' := by
  induction t with
  | leaf e =>
    intro p p' d d' h h' _
    cases p with
    | cons c p => cases h
    | nil =>
      cases p' with
      | cons c p' => cases h'
      | nil => rfl
  | node f ih =>
    intro p p' d d' h h' hp
    cases p with
    | nil => cases h
    | cons c p =>
      cases p' with
      | nil => cases h'
      | cons c' p' =>
        rw [List.cons_prefix_cons] at hp
        obtain ⟨rfl, hp⟩ := hp
        rw [ih c p p' d d' h h' hp]

/-- Without coarsening an active cell of the new mesh lies in one of the old mesh and has its data. -/
theorem adapted_active {n nq : ℕ} {k : Kind} {t t' : DTree n nq} (h : Adapted k false t t') :
    ∀ p' d', t'.active p' = some d' → ∃ p d, p <+: p' ∧ t.active p = some d ∧ d' = d.reloaded k := by
  induction h with
  | keep d =>
    intro p' d' h
    cases p' with
    | nil => cases h; exact ⟨[], d, List.nil_prefix, rfl, rfl⟩
    | cons c p' => cases h
  | refine d =>
    intro p' d' h
    cases p' with
    | nil => cases h
    | cons c p' =>
      cases p' with
      | nil => cases h; exact ⟨[], d, List.nil_prefix, rfl, rfl⟩
      | cons c' p' => cases h
  | node f f' h ih =>
    intro p' d' h'
    cases p' with
    | nil => cases h'
    | cons c p' =>
      obtain ⟨p, d, h1, h2, h3⟩ := ih c p' d' h'
      exact ⟨c :: p, d, List.cons_prefix_cons.2 ⟨rfl, h1⟩, h2, h3⟩
  | coarsen d h => cases h

/-- With or without coarsening the data of a new cell are those of some old cell of the same coarse cell. -/
theorem adapted_some {n nq : ℕ} {k : Kind} {co : Bool} {t t' : DTree n nq} (h : Adapted k co t t') :
    ∀ p' d', t'.active p' = some d' → ∃ p d, t.active p = some d ∧ d' = d.reloaded k := by
  induction h with
  | keep d =>
    intro p' d' h
    cases p' with
    | nil => cases h; exact ⟨[], d, rfl, rfl⟩
    | cons c p' => cases h
  | refine d =>
    intro p' d' h
    cases p' with
    | nil => cases h
    | cons c p' =>
      cases p' with
      | nil => cases h; exact ⟨[], d, rfl, rfl⟩
      | cons c' p' => cases h
  | node f f' h ih =>
    intro p' d' h'
    cases p' with
    | nil => cases h'
    | cons c p' =>
      obtain ⟨p, d, h2, h3⟩ := ih c p' d' h'
      exact ⟨c :: p, d, h2, h3⟩
  | coarsen d h =>
    intro p' d' h'
    cases p' with
    | nil => cases h'; exact ⟨[fun _ => false], d _, rfl, rfl⟩
    | cons c p' => cases h'

/-- Powder fractions at the points are not negative and on average at most that of the cell. -/
def Inv {nq : ℕ} (k : Kind) (d : Rec nq) : Prop := (∀ q, 0 ≤ (d.point q).powder) ∧ (average k d.point).powder ≤ d.cell.powder

/-- What an event can do to the data of a cell. -/
def Below {nq : ℕ} (k : Kind) (d d' : Rec nq) : Prop := Inv k d → Inv k d' ∧ d'.cell.powder ≤ d.cell.powder

theorem stored_below {nq : ℕ} (k : Kind) (d : Rec nq) : Below k d (d.stored k) := fun h => ⟨⟨h.1, le_refl _⟩, h.2⟩

theorem reloaded_below {nq : ℕ} (hq : 0 < nq) (k : Kind) (d : Rec nq) : Below k d (d.reloaded k) := fun h =>
  have hn := average_powder_nonneg k d.point h.1
  ⟨⟨fun _ => hn, average_const_powder hq k _ hn⟩, h.2⟩

theorem evaluates_below {nq : ℕ} (hq : 0 < nq) (rule : ∀ W, LaneRule W) (hr : ∀ W, PowderDown (rule W)) (k : Kind) (m : Melt)
    (T : Option (Fin nq → ℝ)) (d d' : Rec nq) (h : Evaluates rule k m T d d') : Below k d d' := by
  intro hi
  cases T with
  | none => rw [h.outside rfl]; exact ⟨hi, le_refl _⟩
  | some t =>
    have hp : ∀ q, 0 ≤ (d'.point q).powder ∧ (d'.point q).powder ≤ (d.point q).powder := by
      intro q
      obtain ⟨W, i, old, l, ho, _, _, hl, he⟩ := h.inside t rfl q
      have := hr W k old l i (by rw [ho]; exact hi.1 q) hl
      rw [he, ← ho]
      exact this
    refine ⟨⟨fun q => (hp q).1, ?_⟩, by rw [h.cell]⟩
    rw [h.cell]
    exact (average_powder_mono hq k _ _ fun q => (hp q).2).trans hi.2

theorem step_back {n nq : ℕ} (hq : 0 < nq) (rule : ∀ W, LaneRule W) (hr : ∀ W, PowderDown (rule W)) (k : Kind) (m : Melt) (co : Bool)
    (e : Op n nq) (t t' : DTree n nq) (h : Step rule k m co e t t') :
    ∀ p' d', t'.active p' = some d' → ∃ p d, (co = false → p <+: p') ∧ t.active p = some d ∧ Below k d d' := by
  intro p' d' h'
  cases e with
  | evaluate T =>
    obtain ⟨d, h1, h2⟩ := everywhere_active h p' d' h'
    exact ⟨p', d, fun _ => List.prefix_rfl, h1, evaluates_below hq rule hr k m _ d d' h2⟩
  | store =>
    obtain ⟨d, h1, h2⟩ := everywhere_active h p' d' h'
    exact ⟨p', d, fun _ => List.prefix_rfl, h1, h2 ▸ stored_below k d⟩
  | adapt =>
    cases co with
    | false =>
      obtain ⟨p, d, h1, h2, h3⟩ := adapted_active h p' d' h'
      exact ⟨p, d, fun _ => h1, h2, h3 ▸ reloaded_below hq k d⟩
    | true =>
      obtain ⟨p, d, h2, h3⟩ := adapted_some h p' d' h'
      exact ⟨p, d, fun h => (by cases h), h2, h3 ▸ reloaded_below hq k d⟩

theorem run_back {n nq : ℕ} (hq : 0 < nq) (rule : ∀ W, LaneRule W) (hr : ∀ W, PowderDown (rule W)) (k : Kind) (m : Melt) (co : Bool)
    (es : List (Op n nq)) (t t' : DTree n nq) (h : Run rule k m co es t t') :
    ∀ p' d', t'.active p' = some d' → ∃ p d, (co = false → p <+: p') ∧ t.active p = some d ∧ Below k d d' := by
  induction h with
  | nil t => exact fun p' d' h => ⟨p', d', fun _ => List.prefix_rfl, h, fun hi => ⟨hi, le_refl _⟩⟩
  | cons e es t t1 t2 h _ ih =>
    intro p' d' h'
    obtain ⟨p1, d1, a1, b1, c1⟩ := ih p' d' h'
    obtain ⟨p, d, a, b, c⟩ := step_back hq rule hr k m co e t t1 h p1 d1 b1
    refine ⟨p, d, fun hc => (a hc).trans (a1 hc), b, fun hi => ?_⟩
    obtain ⟨i1, l1⟩ := c hi
    obtain ⟨i2, l2⟩ := c1 i1
    exact ⟨i2, l2.trans l1⟩

theorem fresh_inv {n nq : ℕ} (hq : 0 < nq) (k : Kind) (t : DTree n nq) (h : Fresh t) (p : List (Child n)) (d : Rec nq)
    (hd : t.active p = some d) : Inv k d := by
  obtain ⟨h1, h2⟩ := h p d hd
  have hpt : d.point = fun _ => d.cell := funext h2
  have h0 : 0 ≤ d.cell.powder := h1.powder.1
  refine ⟨fun q => by rw [h2 q]; exact h0, ?_⟩
  rw [hpt]
  exact average_const_powder hq k _ h0

/-- The rules of the two implementations. -/
inductive Implemented : (∀ W, LaneRule W) → Prop
  | host : Implemented hostRule
  | device : Implemented deviceRule

theorem implemented_down (rule : ∀ W, LaneRule W) (h : Implemented rule) (W : ℕ) : PowderDown (rule W) := by
  cases h with
  | host => exact hostRule_down W
  | device => exact deviceRule_down W

/-- **C120, powder, without coarsening.**  At all times of a run, whatever the sequence of operator applications, outputs, additions of
material and refinements, host or device code, any batches: every later active cell lies in an earlier one, and the powder
fraction of a cell never exceeds that of the cell it lies in at any earlier time. -/
theorem C120_powder_partial {n nq : ℕ} (hq : 0 < nq) (rule : ∀ W, LaneRule W) (hr : Implemented rule) (k : Kind) (m : Melt)
    (t0 t1 t2 : DTree n nq) (h0 : Fresh t0) (before after : List (Op n nq)) (h1 : Run rule k m false before t0 t1)
    (h2 : Run rule k m false after t1 t2) (p' : List (Child n)) (d' : Rec nq) (h' : t2.active p' = some d') :
    (∃ p d, p <+: p' ∧ t1.active p = some d) ∧
    ∀ p d, p <+: p' → t1.active p = some d → d'.cell.powder ≤ d.cell.powder := by
  obtain ⟨p1, d1, a1, b1, c1⟩ := run_back hq rule (implemented_down rule hr) k m false after t1 t2 h2 p' d' h'
  refine ⟨⟨p1, d1, a1 rfl, b1⟩, fun p d hp hd => ?_⟩
  have hpp : p = p1 := by
    rcases List.prefix_or_prefix_of_prefix hp (a1 rfl) with h | h
    · exact active_unique t1 p p1 d d1 hd b1 h
    · exact (active_unique t1 p1 p d1 d b1 hd h).symm
  subst hpp
  obtain rfl : d = d1 := by rw [hd] at b1; exact Option.some.inj b1
  obtain ⟨p0, d0, _, b0, c0⟩ := run_back hq rule (implemented_down rule hr) k m false before t0 t1 h1 p d hd
  exact (c1 (c0 (fresh_inv hq k t0 h0 p0 d0 b0)).1).2

/-- **C120, powder, with coarsening.**  The largest powder fraction in a coarse cell never increases: if at some time no cell of it has more than `M`,
no cell of it ever has. -/
theorem C120_largest {n nq : ℕ} (hq : 0 < nq) (rule : ∀ W, LaneRule W) (hr : Implemented rule) (k : Kind) (m : Melt) (co : Bool)
    (t0 t1 t2 : DTree n nq) (h0 : Fresh t0) (before after : List (Op n nq)) (h1 : Run rule k m co before t0 t1)
    (h2 : Run rule k m co after t1 t2) (M : ℝ) (hM : ∀ p d, t1.active p = some d → d.cell.powder ≤ M)
    (p' : List (Child n)) (d' : Rec nq) (h' : t2.active p' = some d') : d'.cell.powder ≤ M := by
  obtain ⟨p, d, _, b1, c1⟩ := run_back hq rule (implemented_down rule hr) k m co after t1 t2 h2 p' d' h'
  obtain ⟨p0, d0, _, b0, c0⟩ := run_back hq rule (implemented_down rule hr) k m co before t0 t1 h1 p d b1
  exact (c1 (c0 (fresh_inv hq k t0 h0 p0 d0 b0)).1).2.trans (hM p d b1)

theorem run_partition {n nq : ℕ} (hq : 0 < nq) (k : Kind) (m : Melt) (co : Bool) (es : List (Op n nq)) (t t' : DTree n nq)
    (h : Run deviceRule k m co es t t') (ht : ∀ p d, t.active p = some d → Partition d.cell ∧ ∀ q, Partition (d.point q)) :
    ∀ p d, t'.active p = some d → Partition d.cell ∧ ∀ q, Partition (d.point q) := by
  induction h with
  | nil t => exact ht
  | cons e es t t1 t2 h _ ih =>
    refine ih fun p d hd => ?_
    cases e with
    | evaluate T =>
      obtain ⟨d0, h1, h2⟩ := everywhere_active h p d hd
      obtain ⟨g1, g2⟩ := ht _ _ h1
      rw [h2.cell]
      refine ⟨g1, fun q => ?_⟩
      cases hT : T ([] ++ p) with
      | none => rw [h2.outside hT]; exact g2 q
      | some x =>
        obtain ⟨W, i, old, l, ho, _, hl0, hl1, he⟩ := h2.inside x hT q
        rw [he]
        have : 0 ≤ old i := by rw [ho]; exact (g2 q).powder.1
        exact phase_partition k (old i) (l i) this ⟨hl0, hl1⟩
    | store =>
      obtain ⟨d0, h1, h2⟩ := everywhere_active h p d hd
      obtain ⟨g1, g2⟩ := ht _ _ h1
      subst h2
      exact ⟨average_partition hq k _ g2, g2⟩
    | adapt =>
      obtain ⟨p0, d0, h1, h2⟩ := adapted_some h p d hd
      obtain ⟨g1, g2⟩ := ht _ _ h1
      subst h2
      exact ⟨average_partition hq k _ g2, fun _ => average_partition hq k _ g2⟩

/-- **C120, partition of unity**, device code, with or without coarsening: at all times of a run the fractions of every active cell and of
all its quadrature points lie between zero and one and add up to one.  (On the host this fails with powder, `C30_host_powder_refuted`.) -/
theorem C120_fractions {n nq : ℕ} (hq : 0 < nq) (k : Kind) (m : Melt) (co : Bool) (es : List (Op n nq)) (t t' : DTree n nq)
    (ht : Fresh t) (h : Run deviceRule k m co es t t') (p : List (Child n)) (d : Rec nq) (hd : t'.active p = some d) :
    (∀ x ∈ [d.cell.solid, d.cell.liquid, d.cell.powder], 0 ≤ x ∧ x ≤ 1) ∧ d.cell.solid + d.cell.liquid + d.cell.powder = 1 ∧
    ∀ q, (∀ x ∈ [(d.point q).solid, (d.point q).liquid, (d.point q).powder], 0 ≤ x ∧ x ≤ 1) ∧
      (d.point q).solid + (d.point q).liquid + (d.point q).powder = 1 := by
  have key : ∀ r : Ratios, Partition r → (∀ x ∈ [r.solid, r.liquid, r.powder], 0 ≤ x ∧ x ≤ 1) ∧ r.solid + r.liquid + r.powder = 1 := by
    intro r hr
    refine ⟨fun x hx => ?_, hr.sum⟩
    simp only [List.mem_cons, List.not_mem_nil, or_false] at hx
    rcases hx with rfl | rfl | rfl
    · exact hr.solid
    · exact hr.liquid
    · exact hr.powder
  obtain ⟨h1, h2⟩ := run_partition hq k m co es t t' h
    (fun p d hd => ⟨(ht p d hd).1, fun q => by rw [(ht p d hd).2 q]; exact (ht p d hd).1⟩) p d hd
  exact ⟨(key _ h1).1, (key _ h1).2, fun q => key _ (h2 q)⟩

/-- No powder at the points. -/
def Molten {nq : ℕ} (d : Rec nq) : Prop := ∀ q, (d.point q).powder = 0

theorem molten_average {nq : ℕ} (k : Kind) (d : Rec nq) (h : Molten d) : (average k d.point).powder = 0 := by
  cases k with
  | solid => rfl
  | solidLiquid => rfl
  | solidLiquidPowder => simp [average, h _]

theorem step_molten {n nq : ℕ} (k : Kind) (m : Melt) (e : Op n nq) (t t' : DTree n nq) (h : Step deviceRule k m false e t t')
    (p' : List (Child n)) (d' : Rec nq) (h' : t'.active p' = some d') :
    ∃ p d, p <+: p' ∧ t.active p = some d ∧ (Molten d → Molten d' ∧
      ((∃ T, e = .evaluate T) → d'.cell = d.cell) ∧ (e = .store ∨ e = .adapt → d'.cell.powder = 0)) := by
  cases e with
  | evaluate T =>
    obtain ⟨d, h1, h2⟩ := everywhere_active h p' d' h'
    refine ⟨p', d, List.prefix_rfl, h1, fun hm => ⟨fun q => ?_, fun _ => h2.cell, fun h => by rcases h with h | h <;> cases h⟩⟩
    cases hT : T ([] ++ p') with
    | none => rw [h2.outside hT]; exact hm q
    | some x =>
      obtain ⟨W, i, old, l, ho, _, hl0, hl1, he⟩ := h2.inside x hT q
      rw [he]
      have : old i = 0 := by rw [ho]; exact hm q
      simp only [deviceRule, this]
      exact phase_powder_zero k _ ⟨hl0, hl1⟩
  | store =>
    obtain ⟨d, h1, h2⟩ := everywhere_active h p' d' h'
    subst h2
    exact ⟨p', d, List.prefix_rfl, h1, fun hm => ⟨hm, fun ⟨_, h⟩ => (by cases h), fun _ => molten_average k d hm⟩⟩
  | adapt =>
    obtain ⟨p, d, h1, h2, h3⟩ := adapted_active h p' d' h'
    subst h3
    exact ⟨p, d, h1, h2, fun hm => ⟨fun _ => molten_average k d hm, fun ⟨_, h⟩ => (by cases h), fun _ => molten_average k d hm⟩⟩

theorem run_molten {n nq : ℕ} (k : Kind) (m : Melt) (es : List (Op n nq)) (t t' : DTree n nq) (h : Run deviceRule k m false es t t') :
    ∀ p' d', t'.active p' = some d' → ∃ p d, p <+: p' ∧ t.active p = some d ∧ (Molten d → Molten d' ∧
      (.store ∈ es ∨ .adapt ∈ es ∨ d.cell.powder = 0 → d'.cell.powder = 0)) := by
  induction h with
  | nil t => exact fun p' d' h => ⟨p', d', List.prefix_rfl, h, fun hm => ⟨hm, fun h => by simpa using h⟩⟩
  | cons e es t t1 t2 h _ ih =>
    intro p' d' h'
    obtain ⟨p1, d1, a1, b1, c1⟩ := ih p' d' h'
    obtain ⟨p, d, a, b, c⟩ := step_molten k m e t t1 h p1 d1 b1
    refine ⟨p, d, a.trans a1, b, fun hm => ?_⟩
    obtain ⟨m1, q1, r1⟩ := c hm
    obtain ⟨m2, r2⟩ := c1 m1
    refine ⟨m2, fun hh => r2 ?_⟩
    cases e with
    | evaluate T =>
      rw [q1 ⟨T, rfl⟩]
      rcases hh with hh | hh | hh
      · exact Or.inl (by simpa using hh)
      · exact Or.inr (Or.inl (by simpa using hh))
      · exact Or.inr (Or.inr hh)
    | store => exact Or.inr (Or.inr (r1 (Or.inl rfl)))
    | adapt => exact Or.inr (Or.inr (r1 (Or.inr rfl)))

/-- **C120, molten material stays molten material**, device code, without coarsening: if at one operator application all quadrature points of an active
cell are above the liquidus, then at all later times no active cell inside it has powder at any point, nor in its own fractions once it has
been written to them, whatever refinements, additions, outputs and temperatures follow. -/
theorem C120_molten_partial {n nq : ℕ} (hq : 0 < nq) (k : Kind) (m : Melt) (hmel : m.solidus ≤ m.liquidus) (t0 t1 t2 t3 : DTree n nq) (h0 : Fresh t0)
    (before after : List (Op n nq)) (h1 : Run deviceRule k m false before t0 t1) (T : List (Child n) → Option (Fin nq → ℝ))
    (h2 : Step deviceRule k m false (.evaluate T) t1 t2) (h3 : Run deviceRule k m false after t2 t3)
    (p p' : List (Child n)) (hp : p <+: p') (d : Rec nq) (hd : t1.active p = some d) (x : Fin nq → ℝ) (hx : T p = some x)
    (hot : ∀ q, m.liquidus < x q) (d' : Rec nq) (hd' : t3.active p' = some d') :
    (∀ q, (d'.point q).powder = 0) ∧ (.store ∈ after ∨ .adapt ∈ after → d'.cell.powder = 0) := by
  obtain ⟨p2, d2, a2, b2, c2⟩ := run_molten k m after t2 t3 h3 p' d' hd'
  obtain ⟨d1, e1, e2⟩ := everywhere_active h2 p2 d2 b2
  have hpp : p = p2 := by
    rcases List.prefix_or_prefix_of_prefix hp a2 with h | h
    · exact active_unique t1 p p2 d d1 hd e1 h
    · exact (active_unique t1 p2 p d1 d e1 hd h).symm
  subst hpp
  obtain rfl : d = d1 := by rw [hd] at e1; exact Option.some.inj e1
  have hinv : Inv k d := by
    obtain ⟨p0, d0, _, b0, c0⟩ := run_back hq deviceRule (fun W => deviceRule_down W) k m false before t0 t1 h1 p d hd
    exact (c0 (fresh_inv hq k t0 h0 p0 d0 b0)).1
  have hm : Molten d2 := by
    intro q
    obtain ⟨W, i, old, l, ho, hl, _, _, he⟩ := e2.inside x (by simpa using hx) q
    rw [he]
    cases k with
    | solid => rfl
    | solidLiquid => rfl
    | solidLiquidPowder =>
      have hl' := hl (by simp)
      have hns : ¬ x q < m.solidus := by linarith [hot q]
      simp only [liquidRatio, if_neg hns, if_pos (hot q), Option.some.injEq] at hl'
      simp only [deviceRule, ← hl']
      exact phase_liquid_one _ _ (by rw [ho]; exact hinv.1 q)
  obtain ⟨r1, r2⟩ := c2 hm
  exact ⟨r1, fun h => r2 (h.elim Or.inl fun h => Or.inr (Or.inl h))⟩

theorem card_child (n : ℕ) : (Fintype.card (Child n) : ℝ) = 2 ^ n := by
  simp [Child]

/-- **C120, refinement creates and destroys nothing.**  An adaptation without coarsening leaves the amount of every phase in a coarse cell (its mean over
the cell, from the fractions at the points before and those of the cells after) unchanged. -/
theorem C120_refinement_conserves {n nq : ℕ} (k : Kind) (t t' : DTree n nq) (h : Adapted k false t t') (phase : Ratios → ℝ) :
    t'.mean (fun d => phase d.cell) = t.mean (fun d => phase (average k d.point)) := by
  induction h with
  | keep d => rfl
  | refine d =>
    simp only [DTree.mean, Rec.reloaded, Finset.sum_const, Finset.card_univ, nsmul_eq_mul, card_child]
    rw [mul_div_cancel_left₀ _ (by positivity)]
  | node f f' h ih => simp only [DTree.mean, ih]
  | coarsen d h => cases h

/-- Every admissible adaptation of the mesh (`C21`) has exactly such a transfer of the data; coarsening needs the option. -/
theorem C120_every_adaptation {n nq : ℕ} (k : Kind) (co : Bool) (N : ℕ) (beams : List (Refinement.Box n)) (b : Refinement.Box n) (l : ℕ)
    (t : DTree n nq) (s' : Refinement.Tree n) (h : Refinement.Adapts (Refinement.passFlags co N beams) N b l t.shape s') :
    ∃ t', Adapted k co t t' ∧ t'.shape = s' := by
  induction t generalizing b l s' with
  | leaf d =>
    simp only [DTree.shape] at h
    cases h with
    | keep _ _ _ => exact ⟨_, .keep d, rfl⟩
    | refine _ _ _ => exact ⟨_, .refine d, rfl⟩
    | balance _ _ _ => exact ⟨_, .refine d, rfl⟩
  | node f ih =>
    simp only [DTree.shape] at h
    generalize hs : Refinement.Tree.node (fun c => (f c).shape) = s at h
    cases h with
    | keep _ _ _ => cases hs
    | refine _ _ _ => cases hs
    | balance _ _ _ => cases hs
    | node _ _ g g' h =>
      simp only [Refinement.Tree.node.injEq] at hs
      subst hs
      choose f' hf' using fun c => ih c _ _ _ (h c)
      refine ⟨.node f', .node f f' fun c => (hf' c).1, ?_⟩
      simp only [DTree.shape, (hf' _).2]
    | coarsen _ _ h =>
      simp only [Refinement.Tree.node.injEq] at hs
      have hleaf : ∀ c, ∃ d, f c = .leaf d := by
        intro c
        have := congrFun hs c
        cases hc : f c with
        | leaf d => exact ⟨d, rfl⟩
        | node g => rw [hc] at this; simp [DTree.shape] at this
      choose d hd using hleaf
      have hf : f = fun c => .leaf (d c) := funext hd
      subst hf
      have := (Refinement.coarsen_flag co N beams _ _).1 (h fun _ => false)
      exact ⟨_, .coarsen d this.1, rfl⟩

/-! ## Examples -/

/-- A cell of powder. -/
def powderRec : Rec 1 := ⟨⟨0, 0, 1⟩, fun _ => ⟨0, 0, 1⟩⟩

/-- A cell of liquid. -/
def liquidRec : Rec 1 := ⟨⟨0, 0, 1⟩, fun _ => ⟨0, 1, 0⟩⟩

theorem melt_powder (T : Option (Fin 1 → ℝ)) (hT : T = some fun _ => 1800) :
    Evaluates (nq := 1) deviceRule .solidLiquidPowder ⟨1600, 1700⟩ T powderRec liquidRec where
  cell := rfl
  outside := fun h => by rw [hT] at h; cases h
  inside := fun t ht q => by
    rw [hT] at ht
    cases ht
    refine ⟨1, 0, fun _ => 1, fun _ => 1, rfl, fun _ => by norm_num [liquidRatio], by norm_num, by norm_num, ?_⟩
    simp [liquidRec, deviceRule, phase]

/-- The hypotheses can be met: a line of powder is refined, then its right half is melted and written out. -/
theorem example_run :
    let T : List (Child 1) → Option (Fin 1 → ℝ) := fun p => if p = [fun _ => true] then some fun _ => 1800 else none
    Fresh (.leaf powderRec : DTree 1 1) ∧
    Run deviceRule .solidLiquidPowder ⟨1600, 1700⟩ false [.adapt, .evaluate T, .store] (.leaf powderRec : DTree 1 1)
      (.node fun c => .leaf (if c 0 then ⟨⟨0, 1, 0⟩, fun _ => ⟨0, 1, 0⟩⟩ else powderRec)) := by
  intro T
  have hrel : powderRec.reloaded .solidLiquidPowder = powderRec := by simp [Rec.reloaded, average, powderRec]
  refine ⟨?_, .cons _ _ _ (.node fun _ => .leaf powderRec) _ ?_
    (.cons _ _ _ (.node fun c => .leaf (if c 0 then liquidRec else powderRec)) _ ?_ (.cons _ _ _ _ _ ?_ (.nil _)))⟩
  · intro p d h
    cases p with
    | nil => cases h; exact ⟨⟨by norm_num [powderRec], by norm_num [powderRec], by norm_num [powderRec], by norm_num [powderRec]⟩, fun _ => rfl⟩
    | cons c p => cases h
  · have := Adapted.refine (n := 1) (k := .solidLiquidPowder) (co := false) powderRec
    rw [hrel] at this
    exact this
  · refine .node _ _ _ fun c => .leaf _ _ _ ?_
    by_cases hc : c 0 = true
    · rw [if_pos hc]
      have : c = fun _ => true := by funext i; rw [Fin.eq_zero i, hc]
      subst this
      exact melt_powder _ (by simp [T])
    · rw [if_neg hc]
      have hT : T ([] ++ [c]) = none := by
        simp only [T, List.nil_append, List.cons.injEq, and_true]
        rw [if_neg]
        intro h
        exact hc (congrFun h 0)
      exact ⟨rfl, fun _ => rfl, fun t ht => by rw [hT] at ht; cases ht⟩
  · refine .node _ _ _ fun c => .leaf _ _ _ ?_
    by_cases hc : c 0 = true
    · simp [hc, Rec.stored, average, liquidRec]
    · simp [hc, Rec.stored, average, powderRec]

theorem adapted_weaken {n nq : ℕ} {k : Kind} {t t' : DTree n nq} (h : Adapted k false t t') : Adapted k true t t' := by
  induction h with
  | keep d => exact .keep d
  | refine d => exact .refine d
  | node f f' _ ih => exact .node f f' ih
  | coarsen d h => cases h

/-- **C120 fails with coarsening** (`coarsen_after_beam`): after the right half of a line of powder has been melted and the family is coarsened, the
parent has the fractions of the first child: all powder again where the material was liquid, and the amount of powder
in the coarse cell doubles. -/
theorem C120_coarsening_refuted :
    ∃ (es : List (Op 1 1)) (t1 t2 : DTree 1 1) (d1 d2 : Rec 1),
      Fresh (.leaf powderRec : DTree 1 1) ∧ Run deviceRule .solidLiquidPowder ⟨1600, 1700⟩ true es (.leaf powderRec) t1 ∧
      Step deviceRule .solidLiquidPowder ⟨1600, 1700⟩ true .adapt t1 t2 ∧
      t1.active [fun _ => true] = some d1 ∧ d1.cell = ⟨0, 1, 0⟩ ∧ t2.active [] = some d2 ∧ d2.cell = ⟨0, 0, 1⟩ ∧
      t1.mean (fun d => d.cell.powder) = 1 / 2 ∧ t2.mean (fun d => d.cell.powder) = 1 := by
  obtain ⟨h1, h2⟩ := example_run
  have weaken : ∀ (es : List (Op 1 1)) (t t' : DTree 1 1), Run deviceRule .solidLiquidPowder ⟨1600, 1700⟩ false es t t' →
      Run deviceRule .solidLiquidPowder ⟨1600, 1700⟩ true es t t' := by
    intro es t t' h
    induction h with
    | nil t => exact .nil t
    | cons e es t t1 t2 h _ ih =>
      refine .cons e es t t1 t2 ?_ ih
      cases e with
      | evaluate T => exact h
      | store => exact h
      | adapt =>
        exact adapted_weaken h
  refine ⟨_, _, _, _, _, h1, weaken _ _ _ h2, Adapted.coarsen _ rfl, rfl, ?_, rfl, ?_, ?_, ?_⟩
  · simp
  · simp [Rec.reloaded, average, powderRec]
  · have : ∀ g : Child 1 → ℝ, ∑ c, g c = g (fun _ => false) + g (fun _ => true) := by
      intro g
      rw [Fintype.sum_equiv (Equiv.funUnique (Fin 1) Bool) g (fun b => g fun _ => b)]
      · simp [add_comm]
      · intro c
        congr 1
        funext i
        rw [Fin.eq_zero i]
        rfl
    simp only [DTree.mean, this]
    norm_num [powderRec]
  · simp [DTree.mean, Rec.reloaded, average, powderRec]

end Verif.Material.History
