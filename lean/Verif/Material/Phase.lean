import Mathlib.Data.Real.Basic
import Mathlib.Algebra.BigOperators.Fin
import Mathlib.Algebra.Order.BigOperators.Group.Finset
import Mathlib.Data.Fin.VecNotation
import Mathlib.Data.List.FinRange
import Mathlib.Tactic.Linarith
import Mathlib.Tactic.NormNum
import Mathlib.Tactic.FieldSimp
import Mathlib.Tactic.Ring

/-!
# C30, C31, C32, C38: phase fractions

Model of the phase update in `MaterialProperty::update`, `ThermalOperatorDevice` (`update_state_ratios`), `ThermalOperator`
(`update_state_ratios`, `update_face_state_ratios`) and of `set_state`, `set_state_device`,
`get_state_from_material_properties`.  `double` is `ℝ`; a NaN is `none`.
-/

namespace Verif.Material

/-- `MaterialStates`: `Solid`, `SolidLiquid`, `SolidLiquidPowder`, `source/MaterialStates.hh`. -/
inductive Kind where
  | solid | solidLiquid | solidLiquidPowder
  deriving DecidableEq

/-- The state ratios of a point or of a cell; a state that the material does not have is 0. -/
structure Ratios where
  solid : ℝ
  liquid : ℝ
  powder : ℝ

/-- `Property::solidus` and `Property::liquidus` of a material. -/
structure Melt where
  solidus : ℝ
  liquidus : ℝ

/-- The liquid ratio, `source/MaterialProperty.templates.hh:322-329`; the same `if` chain is at
`source/ThermalOperator.templates.hh:260-268`, `:296-304`, `:358-366`, `:393-401` and
`source/ThermalOperatorDevice.templates.hh:184-195`, `:211-216`.  `none` is the NaN of `0. / 0.`, which is the only way the
division has a zero divisor. -/
noncomputable def liquidRatio (m : Melt) (T : ℝ) : Option ℝ :=
  if T < m.solidus then some 0
  else if m.liquidus < T then some 1
  else if m.liquidus - m.solidus = 0 then none
  else some ((T - m.solidus) / (m.liquidus - m.solidus))

/-- The ratios from the liquid ratio `l` and the previous powder ratio `p`,
`source/MaterialProperty.templates.hh:315-352`; `source/ThermalOperatorDevice.templates.hh:163-229`. -/
noncomputable def phase (k : Kind) (p l : ℝ) : Ratios :=
  match k with
  | .solid => ⟨1, 0, 0⟩
  | .solidLiquid => ⟨1 - l, l, 0⟩
  | .solidLiquidPowder => ⟨1 - l - min (1 - l) p, l, min (1 - l) p⟩

/-! ## C32 -/

/-- The specification of the mushy-zone law. -/
structure MushyLaw (solidus liquidus : ℝ) (f : ℝ → ℝ) : Prop where
  below_solidus : ∀ T, T < solidus → f T = 0
  above_liquidus : ∀ T, liquidus < T → f T = 1
  linear : ∀ s, 0 ≤ s → s ≤ 1 → f ((1 - s) * solidus + s * liquidus) = s
  monotone : ∀ T T', T ≤ T' → f T ≤ f T'

/-- **C32** (solidus below liquidus).  The liquid fraction is a number for every temperature and follows the mushy-zone law;
in particular it is 0 at the solidus and 1 at the liquidus. -/
theorem C32_mushy_law_partial (m : Melt) (h : m.solidus < m.liquidus) :
    ∃ f : ℝ → ℝ, (∀ T, liquidRatio m T = some (f T)) ∧ MushyLaw m.solidus m.liquidus f := by
  have hd : 0 < m.liquidus - m.solidus := by linarith
  refine ⟨fun T => if T < m.solidus then 0 else if m.liquidus < T then 1
    else (T - m.solidus) / (m.liquidus - m.solidus), ?_, ?_, ?_, ?_, ?_⟩
  · intro T
    unfold liquidRatio
    split_ifs with h1 h2 h3
    · simp [h1]
    · simp [h1, h2]
    · exact absurd h3 hd.ne'
    · simp [h1, h2]
  · intro T hT
    simp [hT]
  · intro T hT
    have : ¬ T < m.solidus := by linarith
    simp [hT, this]
  · intro s h0 h1
    have e : (1 - s) * m.solidus + s * m.liquidus = m.solidus + s * (m.liquidus - m.solidus) := by ring
    have h2 : ¬ m.solidus + s * (m.liquidus - m.solidus) < m.solidus := by
      have := mul_nonneg h0 hd.le
      linarith
    have h3 : ¬ m.liquidus < m.solidus + s * (m.liquidus - m.solidus) := by
      have := mul_le_mul_of_nonneg_right h1 hd.le
      linarith
    simp only [e]
    rw [if_neg h2, if_neg h3, add_sub_cancel_left, mul_div_assoc, div_self hd.ne', mul_one]
  · intro T T' hT
    split_ifs with h1 h2 h3 h4 h5 h6
    · exact le_refl _
    · exact zero_le_one
    · exact div_nonneg (by linarith) hd.le
    · linarith
    · exact le_refl _
    · linarith
    · linarith
    · rw [div_le_one hd]; linarith
    · exact div_le_div_of_nonneg_right (by linarith) hd.le

example : (⟨1600, 1700⟩ : Melt).solidus < (⟨1600, 1700⟩ : Melt).liquidus := by norm_num

/-- **C32 fails at solidus = liquidus.**  For every pure material (solidus equal to liquidus) a point exactly at the melting
temperature has a liquid fraction that is not a number. -/
theorem C32_pure_material_refuted (t : ℝ) : liquidRatio ⟨t, t⟩ t = none := by
  simp [liquidRatio]

/-- Away from its melting temperature a pure material has the expected fraction. -/
theorem C32_pure_material_partial (t T : ℝ) :
    (T < t → liquidRatio ⟨t, t⟩ T = some 0) ∧ (t < T → liquidRatio ⟨t, t⟩ T = some 1) := by
  constructor
  · intro h; simp [liquidRatio, h]
  · intro h
    have : ¬ T < t := by linarith
    simp [liquidRatio, h, this]

theorem liquidRatio_mem (m : Melt) (T l : ℝ) (h : liquidRatio m T = some l) : 0 ≤ l ∧ l ≤ 1 := by
  unfold liquidRatio at h
  split_ifs at h with h1 h2 h3
  · cases h; norm_num
  · cases h; norm_num
  · cases h
    have hd : 0 < m.liquidus - m.solidus := lt_of_le_of_ne (by linarith) (Ne.symm h3)
    exact ⟨div_nonneg (by linarith) hd.le, by rw [div_le_one hd]; linarith⟩

/-! ## The specification of C30 -/

/-- The fractions are a partition of unity. -/
structure Partition (r : Ratios) : Prop where
  solid : 0 ≤ r.solid ∧ r.solid ≤ 1
  liquid : 0 ≤ r.liquid ∧ r.liquid ≤ 1
  powder : 0 ≤ r.powder ∧ r.powder ≤ 1
  sum : r.solid + r.liquid + r.powder = 1

theorem phase_partition (k : Kind) (p l : ℝ) (hp : 0 ≤ p) (hl : 0 ≤ l ∧ l ≤ 1) : Partition (phase k p l) := by
  cases k with
  | solid => constructor <;> norm_num [phase]
  | solidLiquid => constructor <;> simp only [phase] <;> (try constructor) <;> linarith
  | solidLiquidPowder =>
    have h1 : min (1 - l) p ≤ 1 - l := min_le_left _ _
    have h2 : 0 ≤ min (1 - l) p := le_min (by linarith) hp
    constructor <;> simp only [phase] <;> (try constructor) <;> linarith

theorem phase_powder_le (k : Kind) (p l : ℝ) (hp : 0 ≤ p) : (phase k p l).powder ≤ p := by
  cases k with
  | solid => exact hp
  | solidLiquid => exact hp
  | solidLiquidPowder => exact min_le_right _ _

theorem phase_liquid_one (k : Kind) (p : ℝ) (hp : 0 ≤ p) : (phase k p 1).powder = 0 := by
  cases k with
  | solid => rfl
  | solidLiquid => rfl
  | solidLiquidPowder => simp only [phase, sub_self]; exact min_eq_left hp

theorem phase_powder_zero (k : Kind) (l : ℝ) (hl : 0 ≤ l ∧ l ≤ 1) : (phase k 0 l).powder = 0 := by
  cases k with
  | solid => rfl
  | solidLiquid => rfl
  | solidLiquidPowder => exact min_eq_right (by linarith)

/-! ## Cell histories driven by `MaterialProperty::update` -/

/-- `MaterialProperty::update` on one cell with average temperature `T`,
`source/MaterialProperty.templates.hh:294-352`. -/
noncomputable def updateCell (k : Kind) (m : Melt) (s : Ratios) (T : ℝ) : Option Ratios :=
  if k = .solid then some (phase k s.powder 0)
  else (liquidRatio m T).map (phase k s.powder)

/-- Successive calls of `update`. -/
noncomputable def updateCells (k : Kind) (m : Melt) : Ratios → List ℝ → Option Ratios
  | s, [] => some s
  | s, T :: Ts => (updateCell k m s T).bind fun s' => updateCells k m s' Ts

theorem updateCell_spec (k : Kind) (m : Melt) (s s' : Ratios) (T : ℝ) (h : updateCell k m s T = some s')
    (hs : 0 ≤ s.powder) :
    Partition s' ∧ s'.powder ≤ s.powder ∧ (s.powder = 0 → s'.powder = 0) := by
  have key : ∃ l, (0 ≤ l ∧ l ≤ 1) ∧ s' = phase k s.powder l := by
    unfold updateCell at h
    split_ifs at h with hk
    · exact ⟨0, by norm_num, (Option.some.inj h).symm⟩
    · rw [Option.map_eq_some_iff] at h
      obtain ⟨l, hl, rfl⟩ := h
      exact ⟨l, liquidRatio_mem m T l hl, rfl⟩
  obtain ⟨l, hl, rfl⟩ := key
  refine ⟨phase_partition k _ l hs hl, phase_powder_le k _ l hs, fun h0 => ?_⟩
  rw [h0]; exact phase_powder_zero k l hl

/-- **C30 and C31 for `MaterialProperty::update`.**  For every history of cell temperatures the fractions stay a partition
of unity, the powder fraction never increases, and it stays zero once it is zero (for instance because the cell was fully
liquid). -/
theorem C30_C31_aux (k : Kind) (m : Melt) (Ts : List ℝ) :
    ∀ (s s' : Ratios), Partition s → updateCells k m s Ts = some s' →
      Partition s' ∧ s'.powder ≤ s.powder ∧ (s.powder = 0 → s'.powder = 0) := by
  induction Ts with
  | nil => intro s s' hs h; cases h; exact ⟨hs, le_refl _, id⟩
  | cons T Ts ih =>
    intro s s' hs h
    simp only [updateCells, Option.bind_eq_some_iff] at h
    obtain ⟨s1, h1, h2⟩ := h
    obtain ⟨a, b, c⟩ := updateCell_spec k m s s1 T h1 hs.powder.1
    obtain ⟨a', b', c'⟩ := ih s1 s' a h2
    exact ⟨a', b'.trans b, fun h0 => c' (c h0)⟩

/-- **C30** for `MaterialProperty::update`: for every history the fractions are a partition of unity. -/
theorem C30_update (k : Kind) (m : Melt) (s s' : Ratios) (Ts : List ℝ) (hs : Partition s)
    (h : updateCells k m s Ts = some s') : Partition s' :=
  (C30_C31_aux k m Ts s s' hs h).1

/-- A history produces a number at every step unless some temperature is exactly the melting temperature of a material with
equal solidus and liquidus. -/
theorem C30_update_defined (k : Kind) (m : Melt) (s : Ratios) (Ts : List ℝ)
    (h : ∀ T ∈ Ts, ¬ (T = m.solidus ∧ m.solidus = m.liquidus)) : ∃ s', updateCells k m s Ts = some s' := by
  induction Ts generalizing s with
  | nil => exact ⟨s, rfl⟩
  | cons T Ts ih =>
    have : ∃ s1, updateCell k m s T = some s1 := by
      unfold updateCell
      split_ifs with hk
      · exact ⟨_, rfl⟩
      · have hT := h T (List.mem_cons_self ..)
        unfold liquidRatio
        split_ifs with h1 h2 h3
        · exact ⟨_, rfl⟩
        · exact ⟨_, rfl⟩
        · exact absurd ⟨by linarith, by linarith⟩ hT
        · exact ⟨_, rfl⟩
    obtain ⟨s1, h1⟩ := this
    obtain ⟨s', h'⟩ := ih s1 fun T' hT' => h T' (List.mem_cons_of_mem _ hT')
    exact ⟨s', by simp [updateCells, h1, h']⟩

/-- **C31** for `MaterialProperty::update`: the powder fraction never increases, and if at some time the cell was above the
liquidus it is zero ever after. -/
theorem C31_update (k : Kind) (m : Melt) (s s1 s2 : Ratios) (before after : List ℝ) (hs : Partition s)
    (h1 : updateCells k m s before = some s1) (h2 : updateCells k m s1 after = some s2) :
    s2.powder ≤ s1.powder ∧
    (∀ Thot rest, m.solidus ≤ m.liquidus → m.liquidus < Thot → after = Thot :: rest → s2.powder = 0) := by
  have p1 := (C30_C31_aux k m before s s1 hs h1).1
  refine ⟨(C30_C31_aux k m after s1 s2 p1 h2).2.1, ?_⟩
  rintro Thot rest hsl hhot rfl
  simp only [updateCells, Option.bind_eq_some_iff] at h2
  obtain ⟨s3, h3, h4⟩ := h2
  have hp3 := updateCell_spec k m s1 s3 Thot h3 p1.powder.1
  have : s3.powder = 0 := by
    unfold updateCell at h3
    have hl : liquidRatio m Thot = some 1 := by
      have : ¬ Thot < m.solidus := by linarith
      simp [liquidRatio, this, hhot]
    rw [hl] at h3
    split_ifs at h3 with hk
    · rw [← Option.some.inj h3, hk]; rfl
    · rw [← Option.some.inj h3]; exact phase_liquid_one k _ p1.powder.1
  exact (C30_C31_aux k m rest s3 s2 hp3.1 h4).2.2 this

/-- A powder cell that is heated into the mushy zone, melted and cooled. -/
example : updateCells .solidLiquidPowder ⟨1600, 1700⟩ ⟨0, 0, 1⟩ [300, 1650, 1800, 300] = some ⟨1, 0, 0⟩ := by
  have hk : ¬ Kind.solidLiquidPowder = Kind.solid := by decide
  norm_num [updateCells, updateCell, liquidRatio, phase, hk]

/-! ## The operator at quadrature points

One cell (device code) or one SIMD batch of `W` cells (host code), with `nq` quadrature points.  Between two mesh
adaptations the powder and liquid ratios live at the quadrature points; `store` is `set_state_to_material_properties`,
`adapt` is `set_state_to_material_properties` followed by `get_state_from_material_properties` (what `add_material` and
`refine_and_transfer` do, `source/ThermalPhysics.templates.hh:613,817`, `application/adamantine.hh:337,515`). -/

/-- What happens to a batch: an application of the operator with given temperatures, a `store` or an `adapt`. -/
inductive Event (nq W : ℕ) where
  | evaluate (T : Fin nq → Fin W → ℝ)
  | store
  | adapt

/-- The ratios of each cell and of each quadrature point of each cell. The solid ratio at a point is the value of the last
evaluation (the code keeps only the liquid and powder ratios). -/
structure BatchState (nq W : ℕ) where
  cell : Fin W → Ratios
  point : Fin nq → Fin W → Ratios

/-- `set_state`/`set_state_device` for one cell, `source/MaterialProperty.templates.hh:552-620`, `:677-732`. -/
noncomputable def average {nq : ℕ} (k : Kind) (r : Fin nq → Ratios) : Ratios :=
  match k with
  | .solid => ⟨1, 0, 0⟩
  | .solidLiquid => ⟨1 - (∑ q, (r q).liquid) / nq, (∑ q, (r q).liquid) / nq, 0⟩
  | .solidLiquidPowder =>
    ⟨1 - (∑ q, (r q).liquid) / nq - (∑ q, (r q).powder) / nq, (∑ q, (r q).liquid) / nq, (∑ q, (r q).powder) / nq⟩

/-- The phase update of a batch: from old powder ratios and liquid ratios of all lanes to the ratios of all lanes. -/
abbrev LaneRule (W : ℕ) := Kind → (Fin W → ℝ) → (Fin W → ℝ) → Fin W → Ratios

/-- The device code treats every point on its own, `source/ThermalOperatorDevice.templates.hh:156-231`. -/
noncomputable def deviceRule (W : ℕ) : LaneRule W := fun k old l n => phase k (old n) (l n)

/-- The body of the lane loop of the host code for `SolidLiquidPowder`, `source/ThermalOperator.templates.hh:282-312` (faces:
`:378-409`).  Line 294 copies the old powder ratios of **all** lanes into `state_ratios[powder]` in every iteration. -/
noncomputable def laneBody {W : ℕ} (old l : Fin W → ℝ) (s : Fin W → Ratios) (n : Fin W) : Fin W → Ratios :=
  let s1 : Fin W → Ratios := fun i => { s i with powder := old i }
  let s2 := Function.update s1 n { s1 n with liquid := l n }
  let s3 := Function.update s2 n { s2 n with powder := min (1 - (s2 n).liquid) (s2 n).powder }
  Function.update s3 n { s3 n with solid := 1 - (s3 n).liquid - (s3 n).powder }

/-- The host code for a batch of `W` lanes, `source/ThermalOperator.templates.hh:231-317`, `:323-413`; `state_ratios` starts
with arbitrary contents, here 0. -/
noncomputable def hostRule (W : ℕ) : LaneRule W := fun k old l =>
  match k with
  | .solid => fun _ => ⟨1, 0, 0⟩
  | .solidLiquid => fun n => ⟨1 - l n, l n, 0⟩
  | .solidLiquidPowder => (List.finRange W).foldl (laneBody old l) fun _ => ⟨0, 0, 0⟩

open Classical in
/-- One event. `none` is a NaN. -/
noncomputable def step {nq W : ℕ} (rule : LaneRule W) (k : Kind) (m : Fin W → Melt) (s : BatchState nq W) :
    Event nq W → Option (BatchState nq W)
  | .evaluate T =>
    if k = .solid ∨ ∀ q n, (liquidRatio (m n) (T q n)).isSome then
      some { s with point := fun q => rule k (fun n => (s.point q n).powder) fun n =>
        (liquidRatio (m n) (T q n)).getD 0 }
    else none
  | .store => some { s with cell := fun n => average k fun q => s.point q n }
  | .adapt => some ⟨fun n => average k fun q => s.point q n, fun _ n => average k fun q => s.point q n⟩

/-- A history. -/
noncomputable def run {nq W : ℕ} (rule : LaneRule W) (k : Kind) (m : Fin W → Melt) :
    BatchState nq W → List (Event nq W) → Option (BatchState nq W)
  | s, [] => some s
  | s, e :: es => (step rule k m s e).bind fun s' => run rule k m s' es

/-- The state after `get_state_from_material_properties` for cells with the given ratios,
`source/ThermalOperator.templates.hh:775-799`, `source/ThermalOperatorDevice.templates.hh:746-767`. -/
def loaded {nq W : ℕ} (cells : Fin W → Ratios) : BatchState nq W := ⟨cells, fun _ => cells⟩

/-- All fractions of the batch. -/
def AllPartition {nq W : ℕ} (s : BatchState nq W) : Prop := (∀ n, Partition (s.cell n)) ∧ ∀ q n, Partition (s.point q n)

theorem average_bounds {nq : ℕ} (hq : 0 < nq) (f : Fin nq → ℝ) (lo hi : ℝ) (h : ∀ q, lo ≤ f q ∧ f q ≤ hi) :
    lo ≤ (∑ q, f q) / nq ∧ (∑ q, f q) / nq ≤ hi := by
  have hn : (0 : ℝ) < nq := by exact_mod_cast hq
  have h1 : ∑ _q : Fin nq, lo ≤ ∑ q, f q := Finset.sum_le_sum fun q _ => (h q).1
  have h2 : ∑ q, f q ≤ ∑ _q : Fin nq, hi := Finset.sum_le_sum fun q _ => (h q).2
  simp only [Finset.sum_const, Finset.card_univ, Fintype.card_fin, nsmul_eq_mul] at h1 h2
  rw [le_div_iff₀ hn, div_le_iff₀ hn]
  constructor <;> linarith

theorem average_partition {nq : ℕ} (hq : 0 < nq) (k : Kind) (r : Fin nq → Ratios) (h : ∀ q, Partition (r q)) :
    Partition (average k r) := by
  have hl := average_bounds hq (fun q => (r q).liquid) 0 1 fun q => (h q).liquid
  have hp := average_bounds hq (fun q => (r q).powder) 0 1 fun q => (h q).powder
  have hs : (∑ q, (r q).liquid) / nq + (∑ q, (r q).powder) / nq ≤ 1 := by
    have := average_bounds hq (fun q => (r q).liquid + (r q).powder) 0 1 fun q =>
      ⟨add_nonneg (h q).liquid.1 (h q).powder.1, by have := (h q).sum; have := (h q).solid.1; linarith⟩
    rw [Finset.sum_add_distrib, add_div] at this
    exact this.2
  cases k with
  | solid => constructor <;> norm_num [average]
  | solidLiquid =>
    constructor <;> simp only [average] <;> (try constructor) <;> linarith [hl.1, hl.2]
  | solidLiquidPowder =>
    constructor <;> simp only [average] <;> (try constructor) <;> linarith [hl.1, hl.2, hp.1, hp.2]

/-- A rule under which every lane is updated on its own. -/
def Laneless {W : ℕ} (rule : LaneRule W) (k : Kind) : Prop :=
  ∀ (old l : Fin W → ℝ) (n : Fin W), rule k old l n = phase k (old n) (l n)

theorem step_partition {nq W : ℕ} (hq : 0 < nq) (rule : LaneRule W) (k : Kind) (hr : Laneless rule k) (m : Fin W → Melt)
    (s s' : BatchState nq W) (e : Event nq W) (hs : AllPartition s) (h : step rule k m s e = some s') :
    AllPartition s' := by
  cases e with
  | evaluate T =>
    simp only [step] at h
    split_ifs at h with hc
    cases h
    refine ⟨hs.1, fun q n => ?_⟩
    simp only
    rw [hr]
    refine phase_partition _ _ _ (hs.2 q n).powder.1 ?_
    cases hl : liquidRatio (m n) (T q n) with
    | none => norm_num
    | some l => exact liquidRatio_mem _ _ _ hl
  | store =>
    cases h
    exact ⟨fun n => average_partition hq k _ fun q => hs.2 q n, hs.2⟩
  | adapt =>
    cases h
    exact ⟨fun n => average_partition hq k _ fun q => hs.2 q n, fun _ n => average_partition hq k _ fun q => hs.2 q n⟩

theorem run_partition {nq W : ℕ} (hq : 0 < nq) (rule : LaneRule W) (k : Kind) (hr : Laneless rule k) (m : Fin W → Melt)
    (es : List (Event nq W)) :
    ∀ s s' : BatchState nq W, AllPartition s → run rule k m s es = some s' → AllPartition s' := by
  induction es with
  | nil => intro s s' hs h; cases h; exact hs
  | cons e es ih =>
    intro s s' hs h
    simp only [run, Option.bind_eq_some_iff] at h
    obtain ⟨s1, h1, h2⟩ := h
    exact ih s1 s' (step_partition hq rule k hr m s s1 e hs h1) h2

/-- **C30, the fractions are always defined.**  If every material has a proper melting range, or only the solid state exists, no history of any
length produces a NaN, on the host and on the device; with other states a material whose solidus is its liquidus gives a NaN exactly at
that temperature. -/
theorem C30_defined {nq W : ℕ} (rule : LaneRule W) (k : Kind) (m : Fin W → Melt) :
    ((k = .solid ∨ ∀ n, (m n).solidus < (m n).liquidus) → ∀ (es : List (Event nq W)) (s : BatchState nq W), ∃ s', run rule k m s es = some s') ∧
    (k ≠ .solid → ∀ (s : BatchState nq W) (T : Fin nq → Fin W → ℝ) (q : Fin nq) (n : Fin W), (m n).solidus = T q n → (m n).liquidus = T q n →
      step rule k m s (.evaluate T) = none) := by
  constructor
  · intro h es
    induction es with
    | nil => intro s; exact ⟨s, rfl⟩
    | cons e es ih =>
      intro s
      have hstep : ∃ s1, step rule k m s e = some s1 := by
        cases e with
        | evaluate T =>
          have hc : k = .solid ∨ ∀ q n, (liquidRatio (m n) (T q n)).isSome := by
            rcases h with h | h
            · exact Or.inl h
            · right
              intro q n
              have := h n
              unfold liquidRatio
              split_ifs <;> simp
              linarith
          simp only [step]
          rw [if_pos hc]
          exact ⟨_, rfl⟩
        | store => exact ⟨_, rfl⟩
        | adapt => exact ⟨_, rfl⟩
      obtain ⟨s1, h1⟩ := hstep
      obtain ⟨s', h'⟩ := ih s1
      exact ⟨s', by simp only [run, h1, Option.bind_some, h']⟩
  · intro hk s T q n h1 h2
    simp only [step]
    rw [if_neg]
    rintro (h | h)
    · exact hk h
    · have := h q n
      unfold liquidRatio at this
      rw [h1, h2] at this
      simp at this

theorem deviceRule_laneless (W : ℕ) (k : Kind) : Laneless (deviceRule W) k := fun _ _ _ => rfl

/-- **C30** for the device code: for every kind of material, every number of cells and quadrature points and every history of
operator applications, stores and mesh adaptations, the fractions of every point and cell are a partition of unity. -/
theorem C30_device {nq W : ℕ} (hq : 0 < nq) (k : Kind) (m : Fin W → Melt) (cells : Fin W → Ratios)
    (hc : ∀ n, Partition (cells n)) (es : List (Event nq W)) (s : BatchState nq W)
    (h : run (deviceRule W) k m (loaded cells) es = some s) : AllPartition s :=
  run_partition hq _ k (deviceRule_laneless W k) m es _ s ⟨hc, fun _ => hc⟩ h

/-- The fractions of states that the material does not have are zero: a purely solid material is all solid, one without powder state
has no powder. -/
def OwnStates (k : Kind) (r : Ratios) : Prop :=
  (k = .solid → r.solid = 1 ∧ r.liquid = 0 ∧ r.powder = 0) ∧ (k = .solidLiquid → r.powder = 0)

/-- **C30, only the states that exist.**  On the host and on the device, for any number of lanes and every history: if the cells start
with only the states of their kind, so do all cells and points at the end; in particular a purely solid material is solid for ever. -/
theorem C30_own_states {nq W : ℕ} (device : Bool) (k : Kind) (m : Fin W → Melt) (cells : Fin W → Ratios)
    (hc : ∀ n, OwnStates k (cells n)) (es : List (Event nq W)) (s : BatchState nq W)
    (h : run (if device then deviceRule W else hostRule W) k m (loaded cells) es = some s) :
    (∀ n, OwnStates k (s.cell n)) ∧ ∀ q n, OwnStates k (s.point q n) := by
  generalize hR : (if device then deviceRule W else hostRule W) = rule at h
  have hrule : ∀ old l n, OwnStates k (rule k old l n) := by
    intro old l n
    rw [← hR]
    cases k with
    | solid => cases device <;> exact ⟨fun _ => ⟨rfl, rfl, rfl⟩, fun h => by cases h⟩
    | solidLiquid => cases device <;> exact ⟨(fun h => by cases h), fun _ => rfl⟩
    | solidLiquidPowder => exact ⟨(fun h => by cases h), fun h => by cases h⟩
  have have_avg : ∀ r : Fin nq → Ratios, OwnStates k (average k r) := by
    intro r
    cases k with
    | solid => exact ⟨fun _ => ⟨rfl, rfl, rfl⟩, fun h => by cases h⟩
    | solidLiquid => exact ⟨(fun h => by cases h), fun _ => rfl⟩
    | solidLiquidPowder => exact ⟨(fun h => by cases h), fun h => by cases h⟩
  have key : ∀ (es : List (Event nq W)) (s0 s : BatchState nq W),
      ((∀ n, OwnStates k (s0.cell n)) ∧ ∀ q n, OwnStates k (s0.point q n)) →
      run rule k m s0 es = some s →
      (∀ n, OwnStates k (s.cell n)) ∧ ∀ q n, OwnStates k (s.point q n) := by
    intro es
    induction es with
    | nil => intro s0 s h0 h; cases h; exact h0
    | cons e es ih =>
      intro s0 s h0 h
      simp only [run, Option.bind_eq_some_iff] at h
      obtain ⟨s1, h1, h2⟩ := h
      refine ih s1 s ?_ h2
      cases e with
      | evaluate T =>
        simp only [step] at h1
        split_ifs at h1 <;> (cases h1; exact ⟨h0.1, fun q n => hrule _ _ n⟩)
      | store => cases h1; exact ⟨fun n => have_avg _, h0.2⟩
      | adapt => cases h1; exact ⟨fun n => have_avg _, fun _ n => have_avg _⟩
  exact key es _ s ⟨hc, fun _ => hc⟩ h

example : OwnStates .solid ⟨1, 0, 0⟩ ∧ OwnStates .solidLiquid ⟨1 / 2, 1 / 2, 0⟩ := by
  constructor <;> simp [OwnStates]

/-! ### What the host lane loop computes -/

theorem laneBody_powder {W : ℕ} (old l : Fin W → ℝ) (s : Fin W → Ratios) (n i : Fin W) :
    (laneBody old l s n i).powder = if i = n then min (1 - l n) (old n) else old i := by
  by_cases h : i = n
  · subst h; simp [laneBody]
  · simp [laneBody, h]

theorem laneBody_own {W : ℕ} (old l : Fin W → ℝ) (s : Fin W → Ratios) (n : Fin W) :
    laneBody old l s n n = phase .solidLiquidPowder (old n) (l n) := by
  simp [laneBody, phase]

theorem laneBody_other {W : ℕ} (old l : Fin W → ℝ) (s : Fin W → Ratios) (n i : Fin W) (h : i ≠ n) :
    (laneBody old l s n i).solid = (s i).solid ∧ (laneBody old l s n i).liquid = (s i).liquid := by
  simp [laneBody, h]

theorem foldl_other {W : ℕ} (old l : Fin W → ℝ) (i : Fin W) (ns : List (Fin W)) (hn : i ∉ ns) :
    ∀ s : Fin W → Ratios, (ns.foldl (laneBody old l) s i).solid = (s i).solid ∧
      (ns.foldl (laneBody old l) s i).liquid = (s i).liquid ∧
      (ns ≠ [] → (ns.foldl (laneBody old l) s i).powder = old i) := by
  induction ns with
  | nil => intro s; simp
  | cons a ns ih =>
    intro s
    have ha : i ≠ a := fun e => hn (e ▸ List.mem_cons_self ..)
    have hns : i ∉ ns := fun e => hn (List.mem_cons_of_mem _ e)
    obtain ⟨h1, h2, h3⟩ := ih hns (laneBody old l s a)
    obtain ⟨g1, g2⟩ := laneBody_other old l s a i ha
    refine ⟨h1.trans g1, h2.trans g2, fun _ => ?_⟩
    simp only [List.foldl_cons]
    by_cases hnil : ns = []
    · subst hnil
      simp only [List.foldl_nil]
      rw [laneBody_powder, if_neg ha]
    · exact h3 hnil

/-- The host loop: the solid and liquid ratios of each lane are right, but the powder ratio is reduced in the last lane only;
all other lanes keep the old powder ratio. -/
theorem hostRule_spec {w : ℕ} (old l : Fin (w + 1) → ℝ) (n : Fin (w + 1)) :
    hostRule (w + 1) .solidLiquidPowder old l n =
      ⟨1 - l n - min (1 - l n) (old n), l n, if n = Fin.last w then min (1 - l n) (old n) else old n⟩ := by
  have hfold : ∀ (as bs : List (Fin (w + 1))) (s : Fin (w + 1) → Ratios), n ∉ bs →
      (as ++ n :: bs).foldl (laneBody old l) s n =
        ⟨1 - l n - min (1 - l n) (old n), l n, if bs = [] then min (1 - l n) (old n) else old n⟩ := by
    intro as bs s hn
    rw [List.foldl_append, List.foldl_cons]
    set s1 := as.foldl (laneBody old l) s
    have h1 := foldl_other old l n bs hn (laneBody old l s1 n)
    have h2 := laneBody_own old l s1 n
    rw [h2] at h1
    by_cases hb : bs = []
    · subst hb
      simp only [List.foldl_nil, if_true]
      exact h2
    · rw [if_neg hb]
      obtain ⟨a, b, c⟩ := h1
      have c := c hb
      cases hr : bs.foldl (laneBody old l) (laneBody old l s1 n) n with
      | mk x y z =>
        rw [hr] at a b c
        simp only [phase] at a b
        simp only at c
        rw [a, b, c]
  have hmem : n ∈ List.finRange (w + 1) := List.mem_finRange n
  obtain ⟨as, bs, hab⟩ := List.append_of_mem hmem
  have hnd : (as ++ n :: bs).Nodup := hab ▸ List.nodup_finRange (w + 1)
  have hn : n ∉ bs := by
    rw [List.nodup_append] at hnd
    exact (List.nodup_cons.1 hnd.2.1).1
  have hlast : bs = [] ↔ n = Fin.last w := by
    have e : List.finRange (w + 1) = (List.finRange w).map Fin.castSucc ++ [Fin.last w] := List.finRange_succ_last
    constructor
    · rintro rfl
      rw [e] at hab
      have := congrArg List.getLast? hab
      simpa using this.symm
    · rintro rfl
      by_contra hb
      have h1 : (as ++ Fin.last w :: bs).getLast? = some (Fin.last w) := by rw [← hab, e]; simp
      have h2 : (as ++ Fin.last w :: bs).getLast? = bs.getLast? := by
        rw [List.getLast?_append]
        cases hb' : bs with
        | nil => exact absurd hb' hb
        | cons b bs' => simp [List.getLast?_cons]
      rw [h2] at h1
      exact hn (List.mem_of_getLast? h1)
  have := hfold as bs (fun _ => ⟨0, 0, 0⟩) hn
  simp only [hostRule, hab, this]
  by_cases hb : bs = []
  · rw [if_pos hb, if_pos (hlast.1 hb)]
  · rw [if_neg hb, if_neg (fun h => hb (hlast.2 h))]

theorem hostRule_laneless {W : ℕ} (k : Kind) (h : k ≠ .solidLiquidPowder ∨ W = 1) : Laneless (hostRule W) k := by
  intro old l n
  cases k with
  | solid => rfl
  | solidLiquid => rfl
  | solidLiquidPowder =>
    rcases h with h | h
    · exact absurd rfl h
    · subst h
      rw [hostRule_spec, if_pos (Fin.ext (by have := n.isLt; simp))]
      rfl

/-- **C30** for the host code, for materials without powder or when a batch has one lane. -/
theorem C30_host_partial {nq W : ℕ} (hq : 0 < nq) (k : Kind) (hk : k ≠ .solidLiquidPowder ∨ W = 1) (m : Fin W → Melt)
    (cells : Fin W → Ratios) (hc : ∀ n, Partition (cells n)) (es : List (Event nq W)) (s : BatchState nq W)
    (h : run (hostRule W) k m (loaded cells) es = some s) : AllPartition s :=
  run_partition hq _ k (hostRule_laneless k hk) m es _ s ⟨hc, fun _ => hc⟩ h

/-- **C30 fails on the host for powder.**  For every batch width of at least two: a batch of powder cells heated once above
the liquidus and stored has, in its first cell, liquid ratio 1, powder ratio 1 and solid ratio -1. -/
theorem C30_host_powder_refuted {nq w : ℕ} (hq : 0 < nq) (m : Fin (w + 2) → Melt) (Thot : ℝ)
    (hT : ∀ n, (m n).solidus ≤ (m n).liquidus ∧ (m n).liquidus < Thot) :
    ∃ s, run (nq := nq) (hostRule (w + 2)) .solidLiquidPowder m (loaded fun _ => ⟨0, 0, 1⟩)
        [.evaluate fun _ _ => Thot, .store] = some s ∧
      s.cell 0 = ⟨-1, 1, 1⟩ ∧ ¬ Partition (s.cell 0) := by
  have hl : ∀ n, liquidRatio (m n) Thot = some 1 := fun n => by
    have h1 : ¬ Thot < (m n).solidus := by linarith [(hT n).1, (hT n).2]
    simp [liquidRatio, h1, (hT n).2]
  have hn : (0 : ℝ) < nq := by exact_mod_cast hq
  have hne : ¬ (0 : Fin (w + 2)) = Fin.last (w + 1) := by
    intro h; exact absurd (congrArg Fin.val h) (by simp)
  have key : ∀ q : Fin nq, hostRule (w + 2) .solidLiquidPowder (fun _ => (1 : ℝ)) (fun _ => (1 : ℝ)) 0 = ⟨0, 1, 1⟩ := by
    intro _
    rw [hostRule_spec, if_neg hne]
    norm_num
  have hrun : run (nq := nq) (hostRule (w + 2)) .solidLiquidPowder m (loaded fun _ => ⟨0, 0, 1⟩)
      [.evaluate fun _ _ => Thot, .store] = some ⟨fun n => average .solidLiquidPowder fun _ : Fin nq =>
        hostRule (w + 2) .solidLiquidPowder (fun _ => (1 : ℝ)) (fun _ => (1 : ℝ)) n,
        fun _ => hostRule (w + 2) .solidLiquidPowder (fun _ => (1 : ℝ)) fun _ => (1 : ℝ)⟩ := by
    simp [run, step, hl, loaded]
  refine ⟨_, hrun, ?_⟩
  have hcell : average .solidLiquidPowder (fun _ : Fin nq =>
      hostRule (w + 2) .solidLiquidPowder (fun _ => (1 : ℝ)) (fun _ => (1 : ℝ)) 0) = ⟨-1, 1, 1⟩ := by
    simp only [key ⟨0, hq⟩, average, Finset.sum_const, Finset.card_univ, Fintype.card_fin, nsmul_eq_mul, mul_one,
      div_self hn.ne']
    norm_num
  refine ⟨hcell, fun hp => ?_⟩
  have := hp.solid.1
  simp only [hcell] at this
  norm_num at this

example : ∀ _n : Fin 2, (⟨1600, 1700⟩ : Melt).solidus ≤ (⟨1600, 1700⟩ : Melt).liquidus ∧
    (⟨1600, 1700⟩ : Melt).liquidus < 1800 := by intro; norm_num

/-! ## C38 -/

/-- **C38** (materials without powder, or batches of one lane): the fractions computed for a cell in a batch depend only on
that cell's own old powder ratio and liquid ratio; two batches of any widths in which a cell has the same data give it the same
fractions. -/
theorem C38_lanes_partial {W W' : ℕ} (k : Kind) (h : k ≠ .solidLiquidPowder ∨ (W = 1 ∧ W' = 1))
    (old l : Fin W → ℝ) (old' l' : Fin W' → ℝ) (n : Fin W) (n' : Fin W') (ho : old n = old' n') (hl : l n = l' n') :
    hostRule W k old l n = hostRule W' k old' l' n' := by
  have h1 : k ≠ .solidLiquidPowder ∨ W = 1 := h.imp id And.left
  have h2 : k ≠ .solidLiquidPowder ∨ W' = 1 := h.imp id And.right
  rw [hostRule_laneless k h1, hostRule_laneless k h2, ho, hl]

/-- **C38** on the device. -/
theorem C38_device {W W' : ℕ} (k : Kind) (old l : Fin W → ℝ) (old' l' : Fin W' → ℝ) (n : Fin W) (n' : Fin W')
    (ho : old n = old' n') (hl : l n = l' n') :
    deviceRule W k old l n = deviceRule W' k old' l' n' := by
  simp only [deviceRule, ho, hl]

/-- **C38 fails on the host for powder.**  A molten powder cell gets powder ratio 0 when it is in the last lane and 1 in any
other lane, and the solid and liquid ratios do not depend on the lane. -/
theorem C38_powder_refuted {w : ℕ} (n : Fin (w + 1)) :
    (hostRule (w + 1) .solidLiquidPowder (fun _ => 1) (fun _ => 1) n).powder = (if n = Fin.last w then 0 else 1) := by
  rw [hostRule_spec]
  by_cases h : n = Fin.last w
  · simp [h]
  · simp [h]

/-! ## C31 at quadrature points and cells -/

/-- The mean powder ratio of the points of a cell never exceeds the powder ratio of the cell. -/
def PowderInv {nq W : ℕ} (k : Kind) (s : BatchState nq W) : Prop :=
  (∀ q n, 0 ≤ (s.point q n).powder) ∧ ∀ n, (average k fun q => s.point q n).powder ≤ (s.cell n).powder

theorem average_powder_mono {nq : ℕ} (hq : 0 < nq) (k : Kind) (r r' : Fin nq → Ratios)
    (h : ∀ q, (r q).powder ≤ (r' q).powder) : (average k r).powder ≤ (average k r').powder := by
  have hn : (0 : ℝ) < nq := by exact_mod_cast hq
  cases k with
  | solid => exact le_refl _
  | solidLiquid => exact le_refl _
  | solidLiquidPowder =>
    exact div_le_div_of_nonneg_right (Finset.sum_le_sum fun q _ => h q) hn.le

theorem average_const_powder {nq : ℕ} (hq : 0 < nq) (k : Kind) (r : Ratios) (hr : 0 ≤ r.powder) :
    (average k fun _ : Fin nq => r).powder ≤ r.powder := by
  have hn : (0 : ℝ) < nq := by exact_mod_cast hq
  cases k with
  | solid => exact hr
  | solidLiquid => exact hr
  | solidLiquidPowder =>
    simp only [average, Finset.sum_const, Finset.card_univ, Fintype.card_fin, nsmul_eq_mul]
    rw [mul_div_cancel_left₀ _ hn.ne']

theorem average_powder_nonneg {nq : ℕ} (k : Kind) (r : Fin nq → Ratios) (h : ∀ q, 0 ≤ (r q).powder) :
    0 ≤ (average k r).powder := by
  cases k with
  | solid => exact le_refl _
  | solidLiquid => exact le_refl _
  | solidLiquidPowder => exact div_nonneg (Finset.sum_nonneg fun q _ => h q) (Nat.cast_nonneg _)

/-- A rule that never raises the powder ratio of a lane (and keeps it non-negative). -/
def PowderDown {W : ℕ} (rule : LaneRule W) : Prop :=
  ∀ (k : Kind) (old l : Fin W → ℝ) (n : Fin W), 0 ≤ old n → l n ≤ 1 →
    0 ≤ (rule k old l n).powder ∧ (rule k old l n).powder ≤ old n

theorem phase_powder_nonneg (k : Kind) (p l : ℝ) (hp : 0 ≤ p) (hl : l ≤ 1) : 0 ≤ (phase k p l).powder := by
  cases k with
  | solid => exact le_refl _
  | solidLiquid => exact le_refl _
  | solidLiquidPowder => exact le_min (by linarith) hp

theorem deviceRule_down (W : ℕ) : PowderDown (deviceRule W) := fun k _ _ _ h hl =>
  ⟨phase_powder_nonneg k _ _ h hl, phase_powder_le k _ _ h⟩

theorem hostRule_down (W : ℕ) : PowderDown (hostRule W) := by
  intro k old l n h hl
  cases k with
  | solid => exact ⟨le_refl _, h⟩
  | solidLiquid => exact ⟨le_refl _, h⟩
  | solidLiquidPowder =>
    cases W with
    | zero => exact n.elim0
    | succ w =>
      rw [hostRule_spec]
      by_cases hn : n = Fin.last w
      · rw [if_pos hn]; exact ⟨le_min (by linarith) h, min_le_right _ _⟩
      · rw [if_neg hn]; exact ⟨h, le_refl _⟩

theorem getD_le_one (m : Melt) (T : ℝ) : (liquidRatio m T).getD 0 ≤ 1 := by
  cases hl : liquidRatio m T with
  | none => norm_num
  | some l => exact (liquidRatio_mem m T l hl).2

theorem step_powder {nq W : ℕ} (hq : 0 < nq) (rule : LaneRule W) (hd : PowderDown rule) (k : Kind) (m : Fin W → Melt)
    (s s' : BatchState nq W) (e : Event nq W) (hs : PowderInv k s) (h : step rule k m s e = some s') :
    PowderInv k s' ∧ ∀ n, (s'.cell n).powder ≤ (s.cell n).powder := by
  cases e with
  | evaluate T =>
    simp only [step] at h
    split_ifs at h with hc
    cases h
    have hp := fun q n => hd k (fun n => (s.point q n).powder) (fun n => (liquidRatio (m n) (T q n)).getD 0) n (hs.1 q n)
      (getD_le_one _ _)
    refine ⟨⟨fun q n => (hp q n).1, fun n => le_trans ?_ (hs.2 n)⟩, fun n => le_refl _⟩
    exact average_powder_mono hq k _ _ fun q => (hp q n).2
  | store =>
    cases h
    exact ⟨⟨hs.1, fun n => le_refl _⟩, hs.2⟩
  | adapt =>
    cases h
    have hnn := fun n => average_powder_nonneg k (fun q => s.point q n) fun q => hs.1 q n
    exact ⟨⟨fun _ n => hnn n, fun n => average_const_powder hq k _ (hnn n)⟩, hs.2⟩

theorem run_powder {nq W : ℕ} (hq : 0 < nq) (rule : LaneRule W) (hd : PowderDown rule) (k : Kind) (m : Fin W → Melt)
    (es : List (Event nq W)) :
    ∀ s s' : BatchState nq W, PowderInv k s → run rule k m s es = some s' →
      PowderInv k s' ∧ ∀ n, (s'.cell n).powder ≤ (s.cell n).powder := by
  induction es with
  | nil => intro s s' hs h; cases h; exact ⟨hs, fun _ => le_refl _⟩
  | cons e es ih =>
    intro s s' hs h
    simp only [run, Option.bind_eq_some_iff] at h
    obtain ⟨s1, h1, h2⟩ := h
    obtain ⟨i1, c1⟩ := step_powder hq rule hd k m s s1 e hs h1
    obtain ⟨i2, c2⟩ := ih s1 s' i1 h2
    exact ⟨i2, fun n => (c2 n).trans (c1 n)⟩

/-- **C31**, cells, host and device code: over any history the powder ratio of a cell never increases. -/
theorem C31_cell_powder_decreases {nq W : ℕ} (hq : 0 < nq) (rule : LaneRule W)
    (hrule : rule = hostRule W ∨ rule = deviceRule W) (k : Kind) (m : Fin W → Melt) (cells : Fin W → Ratios)
    (hc : ∀ n, 0 ≤ (cells n).powder) (before after : List (Event nq W)) (s s' : BatchState nq W)
    (h : run rule k m (loaded cells) before = some s) (h' : run rule k m s after = some s') (n : Fin W) :
    (s'.cell n).powder ≤ (s.cell n).powder := by
  have hd : PowderDown rule := by
    rcases hrule with rfl | rfl
    · exact hostRule_down W
    · exact deviceRule_down W
  have h0 : PowderInv k (loaded (nq := nq) cells) :=
    ⟨fun _ n => hc n, fun n => average_const_powder hq k _ (hc n)⟩
  have i1 := (run_powder hq rule hd k m before _ s h0 h).1
  exact (run_powder hq rule hd k m after s s' i1 h').2 n

theorem step_zero {nq W : ℕ} (k : Kind) (m : Fin W → Melt) (s s' : BatchState nq W) (e : Event nq W) (n : Fin W)
    (hs : ∀ q, (s.point q n).powder = 0) (h : step (deviceRule W) k m s e = some s') :
    (∀ q, (s'.point q n).powder = 0) ∧ (e ≠ .store → e ≠ .adapt → s'.cell n = s.cell n) ∧
    (e = .store ∨ e = .adapt → (s'.cell n).powder = 0) := by
  have havg : (average k fun q => s.point q n).powder = 0 := by
    cases k with
    | solid => rfl
    | solidLiquid => rfl
    | solidLiquidPowder => simp [average, hs]
  cases e with
  | evaluate T =>
    simp only [step] at h
    split_ifs at h with hc
    cases h
    refine ⟨fun q => ?_, fun _ _ => rfl, fun h => by rcases h with h | h <;> cases h⟩
    simp only [deviceRule, hs]
    refine phase_powder_zero k _ ?_
    cases hl : liquidRatio (m n) (T q n) with
    | none => norm_num
    | some l => exact liquidRatio_mem _ _ _ hl
  | store =>
    cases h
    exact ⟨hs, fun h => absurd rfl h, fun _ => havg⟩
  | adapt =>
    cases h
    exact ⟨fun _ => havg, fun _ h => absurd rfl h, fun _ => havg⟩

/-- **C31**, device code: once all points of a cell have been fully liquid (at the same operator application), no point of it
ever has powder again, whatever happens afterwards, and neither has the cell once it is stored. -/
theorem C31_device_molten_cell {nq W : ℕ} (k : Kind) (m : Fin W → Melt)
    (s s1 s' : BatchState nq W) (T : Fin nq → Fin W → ℝ) (n : Fin W)
    (hs : ∀ q, 0 ≤ (s.point q n).powder)
    (hm : (m n).solidus ≤ (m n).liquidus) (hT : ∀ q, (m n).liquidus < T q n)
    (h1 : step (deviceRule W) k m s (.evaluate T) = some s1) (after : List (Event nq W))
    (h : run (deviceRule W) k m s1 after = some s') :
    (∀ q, (s'.point q n).powder = 0) ∧ (.store ∈ after ∨ .adapt ∈ after → (s'.cell n).powder = 0) := by
  have hz : ∀ q, (s1.point q n).powder = 0 := by
    intro q
    simp only [step] at h1
    split_ifs at h1 with hc
    cases h1
    have hl : liquidRatio (m n) (T q n) = some 1 := by
      have : ¬ T q n < (m n).solidus := by linarith [hT q]
      simp [liquidRatio, this, hT q]
    simp only [deviceRule, hl, Option.getD_some]
    exact phase_liquid_one k _ (hs q)
  clear h1
  have main : ∀ (after : List (Event nq W)) (s1 : BatchState nq W), (∀ q, (s1.point q n).powder = 0) →
      run (deviceRule W) k m s1 after = some s' → (∀ q, (s'.point q n).powder = 0) ∧
        (.store ∈ after ∨ .adapt ∈ after ∨ (s1.cell n).powder = 0 → (s'.cell n).powder = 0) := by
    intro after
    induction after with
    | nil =>
      intro s1 hz h
      cases h
      exact ⟨hz, fun h => by simpa using h⟩
    | cons e es ih =>
      intro s1 hz h
      simp only [run, Option.bind_eq_some_iff] at h
      obtain ⟨s2, h2, h3⟩ := h
      obtain ⟨a, b, c⟩ := step_zero k m s1 s2 e n hz h2
      obtain ⟨a', b'⟩ := ih s2 a h3
      refine ⟨a', fun hmem => ?_⟩
      by_cases he : e = .store ∨ e = .adapt
      · exact b' (Or.inr (Or.inr (c he)))
      · push Not at he
        rcases hmem with hmem | hmem | hmem
        · rcases List.mem_cons.1 hmem with h | h
          · exact absurd h.symm he.1
          · exact b' (Or.inl h)
        · rcases List.mem_cons.1 hmem with h | h
          · exact absurd h.symm he.2
          · exact b' (Or.inr (Or.inl h))
        · exact b' (Or.inr (Or.inr (by rw [b he.1 he.2]; exact hmem)))
  obtain ⟨a, b⟩ := main after s1 hz h
  exact ⟨a, fun h => b (h.elim Or.inl fun h => Or.inr (Or.inl h))⟩

/-- **C31 fails at points across mesh adaptation.**  A cell with two quadrature points starts as powder; the first point is
heated above the liquidus (its powder ratio becomes 0), the second stays cold; when any cell of the mesh is activated or
refined, the ratios are averaged over the cell and the molten point carries powder ratio 1/2 again.  (One lane: host and
device code agree.) -/
theorem C31_point_refuted :
    ∃ s s' : BatchState 2 1,
      run (deviceRule 1) .solidLiquidPowder (fun _ => ⟨1600, 1700⟩) (loaded fun _ => ⟨0, 0, 1⟩)
        [.evaluate fun q _ => if q = 0 then 1800 else 300] = some s ∧
      step (deviceRule 1) .solidLiquidPowder (fun _ => ⟨1600, 1700⟩) s .adapt = some s' ∧
      (s.point 0 0).liquid = 1 ∧ (s.point 0 0).powder = 0 ∧ (s'.point 0 0).powder = 1 / 2 := by
  have h1 : liquidRatio ⟨1600, 1700⟩ 1800 = some 1 := by norm_num [liquidRatio]
  have h0 : liquidRatio ⟨1600, 1700⟩ 300 = some 0 := by norm_num [liquidRatio]
  have hsome : ∀ (q : Fin 2), (liquidRatio ⟨1600, 1700⟩ (if q = 0 then (1800 : ℝ) else 300)).isSome := by
    intro q; by_cases h : q = 0 <;> simp [h, h0, h1]
  have e : run (nq := 2) (deviceRule 1) .solidLiquidPowder (fun _ => ⟨1600, 1700⟩) (loaded fun _ => ⟨0, 0, 1⟩)
      [.evaluate fun q _ => if q = 0 then 1800 else 300] = some ⟨fun _ => ⟨0, 0, 1⟩, fun q _ =>
        phase .solidLiquidPowder 1 ((liquidRatio ⟨1600, 1700⟩ (if q = 0 then (1800 : ℝ) else 300)).getD 0)⟩ := by
    simp only [run, step]
    rw [if_pos (Or.inr fun q _ => hsome q)]
    simp only [loaded, Option.bind_some]
    rfl
  refine ⟨_, _, e, rfl, ?_, ?_, ?_⟩
  · simp [h1, phase]
  · simp [h1, phase]
  · simp [average, Fin.sum_univ_two, h1, h0, phase]

/-- **C31 fails on the host for powder.**  In a batch of at least two lanes a powder cell (not in the last lane) that has been
fully liquid at every point is full powder again after cooling. -/
theorem C31_host_powder_refuted {nq w : ℕ} (m : Fin (w + 2) → Melt) (Thot Tcold : ℝ)
    (hT : ∀ n, (m n).solidus ≤ (m n).liquidus ∧ (m n).liquidus < Thot ∧ Tcold < (m n).solidus) :
    ∃ s s' : BatchState nq (w + 2),
      run (hostRule (w + 2)) .solidLiquidPowder m (loaded fun _ => ⟨0, 0, 1⟩) [.evaluate fun _ _ => Thot] = some s ∧
      step (hostRule (w + 2)) .solidLiquidPowder m s (.evaluate fun _ _ => Tcold) = some s' ∧
      ∀ q, (s.point q 0).liquid = 1 ∧ s'.point q 0 = ⟨0, 0, 1⟩ := by
  have hl : ∀ n, liquidRatio (m n) Thot = some 1 := fun n => by
    have h1 : ¬ Thot < (m n).solidus := by linarith [(hT n).1, (hT n).2.1]
    simp [liquidRatio, h1, (hT n).2.1]
  have hc : ∀ n, liquidRatio (m n) Tcold = some 0 := fun n => by simp [liquidRatio, (hT n).2.2]
  have hne : ¬ (0 : Fin (w + 2)) = Fin.last (w + 1) := by
    intro h; exact absurd (congrArg Fin.val h) (by simp)
  refine ⟨⟨fun _ => ⟨0, 0, 1⟩, fun _ => hostRule (w + 2) .solidLiquidPowder (fun _ => 1) fun _ => 1⟩,
    ⟨fun _ => ⟨0, 0, 1⟩, fun _ => hostRule (w + 2) .solidLiquidPowder
      (fun n => (hostRule (w + 2) .solidLiquidPowder (fun _ => 1) (fun _ => 1) n).powder) fun _ => 0⟩, ?_, ?_, ?_⟩
  · simp [run, step, hl, loaded]
  · simp [step, hc]
  · intro q
    refine ⟨by simp only [hostRule_spec], ?_⟩
    simp only [hostRule_spec, if_neg hne]
    norm_num

end Verif.Material
