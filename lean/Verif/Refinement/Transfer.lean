import Mathlib.Data.Real.Basic
import Mathlib.Order.WithBot
import Mathlib.Tactic.NormNum
import Mathlib.Data.List.Basic

/-!
# C22: material data follow the cells through mesh adaptation

Model of the packing and unpacking in `refine_and_transfer`, `application/adamantine.hh:348-512`.
`double` is `ℝ`; infinity is `⊤`.  The state ratios of a cell are a list of numbers of length `nStates`.
-/

namespace Verif.Refinement

/-- An active cell as one rank sees it: identity, `is_locally_owned()`, `active_fe_index()`. -/
structure Cell where
  id : ℕ
  owned : Bool
  feIndex : ℕ

/-- The arrays of one rank: `material_properties` state (one entry per locally owned cell), `deposition_cos`,
`deposition_sin` and `has_melted` (one entry per locally owned cell with material). -/
structure Arrays where
  state : List (List ℝ)
  cos : List ℝ
  sin : List ℝ
  melted : List Bool

/-- The vectors transferred for a cell. -/
abbrev CellData := List (WithTop ℝ)

/-- The loop that fills `data_to_transfer`, lines 358-397; `cellId`, `activatedId` are the two counters.  `none` is a read
outside an array. -/
def pack (nStates : ℕ) (a : Arrays) : ℕ → ℕ → List Cell → Option (List CellData)
  | _, _, [] => some []
  | cellId, activatedId, c :: cs =>
    if c.owned then
      match a.state[cellId]? with
      | none => none
      | some st =>
        if c.feIndex = 0 then
          match a.cos[activatedId]?, a.sin[activatedId]?, a.melted[activatedId]? with
          | some co, some si, some m =>
            (pack nStates a (cellId + 1) (activatedId + 1) cs).map
              ((((st.take nStates).map fun x : ℝ => WithTop.some x) ++
                [(co : WithTop ℝ), (si : WithTop ℝ), if m then ((1 : ℝ) : WithTop ℝ) else ((0 : ℝ) : WithTop ℝ)]) :: ·)
          | _, _, _ => none
        else
          (pack nStates a (cellId + 1) activatedId cs).map
            ((((st.take nStates).map fun x : ℝ => WithTop.some x) ++ [⊤, ⊤, ⊤]) :: ·)
    else
      (pack nStates a cellId activatedId cs).map (List.replicate (nStates + 3) ⊤ :: ·)

/-- A number that is not infinite (the C++ copies the infinity; the model keeps it visible as `none`). -/
def finite? : WithTop ℝ → Option ℝ
  | ⊤ => none
  | (x : ℝ) => some x

open Classical in
/-- The loop that unpacks `transferred_data`, lines 472-502, reading one entry per active cell. `none` is a short vector or an
infinite entry. -/
noncomputable def unpack (nStates : ℕ) : List Cell → List CellData → Option Arrays
  | [], _ => some ⟨[], [], [], []⟩
  | _ :: _, [] => none
  | c :: cs, d :: ds =>
    match unpack nStates cs ds with
    | none => none
    | some r =>
      if c.owned then
        match (d.take nStates).mapM finite? with
        | none => none
        | some st =>
          if c.feIndex = 0 then
            match d[nStates]?, d[nStates + 1]?, d[nStates + 2]? with
            | some (co : WithTop ℝ), some si, some m =>
              match finite? co, finite? si with
              | some co, some si =>
                some ⟨st :: r.state, co :: r.cos, si :: r.sin, decide (((0.5 : ℝ) : WithTop ℝ) < m) :: r.melted⟩
              | _, _ => none
            | _, _, _ => none
          else some { r with state := st :: r.state }
      else some r

/-! ## Specification -/

/-- The material data of a cell. -/
structure Material where
  ratios : List ℝ
  cos : ℝ
  sin : ℝ
  melted : Bool

/-- The arrays of a rank hold the field `g` on its cells: aligned with the locally owned cells, and with the locally owned
cells that hold material. -/
def Holds (nStates : ℕ) (cells : List Cell) (a : Arrays) (g : ℕ → Material) : Prop :=
  a.state = (cells.filter (·.owned)).map (fun c => (g c.id).ratios) ∧
  a.cos = (cells.filter fun c => c.owned && c.feIndex == 0).map (fun c => (g c.id).cos) ∧
  a.sin = (cells.filter fun c => c.owned && c.feIndex == 0).map (fun c => (g c.id).sin) ∧
  a.melted = (cells.filter fun c => c.owned && c.feIndex == 0).map (fun c => (g c.id).melted) ∧
  ∀ c ∈ cells, c.owned = true → (g c.id).ratios.length = nStates

/-- What is packed for a cell of a field. -/
def packed (nStates : ℕ) (g : ℕ → Material) (c : Cell) : CellData :=
  if c.owned then
    ((g c.id).ratios.map fun x : ℝ => WithTop.some x) ++
      (if c.feIndex = 0 then
        [((g c.id).cos : WithTop ℝ), ((g c.id).sin : WithTop ℝ),
          if (g c.id).melted then ((1 : ℝ) : WithTop ℝ) else ((0 : ℝ) : WithTop ℝ)]
      else [⊤, ⊤, ⊤])
  else List.replicate (nStates + 3) ⊤

theorem pack_aux (nStates : ℕ) (g : ℕ → Material) (a : Arrays) (pre cells : List Cell)
    (hs : a.state = ((pre ++ cells).filter (·.owned)).map (fun c => (g c.id).ratios))
    (hc : a.cos = ((pre ++ cells).filter fun c => c.owned && c.feIndex == 0).map (fun c => (g c.id).cos))
    (hsi : a.sin = ((pre ++ cells).filter fun c => c.owned && c.feIndex == 0).map (fun c => (g c.id).sin))
    (hm : a.melted = ((pre ++ cells).filter fun c => c.owned && c.feIndex == 0).map (fun c => (g c.id).melted))
    (hlen : ∀ c ∈ cells, c.owned = true → (g c.id).ratios.length = nStates) :
    pack nStates a (pre.filter (·.owned)).length (pre.filter fun c => c.owned && c.feIndex == 0).length cells =
      some (cells.map (packed nStates g)) := by
  induction cells generalizing pre with
  | nil => rfl
  | cons c cs ih =>
    have ih' := ih (pre ++ [c]) (by simpa using hs) (by simpa using hc) (by simpa using hsi) (by simpa using hm)
      (fun d hd => hlen d (by simp [hd]))
    by_cases ho : c.owned = true
    · have hst : a.state[(pre.filter (·.owned)).length]? = some (g c.id).ratios := by
        rw [hs]; simp [List.filter_append, List.filter_cons, ho]
      have hl := hlen c (by simp) ho
      by_cases hf : c.feIndex = 0
      · have h1 : a.cos[(pre.filter fun c => c.owned && c.feIndex == 0).length]? = some (g c.id).cos := by
          rw [hc]; simp [List.filter_append, List.filter_cons, ho, hf]
        have h2 : a.sin[(pre.filter fun c => c.owned && c.feIndex == 0).length]? = some (g c.id).sin := by
          rw [hsi]; simp [List.filter_append, List.filter_cons, ho, hf]
        have h3 : a.melted[(pre.filter fun c => c.owned && c.feIndex == 0).length]? = some (g c.id).melted := by
          rw [hm]; simp [List.filter_append, List.filter_cons, ho, hf]
        have e1 : ((pre ++ [c]).filter (·.owned)).length = (pre.filter (·.owned)).length + 1 := by
          simp [List.filter_append, ho]
        have e2 : ((pre ++ [c]).filter fun c => c.owned && c.feIndex == 0).length =
            (pre.filter fun c => c.owned && c.feIndex == 0).length + 1 := by
          simp [List.filter_append, ho, hf]
        rw [e1, e2] at ih'
        simp only [pack, ho, if_true, hst, hf, h1, h2, h3, ih', Option.map_some, List.map_cons, Option.some.injEq,
          List.cons.injEq, and_true]
        simp only [packed, ho, hf, if_true]
        rw [List.take_of_length_le hl.le]
      · have e1 : ((pre ++ [c]).filter (·.owned)).length = (pre.filter (·.owned)).length + 1 := by
          simp [List.filter_append, ho]
        have e2 : ((pre ++ [c]).filter fun c => c.owned && c.feIndex == 0).length =
            (pre.filter fun c => c.owned && c.feIndex == 0).length := by
          simp [List.filter_append, hf]
        rw [e1, e2] at ih'
        simp only [pack, ho, if_true, hst, hf, if_false, ih', Option.map_some, List.map_cons, Option.some.injEq,
          List.cons.injEq, and_true]
        simp only [packed, ho, hf, if_true, if_false]
        rw [List.take_of_length_le hl.le]
    · have ho' : c.owned = false := by simpa using ho
      have e1 : ((pre ++ [c]).filter (·.owned)).length = (pre.filter (·.owned)).length := by
        simp [List.filter_append, ho']
      have e2 : ((pre ++ [c]).filter fun c => c.owned && c.feIndex == 0).length =
          (pre.filter fun c => c.owned && c.feIndex == 0).length := by
        simp [List.filter_append, ho']
      rw [e1, e2] at ih'
      simp only [pack, ho', Bool.false_eq_true, if_false, ih', Option.map_some, List.map_cons, packed]

theorem mapM_finite (xs : List ℝ) : (xs.map fun x : ℝ => WithTop.some x).mapM finite? = some xs := by
  induction xs with
  | nil => rfl
  | cons x xs ih =>
    rw [List.map_cons, List.mapM_cons, ih]
    rfl

theorem melted_roundtrip (m : Bool) :
    (open Classical in decide (((0.5 : ℝ) : WithTop ℝ) <
      (if m then ((1 : ℝ) : WithTop ℝ) else ((0 : ℝ) : WithTop ℝ)))) = m := by
  cases m
  · simp only [Bool.false_eq_true, if_false, decide_eq_false_iff_not, WithTop.coe_lt_coe]; norm_num
  · simp only [if_true, decide_eq_true_eq, WithTop.coe_lt_coe]; norm_num

/-- Contract of `CellDataTransfer` (lines 426-429, 469) together with the new mesh: for every active cell of a rank after
the adaptation, `transferred` holds what the old owner packed for the cell it descends from (`src`); entries of cells that are
not locally owned are arbitrary. A refined cell passes its data to its children, an unchanged cell keeps them; a coarsened
cell gets the data of one of its children (its `src`). -/
def Transferred (packedBy : ℕ → CellData) (src : ℕ → ℕ) (cells : List Cell) (transferred : List CellData) : Prop :=
  List.Forall₂ (fun c d => c.owned = true → d = packedBy (src c.id)) cells transferred

theorem unpack_holds (nStates : ℕ) (g : ℕ → Material) (src : ℕ → ℕ) (oldCell : ℕ → Cell) (cells : List Cell)
    (data : List CellData)
    (ht : Transferred (fun i => packed nStates g (oldCell i)) src cells data)
    (hid : ∀ c ∈ cells, c.owned = true → (oldCell (src c.id)).id = src c.id ∧ (oldCell (src c.id)).owned = true ∧
      (oldCell (src c.id)).feIndex = c.feIndex ∧ (g (src c.id)).ratios.length = nStates) :
    ∃ a, unpack nStates cells data = some a ∧ Holds nStates cells a (g ∘ src) := by
  induction ht with
  | nil => exact ⟨⟨[], [], [], []⟩, rfl, by simp [Holds]⟩
  | @cons c d cs ds hcd hrest ih =>
    obtain ⟨r, hr, h1, h2, h3, h4, h5⟩ := ih (fun x hx => hid x (by simp [hx]))
    by_cases ho : c.owned = true
    · obtain ⟨hi, howned, hfe, hlen⟩ := hid c (by simp) ho
      have hd := hcd ho
      simp only [packed, howned, if_true, hi, hfe] at hd
      have htake : (d.take nStates).mapM finite? = some (g (src c.id)).ratios := by
        rw [hd, List.take_append_of_le_length (by simp [hlen]), List.take_of_length_le (by simp [hlen])]
        exact mapM_finite _
      by_cases hf : c.feIndex = 0
      · simp only [hf, if_true] at hd
        have g0 : d[nStates]? = some ((g (src c.id)).cos : WithTop ℝ) := by
          rw [hd, List.getElem?_append_right (by simp [hlen])]; simp [hlen]
        have g1 : d[nStates + 1]? = some ((g (src c.id)).sin : WithTop ℝ) := by
          rw [hd, List.getElem?_append_right (by simp [hlen])]; simp [hlen]
        have g2 : d[nStates + 2]? = some (if (g (src c.id)).melted then ((1 : ℝ) : WithTop ℝ) else ((0 : ℝ) : WithTop ℝ)) := by
          rw [hd, List.getElem?_append_right (by simp [hlen])]; simp [hlen]
        refine ⟨⟨(g (src c.id)).ratios :: r.state, (g (src c.id)).cos :: r.cos, (g (src c.id)).sin :: r.sin,
          (g (src c.id)).melted :: r.melted⟩, ?_, ?_⟩
        · simp only [unpack, hr, ho, if_true, htake, hf, g0, g1, g2, finite?, melted_roundtrip]
        · refine ⟨?_, ?_, ?_, ?_, ?_⟩
          · simp [ho, h1]
          · simp [ho, hf, h2]
          · simp [ho, hf, h3]
          · simp [ho, hf, h4]
          · intro x hx hxo
            rcases List.mem_cons.1 hx with rfl | hx
            · exact hlen
            · exact h5 x hx hxo
      · refine ⟨{ r with state := (g (src c.id)).ratios :: r.state }, ?_, ?_⟩
        · simp only [unpack, hr, ho, if_true, htake, hf, if_false]
        · refine ⟨?_, ?_, ?_, ?_, ?_⟩
          · simp [ho, h1]
          · simp [hf, h2]
          · simp [hf, h3]
          · simp [hf, h4]
          · intro x hx hxo
            rcases List.mem_cons.1 hx with rfl | hx
            · exact hlen
            · exact h5 x hx hxo
    · have ho' : c.owned = false := by simpa using ho
      refine ⟨r, by simp only [unpack, hr, ho', Bool.false_eq_true, if_false], ?_⟩
      refine ⟨by simp [ho', h1], by simp [ho', h2], by simp [ho', h3], by simp [ho', h4], ?_⟩
      intro x hx hxo
      rcases List.mem_cons.1 hx with rfl | hx
      · exact absurd hxo ho
      · exact h5 x hx hxo

/-- C22: let the ranks' arrays hold a field `g` of material data before the adaptation, every old cell being owned by one
rank (`owner`).  Then no read is out of range, and after the adaptation, for any repartition and any mix of active, inactive
and ghost cells, every rank's arrays hold the field in which each cell has the data of the cell `src` it descends from. -/
theorem C22_refine_and_transfer (nStates : ℕ) (g : ℕ → Material)
    -- old mesh: cells seen by each rank and their arrays
    (oldCells : ℕ → List Cell) (oldArrays : ℕ → Arrays) (hold : ∀ r, Holds nStates (oldCells r) (oldArrays r) g) :
    (∀ r, pack nStates (oldArrays r) 0 0 (oldCells r) = some ((oldCells r).map (packed nStates g))) ∧
    -- new mesh
    ∀ (src : ℕ → ℕ) (oldCell : ℕ → Cell) (owner : ℕ → ℕ)
      (_ : ∀ i, (oldCell i).owned = true → (oldCell i).id = i ∧ oldCell i ∈ oldCells (owner i))
      (newCells : List Cell) (transferred : List CellData)
      (_ : ∀ c ∈ newCells, c.owned = true →
        (oldCell (src c.id)).owned = true ∧ (oldCell (src c.id)).feIndex = c.feIndex)
      (_ : Transferred (fun i => packed nStates g (oldCell i)) src newCells transferred),
      ∃ a, unpack nStates newCells transferred = some a ∧ Holds nStates newCells a (g ∘ src) := by
  constructor
  · intro r
    obtain ⟨h1, h2, h3, h4, h5⟩ := hold r
    exact pack_aux nStates g (oldArrays r) [] (oldCells r) h1 h2 h3 h4 h5
  · intro src oldCell owner howner newCells transferred hnew ht
    refine unpack_holds nStates g src oldCell newCells transferred ht ?_
    intro c hc ho
    obtain ⟨ha, hb⟩ := hnew c hc ho
    obtain ⟨hi, hmem⟩ := howner _ ha
    have := (hold _).2.2.2.2 _ hmem ha
    rw [hi] at this
    exact ⟨hi, ha, hb, this⟩

/-- An active, an inactive and a ghost cell; the active cell is refined into two cells. -/
example :
    let g : ℕ → Material := fun i => if i = 0 then ⟨[1, 0, 0], 0.6, 0.8, true⟩ else ⟨[0, 0, 1], 0, 0, false⟩
    let old : List Cell := [⟨0, true, 0⟩, ⟨1, true, 1⟩, ⟨2, false, 0⟩]
    Holds 3 old ⟨[[1, 0, 0], [0, 0, 1]], [0.6], [0.8], [true]⟩ g ∧
    Transferred (fun i => packed 3 g (old.getD i ⟨0, false, 0⟩)) (fun j => j / 2)
      [⟨2, true, 1⟩, ⟨0, true, 0⟩, ⟨1, true, 0⟩]
      [[(0 : ℝ), (0 : ℝ), (1 : ℝ), ⊤, ⊤, ⊤], [(1 : ℝ), (0 : ℝ), (0 : ℝ), (0.6 : ℝ), (0.8 : ℝ), (1 : ℝ)],
        [(1 : ℝ), (0 : ℝ), (0 : ℝ), (0.6 : ℝ), (0.8 : ℝ), (1 : ℝ)]] := by
  intro g old
  constructor
  · simp [Holds, old, g]
  · simp [Transferred, old, g, packed]

end Verif.Refinement
