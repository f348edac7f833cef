import Verif.Material.Phase
import Mathlib.Data.List.Nodup
import Mathlib.Data.List.Enum
import Mathlib.Algebra.BigOperators.Field
import Mathlib.Algebra.BigOperators.Intervals

/-!
# C105, C106: where the state of a cell is kept

Model of the indexing of the state of the cells: `MaterialProperty::reinit_dofs`, `get_dof_index`, `get_state_ratio`,
`set_cell_state`, `set_initial_state`, `set_state`, `set_state_device` (`source/MaterialProperty.templates.hh:195-240`, `:546-792`,
`source/MaterialProperty.hh:503-518`) and of the copies of the state kept by the two thermal operators
(`source/ThermalOperator.templates.hh:67-79`, `:753-800`, `:888-945`, `source/ThermalOperatorDevice.templates.hh:527-575`,
`:683-779`, `:814-852`).  The cells are the locally owned active cells in the order of the iterators; `dof` is the global number of the
only degree of freedom of a cell.
-/

namespace Verif.Material.CellState

open Verif.Material

variable {κ : Type*} [DecidableEq κ]

/-! ## The map from cells to columns of the state -/

/-- `reinit_dofs`, `source/MaterialProperty.templates.hh:217-228`: `_dofs_map[mp_dof[0]] = i; ++i`. -/
def reinitDofs (dof : κ → ℕ) (cells : List κ) : (ℕ → Option ℕ) × ℕ :=
  cells.foldl (fun s c => (Function.update s.1 (dof c) (some s.2), s.2 + 1)) (fun _ => none, 0)

/-- `get_dof_index`, `source/MaterialProperty.hh:503-518`; `none` is the exception of `at`. -/
def getDofIndex (dof : κ → ℕ) (cells : List κ) (c : κ) : Option ℕ := (reinitDofs dof cells).1 (dof c)

/-- The view `_state(state, column)`. -/
abbrev State := ℕ → ℕ → ℝ

/-- `get_state_ratio`, `source/MaterialProperty.templates.hh:194-207`. -/
def getStateRatio (dof : κ → ℕ) (cells : List κ) (s : State) (c : κ) (j : ℕ) : Option ℝ :=
  (getDofIndex dof cells c).map (s j)

/-- Writing one entry of the view. -/
def put (s : State) (j i : ℕ) (v : ℝ) : State := fun j' i' => if j' = j ∧ i' = i then v else s j' i'

/-- The kernel of `set_initial_state`, `source/MaterialProperty.templates.hh:762-792`; `none` is a write outside the view (or the
exception of `at`). -/
def setInitial (dof : κ → ℕ) (userIndex : κ → ℕ) (nStates : ℕ) (cells : List κ) : Option State :=
  cells.foldl (fun s c => s.bind fun s => (getDofIndex dof cells c).bind fun i =>
    if userIndex c < nStates then some (put s (userIndex c) i 1) else none) (some fun _ _ => 0)

/-- The rows of `set_cell_state` from column `i` on, `source/MaterialProperty.templates.hh:736-754`; an array has `nStates` entries. -/
def setCells (nStates : ℕ) : ℕ → List (ℕ → ℝ) → State → State
  | _, [], s => s
  | i, v :: vs, s => setCells nStates (i + 1) vs ((List.range nStates).foldl (fun s j => put s j i (v j)) s)

/-! ## The copy of the host operator -/

/-- An entry of a table of vectorised arrays: batch, quadrature point, lane. -/
abbrev Lanes := ℕ → ℕ → ℕ → ℝ

/-- The cell in a lane of a batch: `get_cell_iterator(batch, lane)`. -/
def cellAt (batches : List (List κ)) (b i : ℕ) : Option κ := batches[b]?.bind fun l => l[i]?

/-- One batch of the loop of `reinit`, `source/ThermalOperator.templates.hh:72-79`. -/
def mapBatch (m : κ → Option (ℕ × ℕ)) (b : ℕ) (lanes : List κ) : κ → Option (ℕ × ℕ) :=
  lanes.zipIdx.foldl (fun m p => Function.update m p.1 (some (b, p.2))) m

/-- `_cell_it_to_mf_cell_map`, `source/ThermalOperator.templates.hh:69-79`. -/
def cellMap (batches : List (List κ)) : κ → Option (ℕ × ℕ) :=
  batches.zipIdx.foldl (fun m p => mapBatch m p.2 p.1) fun _ => none

/-- `cell_it_to_mf_cell_map[cell]`: a missing entry is created with the value (0, 0). -/
def laneOf (batches : List (List κ)) (c : κ) : ℕ × ℕ := (cellMap batches c).getD (0, 0)

/-- `get_state_from_material_properties`, `source/ThermalOperator.templates.hh:753-800`, for one field: every entry with a cell is
written once with the value of the cell, the others stay zero. -/
def load (batches : List (List κ)) (value : κ → ℝ) : Lanes := fun b _ i => ((cellAt batches b i).map value).getD 0

/-- One cell of `set_state`, `source/MaterialProperty.templates.hh:560-618`, with the column `col` of the cell. -/
noncomputable def storeCell (k : Kind) (nq : ℕ) (batches : List (List κ)) (liquid powder : Lanes) (col : ℕ) (c : κ) (s : State) : State :=
  let p := laneOf batches c
  let l := ((List.range nq).foldl (fun a q => a + liquid p.1 q p.2) 0) / nq
  let w := ((List.range nq).foldl (fun a q => a + powder p.1 q p.2) 0) / nq
  match k with
  | .solid => s
  | .solidLiquid => let s := put s 1 col l; put s 0 col (1 - s 1 col)
  | .solidLiquidPowder => let s := put (put s 1 col l) 2 col w; put s 0 col (1 - s 1 col - s 2 col)

/-- `set_state`, `source/MaterialProperty.templates.hh:532-618`; `none` is the exception of `get_dof_index`. -/
noncomputable def store (k : Kind) (nq : ℕ) (dof : κ → ℕ) (cells : List κ) (batches : List (List κ)) (liquid powder : Lanes)
    (s : State) : Option State :=
  if k = .solid then some fun _ _ => 1
  else cells.foldl (fun s c => s.bind fun s => (getDofIndex dof cells c).map fun col =>
    storeCell k nq batches liquid powder col c s) (some s)

/-- `set_material_deposition_orientation`, `source/ThermalOperator.templates.hh:907-945`: position of a cell among the cells with
material, then the copy of the number into the lanes; an entry outside `angles` would be read out of bounds (0 here). -/
def orientation (material : κ → Bool) (cells : List κ) (batches : List (List κ)) (angles : List ℝ) : Lanes := fun b _ i =>
  match cellAt batches b i with
  | none => 0
  | some c => if material c then angles.getD ((cells.filter material).idxOf c) 0 else 0

/-! ## The copy of the device operator -/

/-- The loops of `get_state_from_material_properties` on the device over the cells with material,
`source/ThermalOperatorDevice.templates.hh:722-768`: `pos` are the positions of the quadrature points of a cell. -/
def loadDevice (nq : ℕ) (pos : κ → ℕ → ℕ) (material : κ → Bool) (value : κ → ℝ) (cells : List κ) (old : ℕ → ℝ) : ℕ → ℝ :=
  (cells.filter material).foldl (fun f c => (List.range nq).foldl (fun f q => Function.update f (pos c q) (value c)) f) old

/-- One cell of `set_state_device`, `source/MaterialProperty.templates.hh:680-729`. -/
noncomputable def storeDeviceCell (k : Kind) (nq : ℕ) (pos : κ → ℕ → ℕ) (liquid powder : ℕ → ℝ) (col : ℕ) (c : κ) (s : State) : State :=
  let l := ((List.range nq).foldl (fun a q => a + liquid (pos c q)) 0) / nq
  let w := ((List.range nq).foldl (fun a q => a + powder (pos c q)) 0) / nq
  match k with
  | .solid => s
  | .solidLiquid => let s := put s 1 col l; put s 0 col (1 - s 1 col)
  | .solidLiquidPowder => let s := put (put s 1 col l) 2 col w; put s 0 col (1 - s 1 col - s 2 col)

/-- `set_state_device`, `source/MaterialProperty.templates.hh:621-731`: only the cells with material. -/
noncomputable def storeDevice (k : Kind) (nq : ℕ) (dof : κ → ℕ) (cells : List κ) (material : κ → Bool) (pos : κ → ℕ → ℕ)
    (liquid powder : ℕ → ℝ) (s : State) : Option State :=
  if k = .solid then some fun _ _ => 1
  else (cells.filter material).foldl (fun s c => s.bind fun s => (getDofIndex dof cells c).map fun col =>
    storeDeviceCell k nq pos liquid powder col c s) (some s)

/-- `set_material_deposition_orientation` on the device, `source/ThermalOperatorDevice.templates.hh:814-852`; the counter
`local_cell_id` is the position in the filtered list. -/
def orientationDevice (nq : ℕ) (pos : κ → ℕ → ℕ) (material : κ → Bool) (cells : List κ) (angles : List ℝ) (old : ℕ → ℝ) : ℕ → ℝ :=
  (cells.filter material).zipIdx.foldl
    (fun f p => (List.range nq).foldl (fun f q => Function.update f (pos p.1 q) (angles.getD p.2 0)) f) old

/-! ## C105 -/

theorem reinitDofs_snd (dof : κ → ℕ) (cells : List κ) : (reinitDofs dof cells).2 = cells.length := by
  unfold reinitDofs
  suffices h : ∀ (l : List κ) (m : ℕ → Option ℕ) (n : ℕ),
      (l.foldl (fun s c => (Function.update s.1 (dof c) (some s.2), s.2 + 1)) (m, n)).2 = n + l.length by simpa using h cells _ 0
  intro l
  induction l with
  | nil => simp
  | cons c cs ih => intro m n; rw [List.foldl_cons, ih]; simp; omega

theorem reinitDofs_get (dof : κ → ℕ) (cells : List κ) (hn : (cells.map dof).Nodup) :
    (∀ i c, cells[i]? = some c → getDofIndex dof cells c = some i) ∧
    (∀ d, d ∉ cells.map dof → (reinitDofs dof cells).1 d = none) := by
  unfold getDofIndex reinitDofs
  suffices h : ∀ (l : List κ) (m : ℕ → Option ℕ) (n : ℕ), (l.map dof).Nodup →
      (∀ i c, l[i]? = some c →
        (l.foldl (fun s c => (Function.update s.1 (dof c) (some s.2), s.2 + 1)) (m, n)).1 (dof c) = some (n + i)) ∧
      (∀ d, d ∉ l.map dof →
        (l.foldl (fun s c => (Function.update s.1 (dof c) (some s.2), s.2 + 1)) (m, n)).1 d = m d) by
    obtain ⟨h1, h2⟩ := h cells (fun _ => none) 0 hn
    exact ⟨fun i c hc => by simpa using h1 i c hc, h2⟩
  intro l
  induction l with
  | nil => intro m n _; exact ⟨fun i c h => by simp at h, fun d _ => rfl⟩
  | cons c cs ih =>
    intro m n hn
    rw [List.map_cons, List.nodup_cons] at hn
    obtain ⟨h1, h2⟩ := ih (Function.update m (dof c) (some n)) (n + 1) hn.2
    refine ⟨fun i d hd => ?_, fun d hd => ?_⟩
    · rw [List.foldl_cons]
      cases i with
      | zero =>
        simp only [List.getElem?_cons_zero, Option.some.injEq] at hd
        subst hd
        rw [h2 _ hn.1]
        simp
      | succ i =>
        rw [List.getElem?_cons_succ] at hd
        rw [h1 i d hd]
        congr 1
        omega
    · rw [List.map_cons, List.mem_cons, not_or] at hd
      rw [List.foldl_cons, h2 d hd.2]
      exact Function.update_of_ne hd.1 _ _

/-- **C105, columns.**  With one degree of freedom per cell, the column of a cell is its position among the locally owned
cells, whatever the global numbering, so that columns and cells correspond one to one; asking for a cell of another process
throws. -/
theorem C105_columns (dof : κ → ℕ) (cells : List κ) (hn : (cells.map dof).Nodup) :
    (∀ i c, cells[i]? = some c → getDofIndex dof cells c = some i) ∧
    (∀ c, dof c ∉ cells.map dof → getDofIndex dof cells c = none) ∧ (reinitDofs dof cells).2 = cells.length :=
  ⟨(reinitDofs_get dof cells hn).1, fun c hc => (reinitDofs_get dof cells hn).2 _ hc, reinitDofs_snd dof cells⟩

theorem setCells_spec (nStates : ℕ) (vs : List (ℕ → ℝ)) : ∀ (i : ℕ) (s : State) (j col : ℕ),
    setCells nStates i vs s j col =
      if j < nStates ∧ i ≤ col then ((vs[col - i]?).map fun v => v j).getD (s j col) else s j col := by
  have hrow : ∀ (v : ℕ → ℝ) (i : ℕ) (n : ℕ) (s : State) (j col : ℕ),
      (List.range n).foldl (fun s j => put s j i (v j)) s j col = if j < n ∧ col = i then v j else s j col := by
    intro v i n
    induction n with
    | zero => simp
    | succ n ih =>
      intro s j col
      rw [List.range_succ, List.foldl_append, List.foldl_cons, List.foldl_nil]
      unfold put
      by_cases h : j = n ∧ col = i
      · rw [if_pos h, if_pos ⟨by omega, h.2⟩, h.1]
      · rw [if_neg h]
        have := ih s j col
        unfold put at this
        rw [this]
        by_cases h2 : j < n ∧ col = i
        · rw [if_pos h2, if_pos ⟨by omega, h2.2⟩]
        · rw [if_neg h2, if_neg]
          rintro ⟨h3, h4⟩
          by_cases e : j = n
          · exact h ⟨e, h4⟩
          · exact h2 ⟨by omega, h4⟩
  induction vs with
  | nil => intro i s j col; simp [setCells]
  | cons v vs ih =>
    intro i s j col
    rw [setCells, ih, hrow]
    by_cases hj : j < nStates
    · rcases Nat.lt_trichotomy col i with hlt | he | hgt
      · have h1 : ¬ i + 1 ≤ col := by omega
        have h2 : ¬ i ≤ col := by omega
        have h3 : ¬ col = i := by omega
        simp only [h1, h2, h3, and_false, if_false]
      · subst he
        have h1 : ¬ col + 1 ≤ col := by omega
        simp [hj, h1]
      · have h1 : i + 1 ≤ col := hgt
        have h2 : i ≤ col := by omega
        have h3 : ¬ col = i := by omega
        simp only [hj, h1, h2, h3, and_false, and_true, if_false, if_true]
        rw [show col - i = (col - (i + 1)) + 1 by omega, List.getElem?_cons_succ]
    · simp only [hj, false_and, if_false]

/-- **C105, restoring.**  After `set_cell_state(v)` the fraction of state `j` of the `i`-th locally owned cell is `v[i][j]`. -/
theorem C105_restore (dof : κ → ℕ) (cells : List κ) (hn : (cells.map dof).Nodup) (nStates : ℕ) (v : List (ℕ → ℝ)) (s : State)
    (i j : ℕ) (hj : j < nStates) (c : κ) (hc : cells[i]? = some c) (w : ℕ → ℝ) (hw : v[i]? = some w) :
    getStateRatio dof cells (setCells nStates 0 v s) c j = some (w j) := by
  unfold getStateRatio
  rw [(C105_columns dof cells hn).1 i c hc, Option.map_some, setCells_spec, if_pos ⟨hj, Nat.zero_le _⟩]
  simp [hw]

theorem foldl_bind_none {α β : Type*} (f : β → α → Option β) (l : List α) :
    l.foldl (fun s a => s.bind fun s => f s a) none = none := by
  induction l with
  | nil => rfl
  | cons a as ih => simpa using ih

/-- The loop of `set_initial_state` succeeds exactly if all user indices are states. -/
theorem C105_initial (dof : κ → ℕ) (userIndex : κ → ℕ) (nStates : ℕ) (cells : List κ) (hn : (cells.map dof).Nodup) :
    ((setInitial dof userIndex nStates cells).isSome ↔ ∀ c ∈ cells, userIndex c < nStates) ∧
    ∀ s, setInitial dof userIndex nStates cells = some s → ∀ c ∈ cells, ∀ j,
      getStateRatio dof cells s c j = some (if j = userIndex c then 1 else 0) := by
  have key : ∀ (l done : List κ) (s : State), cells = done ++ l →
      (∀ j col, s j col = if ∃ c, done[col]? = some c ∧ j = userIndex c then 1 else 0) →
      ((l.foldl (fun s c => s.bind fun s => (getDofIndex dof cells c).bind fun i =>
        if userIndex c < nStates then some (put s (userIndex c) i 1) else none) (some s)).isSome ↔
          ∀ c ∈ l, userIndex c < nStates) ∧
      ∀ t, l.foldl (fun s c => s.bind fun s => (getDofIndex dof cells c).bind fun i =>
        if userIndex c < nStates then some (put s (userIndex c) i 1) else none) (some s) = some t →
        ∀ j col, t j col = if ∃ c, cells[col]? = some c ∧ j = userIndex c then 1 else 0 := by
    intro l
    induction l with
    | nil =>
      intro done s hd hs
      refine ⟨by simp, fun t ht j col => ?_⟩
      cases ht
      rw [hs, hd, List.append_nil]
    | cons c l ih =>
      intro done s hd hs
      have hget : getDofIndex dof cells c = some done.length := by
        apply (C105_columns dof cells hn).1
        rw [hd]
        simp
      rw [List.foldl_cons]
      simp only [Option.bind_some, hget]
      by_cases hu : userIndex c < nStates
      · rw [if_pos hu]
        have hs' : ∀ j col, put s (userIndex c) done.length 1 j col =
            if ∃ d, (done ++ [c])[col]? = some d ∧ j = userIndex d then 1 else 0 := by
          intro j col
          unfold put
          by_cases hcol : col = done.length
          · subst hcol
            have : ∀ d, (done ++ [c])[done.length]? = some d ↔ d = c := by intro d; simp [eq_comm]
            by_cases hj : j = userIndex c
            · rw [if_pos ⟨hj, rfl⟩, if_pos ⟨c, (this c).2 rfl, hj⟩]
            · rw [if_neg fun h => hj h.1, hs, if_neg, if_neg]
              · rintro ⟨d, h1, h2⟩
                rw [(this d).1 h1] at h2
                exact hj h2
              · rintro ⟨d, h1, h2⟩
                rw [List.getElem?_eq_none (Nat.le_refl _)] at h1
                cases h1
          · rw [if_neg fun h => hcol h.2, hs]
            by_cases hlt : col < done.length
            · rw [List.getElem?_append_left hlt]
            · rw [List.getElem?_append_right (by omega), List.getElem?_eq_none (by omega),
                List.getElem?_eq_none (by simp; omega)]
        obtain ⟨h1, h2⟩ := ih (done ++ [c]) (put s (userIndex c) done.length 1) (by rw [hd]; simp) hs'
        refine ⟨?_, h2⟩
        rw [h1]
        simp [hu]
      · rw [if_neg hu, foldl_bind_none]
        refine ⟨?_, fun t ht => by cases ht⟩
        simp [hu]
  obtain ⟨h1, h2⟩ := key cells [] (fun _ _ => 0) rfl (by simp)
  refine ⟨h1, fun s hs c hc j => ?_⟩
  obtain ⟨i, hi⟩ := List.getElem?_of_mem hc
  unfold getStateRatio
  rw [(C105_columns dof cells hn).1 i c hi, Option.map_some, h2 s hs j i, hi]
  congr 1
  by_cases hj : j = userIndex c
  · rw [if_pos ⟨c, rfl, hj⟩, if_pos hj]
  · rw [if_neg hj, if_neg]
    rintro ⟨d, h1, h2⟩
    cases h1
    exact hj h2

/-- The element of a distributed vector with the global index `d` in the array of the process that owns the numbers of `cells`:
`temperature_average.get_values()` is indexed by it, `source/MaterialProperty.templates.hh:281`, `:310-320`, while
`compute_average` writes `temperature_average[global index]`, `source/MaterialProperty.templates.hh:1121-1150`. -/
def localIndex (dof : κ → ℕ) (cells : List κ) (d : ℕ) : ℕ := (cells.map dof).countP (· < d)

omit [DecidableEq κ] in
theorem countP_sorted : ∀ (l : List ℕ), l.Pairwise (· < ·) → ∀ i x, l[i]? = some x → l.countP (· < x) = i := by
  intro l
  induction l with
  | nil => intro _ i x h; simp at h
  | cons a t ih =>
    intro hs i x hx
    rw [List.pairwise_cons] at hs
    cases i with
    | zero =>
      simp only [List.getElem?_cons_zero, Option.some.injEq] at hx
      subst hx
      rw [List.countP_eq_zero]
      intro b hb
      rcases List.mem_cons.1 hb with rfl | hb
      · simp
      · simpa using (hs.1 b hb).le
    | succ i =>
      rw [List.getElem?_cons_succ] at hx
      have hax : a < x := hs.1 x (List.mem_of_getElem? hx)
      rw [List.countP_cons_of_pos (by simpa using hax), ih hs.2 i x hx]

/-- **C105, average temperature.**  `update` reads for every cell the average temperature of that cell exactly if the
numbering of the cells by `distribute_dofs` increases along the iterators (which is how deal.II numbers cells). -/
theorem C105_average (dof : κ → ℕ) (cells : List κ) (hn : (cells.map dof).Nodup) :
    (∀ (i : ℕ) (c : κ), cells[i]? = some c → getDofIndex dof cells c = some (localIndex dof cells (dof c))) ↔
      (cells.map dof).Pairwise (· < ·) := by
  constructor
  · intro h
    have hidx : ∀ i c, cells[i]? = some c → localIndex dof cells (dof c) = i := by
      intro i c hc
      have h1 := h i c hc
      rw [(C105_columns dof cells hn).1 i c hc] at h1
      exact (Option.some.inj h1).symm
    rw [List.pairwise_iff_getElem]
    intro i j hi hj hij
    by_contra hle
    rw [not_lt] at hle
    rw [List.length_map] at hi hj
    rw [List.getElem_map, List.getElem_map] at hle
    have h1 := hidx i cells[i] (List.getElem?_eq_getElem hi)
    have h2 := hidx j cells[j] (List.getElem?_eq_getElem hj)
    have : localIndex dof cells (dof cells[j]) ≤ localIndex dof cells (dof cells[i]) := by
      unfold localIndex
      refine List.countP_mono_left fun x _ hx => ?_
      simp only [decide_eq_true_eq] at hx ⊢
      omega
    omega
  · intro hs i c hc
    rw [(C105_columns dof cells hn).1 i c hc]
    congr 1
    symm
    apply countP_sorted _ hs
    rw [List.getElem?_map, hc]
    rfl

/-- Three cells numbered 7, 3, 5 with user indices 2, 0, 2 and three states. -/
example : ([7, 3, 5].map (id : ℕ → ℕ)).Nodup ∧ (∀ c ∈ [7, 3, 5], (fun d : ℕ => if d = 3 then 0 else 2) c < 3) := by decide

/-! ## C106 -/

theorem mapBatch_spec (b : ℕ) (lanes : List κ) : ∀ (k : ℕ) (m : κ → Option (ℕ × ℕ)) (c : κ),
    ((lanes.zipIdx k).foldl (fun (m : κ → Option (ℕ × ℕ)) p => Function.update m p.1 (some (b, p.2))) m c = m c ∧ c ∉ lanes) ∨
    ∃ i, lanes[i]? = some c ∧
      (lanes.zipIdx k).foldl (fun (m : κ → Option (ℕ × ℕ)) p => Function.update m p.1 (some (b, p.2))) m c = some (b, k + i) := by
  induction lanes with
  | nil => intro k m c; exact Or.inl ⟨rfl, by simp⟩
  | cons d ds ih =>
    intro k m c
    rw [List.zipIdx_cons, List.foldl_cons]
    rcases ih (k + 1) (Function.update m d (some (b, k))) c with ⟨h1, h2⟩ | ⟨i, h1, h2⟩
    · by_cases hd : c = d
      · subst hd
        refine Or.inr ⟨0, by simp, ?_⟩
        rw [h1]
        simp
      · refine Or.inl ⟨?_, by simp [hd, h2]⟩
        rw [h1]
        exact Function.update_of_ne hd _ _
    · refine Or.inr ⟨i + 1, by simpa using h1, ?_⟩
      rw [h2]
      congr 2
      omega

theorem cellMap_spec (batches : List (List κ)) : ∀ (k : ℕ) (m : κ → Option (ℕ × ℕ)) (c : κ),
    ((batches.zipIdx k).foldl (fun m p => mapBatch m p.2 p.1) m c = m c ∧ c ∉ batches.flatten) ∨
    ∃ b i, cellAt batches b i = some c ∧ (batches.zipIdx k).foldl (fun m p => mapBatch m p.2 p.1) m c = some (k + b, i) := by
  induction batches with
  | nil => intro k m c; exact Or.inl ⟨rfl, by simp⟩
  | cons l ls ih =>
    intro k m c
    rw [List.zipIdx_cons, List.foldl_cons]
    rcases ih (k + 1) (mapBatch m k l) c with ⟨h1, h2⟩ | ⟨b, i, h1, h2⟩
    · rcases mapBatch_spec k l 0 m c with ⟨h3, h4⟩ | ⟨i, h3, h4⟩
      · refine Or.inl ⟨?_, by simp [h2, h4]⟩
        rw [h1]
        exact h3
      · refine Or.inr ⟨0, i, by simpa [cellAt] using h3, ?_⟩
        rw [h1]
        unfold mapBatch
        rw [h4]
        simp
    · refine Or.inr ⟨b + 1, i, by simpa [cellAt] using h1, ?_⟩
      rw [h2]
      congr 2
      omega

/-- A cell that is in some batch is found in the lane the map gives. -/
theorem laneOf_spec (batches : List (List κ)) (c : κ) (hc : c ∈ batches.flatten) :
    cellAt batches (laneOf batches c).1 (laneOf batches c).2 = some c := by
  unfold laneOf cellMap
  rcases cellMap_spec batches 0 (fun _ => none) c with ⟨-, h2⟩ | ⟨b, i, h1, h2⟩
  · exact absurd hc h2
  · rw [h2]
    simpa using h1

/-- What is written for a cell with liquid fraction `l` and powder fraction `w`. -/
def written (k : Kind) (l w : ℝ) : ℕ → Option ℝ
  | 0 => match k with
    | .solid => none
    | .solidLiquid => some (1 - l)
    | .solidLiquidPowder => some (1 - l - w)
  | 1 => if k = .solid then none else some l
  | 2 => if k = .solidLiquidPowder then some w else none
  | _ => none

theorem foldl_columns (dof : κ → ℕ) (cells : List κ) (hn : (cells.map dof).Nodup) (g : ℕ → κ → State → State)
    (val : κ → ℕ → Option ℝ)
    (hg : ∀ col c s j col', g col c s j col' = if col' = col then (val c j).getD (s j col') else s j col') :
    ∀ (l : List κ) (s : State), (∀ c ∈ l, c ∈ cells) →
      ∃ t, l.foldl (fun s c => s.bind fun s => (getDofIndex dof cells c).map fun col => g col c s) (some s) = some t ∧
        ∀ i c, cells[i]? = some c → ∀ j, t j i = if c ∈ l then (val c j).getD (s j i) else s j i := by
  have hcn : cells.Nodup := List.Nodup.of_map _ hn
  intro l
  induction l with
  | nil => intro s _; exact ⟨s, rfl, fun i c _ j => by simp⟩
  | cons d ds ih =>
    intro s hsub
    obtain ⟨i0, hi0⟩ := List.getElem?_of_mem (hsub d (by simp))
    have hget := (C105_columns dof cells hn).1 i0 d hi0
    obtain ⟨t, ht, hspec⟩ := ih (g i0 d s) fun c hc => hsub c (by simp [hc])
    refine ⟨t, ?_, fun i c hc j => ?_⟩
    · rw [List.foldl_cons]
      simp only [Option.bind_some, hget, Option.map_some]
      exact ht
    · rw [hspec i c hc j, hg]
      by_cases hcd : c = d
      · subst hcd
        have hii : i = i0 := by
          have h1 : i < cells.length := by
            by_contra h
            rw [List.getElem?_eq_none (by omega)] at hc
            cases hc
          have h2 : i0 < cells.length := by
            by_contra h
            rw [List.getElem?_eq_none (by omega)] at hi0
            cases hi0
          exact (List.Nodup.getElem_inj_iff hcn (hi := h1) (hj := h2)).1 (by
            rw [List.getElem?_eq_getElem h1] at hc
            rw [List.getElem?_eq_getElem h2] at hi0
            rw [Option.some.injEq] at hc hi0
            rw [hc, hi0])
        rw [if_pos hii, if_pos (List.mem_cons_self : c ∈ c :: ds)]
        by_cases hmem : c ∈ ds
        · rw [if_pos hmem]
          cases val c j <;> rfl
        · rw [if_neg hmem]
      · have hii : i ≠ i0 := by
          rintro rfl
          rw [hc] at hi0
          cases hi0
          exact hcd rfl
        rw [if_neg hii]
        simp [hcd]

theorem foldl_sum (f : ℕ → ℝ) (n : ℕ) : (List.range n).foldl (fun a q => a + f q) 0 = ∑ q ∈ Finset.range n, f q := by
  induction n with
  | zero => rfl
  | succ n ih => rw [List.range_succ, List.foldl_append, ih, Finset.sum_range_succ]; rfl

theorem storeCell_spec (k : Kind) (nq : ℕ) (batches : List (List κ)) (liquid powder : Lanes) (col : ℕ) (c : κ) (s : State)
    (j col' : ℕ) :
    storeCell k nq batches liquid powder col c s j col' = if col' = col then
      (written k ((∑ q ∈ Finset.range nq, liquid (laneOf batches c).1 q (laneOf batches c).2) / nq)
        ((∑ q ∈ Finset.range nq, powder (laneOf batches c).1 q (laneOf batches c).2) / nq) j).getD (s j col') else s j col' := by
  unfold storeCell
  simp only [foldl_sum]
  by_cases hcol : col' = col
  · subst hcol
    rw [if_pos rfl]
    rcases j with _ | _ | _ | j <;> cases k <;> simp [put, written]
  · rw [if_neg hcol]
    cases k <;> simp [put, hcol]

theorem storeDeviceCell_spec (k : Kind) (nq : ℕ) (pos : κ → ℕ → ℕ) (liquid powder : ℕ → ℝ) (col : ℕ) (c : κ) (s : State)
    (j col' : ℕ) :
    storeDeviceCell k nq pos liquid powder col c s j col' = if col' = col then
      (written k ((∑ q ∈ Finset.range nq, liquid (pos c q)) / nq)
        ((∑ q ∈ Finset.range nq, powder (pos c q)) / nq) j).getD (s j col') else s j col' := by
  unfold storeDeviceCell
  simp only [foldl_sum]
  by_cases hcol : col' = col
  · subst hcol
    rw [if_pos rfl]
    rcases j with _ | _ | _ | j <;> cases k <;> simp [put, written]
  · rw [if_neg hcol]
    cases k <;> simp [put, hcol]

/-! ### Specification -/

/-- The fraction of a state. -/
def fraction (r : Ratios) : ℕ → ℝ
  | 0 => r.solid
  | 1 => r.liquid
  | 2 => r.powder
  | _ => 0

/-- Number of states. -/
def stateCount : Kind → ℕ
  | .solid => 1
  | .solidLiquid => 2
  | .solidLiquidPowder => 3

/-- The mean over the quadrature points. -/
noncomputable def pointMean (nq : ℕ) (f : ℕ → ℝ) : ℝ := (∑ q ∈ Finset.range nq, f q) / nq

/-- The fractions of a cell from the fractions at its points: means for liquid and powder, the rest is solid. -/
noncomputable def cellFractions (k : Kind) (nq : ℕ) (pt : ℕ → Ratios) : Ratios :=
  match k with
  | .solid => ⟨1, 0, 0⟩
  | .solidLiquid => ⟨1 - pointMean nq fun q => (pt q).liquid, pointMean nq fun q => (pt q).liquid, 0⟩
  | .solidLiquidPowder => ⟨1 - (pointMean nq fun q => (pt q).liquid) - pointMean nq fun q => (pt q).powder,
      pointMean nq fun q => (pt q).liquid, pointMean nq fun q => (pt q).powder⟩

theorem written_fraction (k : Kind) (hk : k ≠ .solid) (nq : ℕ) (pt : ℕ → Ratios) (j : ℕ) (hj : j < stateCount k) (x : ℝ) :
    (written k (pointMean nq fun q => (pt q).liquid) (pointMean nq fun q => (pt q).powder) j).getD x =
      fraction (cellFractions k nq pt) j := by
  cases k with
  | solid => exact absurd rfl hk
  | solidLiquid =>
    have : j = 0 ∨ j = 1 := by simp only [stateCount] at hj; omega
    rcases this with rfl | rfl <;> rfl
  | solidLiquidPowder =>
    have : j = 0 ∨ j = 1 ∨ j = 2 := by simp only [stateCount] at hj; omega
    rcases this with rfl | rfl | rfl <;> rfl

/-- **C106, the host operator.**  For every arrangement of the locally owned cells into batches that contains every cell, if
the lanes hold at the quadrature points of each cell the fractions `pt c`, then after `set_state_to_material_properties` every
cell has the fractions `cellFractions` of its own points, independently of the arrangement, of the number of lanes and of the
numbering. -/
theorem C106_store (k : Kind) (nq : ℕ) (dof : κ → ℕ) (cells : List κ) (hn : (cells.map dof).Nodup) (batches : List (List κ))
    (hall : ∀ c ∈ cells, c ∈ batches.flatten) (liquid powder : Lanes) (pt : κ → ℕ → Ratios)
    (hpt : ∀ b i c, cellAt batches b i = some c → ∀ q < nq, liquid b q i = (pt c q).liquid ∧ powder b q i = (pt c q).powder)
    (s : State) :
    ∃ t, store k nq dof cells batches liquid powder s = some t ∧ ∀ c ∈ cells, ∀ j < stateCount k,
      getStateRatio dof cells t c j = some (fraction (cellFractions k nq (pt c)) j) := by
  unfold store
  by_cases hk : k = .solid
  · subst hk
    rw [if_pos rfl]
    refine ⟨_, rfl, fun c hc j hj => ?_⟩
    obtain ⟨i, hi⟩ := List.getElem?_of_mem hc
    have : j = 0 := by simp only [stateCount] at hj; omega
    subst this
    unfold getStateRatio
    rw [(C105_columns dof cells hn).1 i c hi]
    rfl
  · rw [if_neg hk]
    obtain ⟨t, ht, hspec⟩ := foldl_columns dof cells hn (fun col c s => storeCell k nq batches liquid powder col c s) _
      (fun col c s j col' => storeCell_spec k nq batches liquid powder col c s j col') cells s fun c hc => hc
    refine ⟨t, ht, fun c hc j hj => ?_⟩
    obtain ⟨i, hi⟩ := List.getElem?_of_mem hc
    unfold getStateRatio
    rw [(C105_columns dof cells hn).1 i c hi, Option.map_some, hspec i c hi j, if_pos hc]
    have hlane := laneOf_spec batches c (hall c hc)
    have e1 : (∑ q ∈ Finset.range nq, liquid (laneOf batches c).1 q (laneOf batches c).2) / nq =
        pointMean nq fun q => (pt c q).liquid := by
      unfold pointMean
      rw [Finset.sum_congr rfl fun q hq => (hpt _ _ c hlane q (Finset.mem_range.1 hq)).1]
    have e2 : (∑ q ∈ Finset.range nq, powder (laneOf batches c).1 q (laneOf batches c).2) / nq =
        pointMean nq fun q => (pt c q).powder := by
      unfold pointMean
      rw [Finset.sum_congr rfl fun q hq => (hpt _ _ c hlane q (Finset.mem_range.1 hq)).2]
    rw [e1, e2, written_fraction k hk nq (pt c) j hj]

theorem cellFractions_const (k : Kind) (nq : ℕ) (hq : 0 < nq) (r : Ratios) (hsum : r.solid + r.liquid + r.powder = 1)
    (hk : k ≠ .solidLiquidPowder → r.powder = 0) (hk' : k = .solid → r.liquid = 0) :
    cellFractions k nq (fun _ => r) = r := by
  have hm : ∀ x : ℝ, pointMean nq (fun _ => x) = x := by
    intro x
    unfold pointMean
    have : (nq : ℝ) ≠ 0 := by exact_mod_cast hq.ne'
    simp [this]
  obtain ⟨a, b, c⟩ := r
  simp only at hsum hk hk'
  cases k with
  | solid =>
    have h1 := hk (by decide)
    have h2 := hk' rfl
    subst h1 h2
    simp only [add_zero] at hsum
    subst hsum
    rfl
  | solidLiquid =>
    have h1 := hk (by decide)
    subst h1
    simp only [cellFractions, hm, Ratios.mk.injEq, and_true]
    linarith
  | solidLiquidPowder =>
    simp only [cellFractions, hm, Ratios.mk.injEq, and_true]
    linarith

/-- **C106, round trip.**  Copying the fractions of the cells to the lanes and back changes the state of no cell, with or
without material, for every arrangement into batches. -/
theorem C106_round_trip (k : Kind) (nq : ℕ) (hq : 0 < nq) (dof : κ → ℕ) (cells : List κ) (hn : (cells.map dof).Nodup)
    (batches : List (List κ)) (hall : ∀ c ∈ cells, c ∈ batches.flatten) (r : κ → Ratios)
    (hr : ∀ c ∈ cells, (r c).solid + (r c).liquid + (r c).powder = 1 ∧ (k ≠ .solidLiquidPowder → (r c).powder = 0) ∧
      (k = .solid → (r c).liquid = 0)) (s : State) :
    ∃ t, store k nq dof cells batches (load batches fun c => (r c).liquid) (load batches fun c => (r c).powder) s = some t ∧
      ∀ c ∈ cells, ∀ j < stateCount k, getStateRatio dof cells t c j = some (fraction (r c) j) := by
  obtain ⟨t, ht, hspec⟩ := C106_store k nq dof cells hn batches hall (load batches fun c => (r c).liquid)
    (load batches fun c => (r c).powder) (fun c _ => r c)
    (fun b i c hc q _ => by unfold load; rw [hc]; exact ⟨rfl, rfl⟩) s
  refine ⟨t, ht, fun c hc j hj => ?_⟩
  rw [hspec c hc j hj, cellFractions_const k nq hq (r c) (hr c hc).1 (hr c hc).2.1 (hr c hc).2.2]

/-- **C106, the device operator.**  If the positions of the device hold the fractions `pt c` of every cell with material, then after
`set_state_to_material_properties` those cells have the fractions of their own points and the others are unchanged. -/
theorem C106_store_device (k : Kind) (hk : k ≠ .solid) (nq : ℕ) (dof : κ → ℕ) (cells : List κ) (hn : (cells.map dof).Nodup)
    (material : κ → Bool) (pos : κ → ℕ → ℕ) (liquid powder : ℕ → ℝ) (pt : κ → ℕ → Ratios)
    (hpt : ∀ c ∈ cells, material c = true → ∀ q < nq, liquid (pos c q) = (pt c q).liquid ∧ powder (pos c q) = (pt c q).powder)
    (s : State) :
    ∃ t, storeDevice k nq dof cells material pos liquid powder s = some t ∧ ∀ c ∈ cells, ∀ j < stateCount k,
      getStateRatio dof cells t c j =
        if material c then some (fraction (cellFractions k nq (pt c)) j) else getStateRatio dof cells s c j := by
  unfold storeDevice
  rw [if_neg hk]
  obtain ⟨t, ht, hspec⟩ := foldl_columns dof cells hn (fun col c s => storeDeviceCell k nq pos liquid powder col c s) _
    (fun col c s j col' => storeDeviceCell_spec k nq pos liquid powder col c s j col') (cells.filter material) s
    fun c hc => (List.mem_filter.1 hc).1
  refine ⟨t, ht, fun c hc j hj => ?_⟩
  obtain ⟨i, hi⟩ := List.getElem?_of_mem hc
  unfold getStateRatio
  rw [(C105_columns dof cells hn).1 i c hi, Option.map_some, hspec i c hi j]
  by_cases hm : material c = true
  · rw [if_pos (List.mem_filter.2 ⟨hc, hm⟩), if_pos hm]
    have e1 : (∑ q ∈ Finset.range nq, liquid (pos c q)) / nq = pointMean nq fun q => (pt c q).liquid := by
      unfold pointMean
      rw [Finset.sum_congr rfl fun q hq => (hpt c hc hm q (Finset.mem_range.1 hq)).1]
    have e2 : (∑ q ∈ Finset.range nq, powder (pos c q)) / nq = pointMean nq fun q => (pt c q).powder := by
      unfold pointMean
      rw [Finset.sum_congr rfl fun q hq => (hpt c hc hm q (Finset.mem_range.1 hq)).2]
    rw [e1, e2, written_fraction k hk nq (pt c) j hj]
  · rw [if_neg fun h => hm (List.mem_filter.1 h).2, if_neg hm]
    rfl

/-- **C106, the device operator with one state.**  A material that is always solid has fraction 1 in every cell, with or without
material, whatever the device holds. -/
theorem C106_store_device_solid (nq : ℕ) (dof : κ → ℕ) (cells : List κ) (hn : (cells.map dof).Nodup)
    (material : κ → Bool) (pos : κ → ℕ → ℕ) (liquid powder : ℕ → ℝ) (s : State) :
    ∃ t, storeDevice .solid nq dof cells material pos liquid powder s = some t ∧ ∀ c ∈ cells, getStateRatio dof cells t c 0 = some 1 := by
  refine ⟨_, if_pos rfl, fun c hc => ?_⟩
  obtain ⟨i, hi⟩ := List.getElem?_of_mem hc
  unfold getStateRatio
  rw [(C105_columns dof cells hn).1 i c hi, Option.map_some]

theorem fold_positions (nq : ℕ) (pos : κ → ℕ → ℕ) (value : κ × ℕ → ℝ) (l : List (κ × ℕ)) (hl : (l.map Prod.fst).Nodup)
    (hinj : ∀ c ∈ l.map Prod.fst, ∀ d ∈ l.map Prod.fst, ∀ q < nq, ∀ q' < nq, pos c q = pos d q' → c = d) :
    ∀ (old : ℕ → ℝ), (∀ p ∈ l, ∀ q < nq,
      l.foldl (fun f p => (List.range nq).foldl (fun f q => Function.update f (pos p.1 q) (value p)) f) old (pos p.1 q) = value p) := by
  have inner : ∀ (c : κ) (v : ℝ) (n : ℕ) (f : ℕ → ℝ) (x : ℕ),
      (List.range n).foldl (fun f q => Function.update f (pos c q) v) f x = if ∃ q < n, x = pos c q then v else f x := by
    intro c v n
    induction n with
    | zero => intro f x; simp
    | succ n ih =>
      intro f x
      rw [List.range_succ, List.foldl_append, List.foldl_cons, List.foldl_nil]
      by_cases hx : x = pos c n
      · rw [hx, Function.update_self, if_pos ⟨n, by omega, rfl⟩]
      · rw [Function.update_of_ne hx, ih]
        by_cases h : ∃ q < n, x = pos c q
        · rw [if_pos h]
          obtain ⟨q, h1, h2⟩ := h
          rw [if_pos ⟨q, by omega, h2⟩]
        · rw [if_neg h, if_neg]
          rintro ⟨q, h1, h2⟩
          by_cases e : q = n
          · exact hx (e ▸ h2)
          · exact h ⟨q, by omega, h2⟩
  have keep : ∀ (l : List (κ × ℕ)) (old : ℕ → ℝ) (x : ℕ), (∀ p ∈ l, ∀ q < nq, x ≠ pos p.1 q) →
      l.foldl (fun f p => (List.range nq).foldl (fun f q => Function.update f (pos p.1 q) (value p)) f) old x = old x := by
    intro l
    induction l with
    | nil => intro old x _; rfl
    | cons p ps ih =>
      intro old x h
      rw [List.foldl_cons, ih _ _ fun p hp => h p (by simp [hp]), inner, if_neg]
      rintro ⟨q, h1, h2⟩
      exact h p (by simp) q h1 h2
  induction l with
  | nil => intro old p hp; cases hp
  | cons p ps ih =>
    intro old p' hp' q hq
    rw [List.map_cons, List.nodup_cons] at hl
    rw [List.foldl_cons]
    rcases List.mem_cons.1 hp' with rfl | hp'
    · rw [keep, inner, if_pos ⟨q, hq, rfl⟩]
      intro r hr q' hq' e
      have := hinj p'.1 (by simp) r.1 (by simp; right; exact ⟨r.2, hr⟩) q hq q' hq' e
      exact hl.1 (this ▸ List.mem_map_of_mem hr)
    · exact ih hl.2 (fun c hc d hd => hinj c (by simp at hc ⊢; exact Or.inr hc) d (by simp at hd ⊢; exact Or.inr hd)) _ p' hp' q hq

/-- **C106, orientation.**  On both operators the quadrature points of the `n`-th cell with material get the `n`-th entry of the
array, for every arrangement into batches and every assignment of positions that keeps the cells apart. -/
theorem C106_orientation (nq : ℕ) (cells : List κ) (hc : cells.Nodup) (material : κ → Bool) (angles : List ℝ) (n : ℕ) (c : κ)
    (hcn : (cells.filter material)[n]? = some c) (x : ℝ) (hx : angles[n]? = some x) :
    (∀ batches b i, cellAt batches b i = some c → ∀ q, orientation material cells batches angles b q i = x) ∧
    (∀ (pos : κ → ℕ → ℕ) (old : ℕ → ℝ), (∀ c ∈ cells.filter material, ∀ d ∈ cells.filter material, ∀ q < nq, ∀ q' < nq,
      pos c q = pos d q' → c = d) → ∀ q < nq, orientationDevice nq pos material cells angles old (pos c q) = x) := by
  have hfn : (cells.filter material).Nodup := hc.filter _
  have hlt : n < (cells.filter material).length := by
    by_contra h
    rw [List.getElem?_eq_none (by omega)] at hcn
    cases hcn
  have hget : (cells.filter material)[n] = c := by
    rw [List.getElem?_eq_getElem hlt] at hcn
    exact Option.some.inj hcn
  have hx' : angles.getD n 0 = x := by rw [List.getD_eq_getElem?_getD, hx]; rfl
  constructor
  · intro batches b i hb q
    unfold orientation
    rw [hb]
    have hmat : material c = true := (List.mem_filter.1 (hget ▸ List.getElem_mem hlt)).2
    have hidx : (cells.filter material).idxOf c = n := by
      rw [← hget]
      exact List.Nodup.idxOf_getElem hfn n hlt
    simp only [hmat, if_true, hidx, hx']
  · intro pos old hinj q hq
    unfold orientationDevice
    have hmap : ((cells.filter material).zipIdx.map Prod.fst) = cells.filter material := by simp
    have := fold_positions nq pos (fun p => angles.getD p.2 0) (cells.filter material).zipIdx (by rw [hmap]; exact hfn)
      (by rw [hmap]; exact hinj) old (c, n) (by
        rw [List.mk_mem_zipIdx_iff_getElem?]
        exact hcn) q hq
    rw [this]
    exact hx'

/-- **C106, orientation without material.**  On the host operator the quadrature points of a cell without material have the value 0. -/
theorem C106_orientation_void (cells : List κ) (material : κ → Bool) (angles : List ℝ) (c : κ) (hm : material c = false)
    (batches : List (List κ)) (b i q : ℕ) (hb : cellAt batches b i = some c) : orientation material cells batches angles b q i = 0 := by
  unfold orientation
  rw [hb]
  simp [hm]

/-- **C106, loading on the device.**  The quadrature points of every cell with material get the fraction of the cell. -/
theorem C106_load_device (nq : ℕ) (cells : List κ) (hc : cells.Nodup) (material : κ → Bool) (value : κ → ℝ) (pos : κ → ℕ → ℕ)
    (hinj : ∀ c ∈ cells.filter material, ∀ d ∈ cells.filter material, ∀ q < nq, ∀ q' < nq, pos c q = pos d q' → c = d)
    (old : ℕ → ℝ) (c : κ) (hcm : c ∈ cells) (hm : material c = true) (q : ℕ) (hq : q < nq) :
    loadDevice nq pos material value cells old (pos c q) = value c := by
  unfold loadDevice
  have hmap : ((cells.filter material).map fun c => (c, 0)).map Prod.fst = cells.filter material := by
    rw [List.map_map]
    exact List.map_id _
  have := fold_positions nq pos (fun p => value p.1) ((cells.filter material).map fun c => (c, 0)) (by rw [hmap]; exact hc.filter _)
    (by rw [hmap]; exact hinj) old (c, 0) (List.mem_map.2 ⟨c, List.mem_filter.2 ⟨hcm, hm⟩, rfl⟩) q hq
  rw [List.foldl_map] at this
  exact this

/-- Five cells in batches of two and three lanes, and positions 8 c + q: the hypotheses are met. -/
example : (∀ c ∈ [0, 1, 2, 3, 4], c ∈ ([[3, 0], [4, 1], [2]] : List (List ℕ)).flatten) ∧
    cellAt ([[3, 0], [4, 1], [2]] : List (List ℕ)) 1 1 = some 1 ∧
    (∀ c ∈ [0, 1, 2], ∀ d ∈ [0, 1, 2], ∀ q < 8, ∀ q' < 8, 8 * c + q = 8 * d + q' → c = d) := by
  refine ⟨by decide, rfl, ?_⟩
  intro c _ d _ q hq q' hq' h
  omega

end Verif.Material.CellState
