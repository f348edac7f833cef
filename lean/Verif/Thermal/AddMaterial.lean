import Verif.Refinement.Transfer
import Mathlib.Logic.Function.Basic

/-!
# C41: adding material

Model of `ThermalPhysics::add_material_start` and `add_material_end`, `source/ThermalPhysics.templates.hh:600-825`.
`double` is `ℝ`, infinity is `⊤`.  `Cell`, `Arrays`, `Material`, `Holds`, `finite?` and `Transferred` are those of
`Verif.Refinement.Transfer` (the cells seen by one rank, its arrays, the field they hold, the contract of
`CellDataTransfer`).  A cell is named by its identity `id`: `cell_to_id` (643-644, 688) maps the iterator to the position in the
list of active cells, so `_data_to_transfer[cell_to_id[cell]]` is the entry of that cell.  The out-parameter `new_has_melted`
(705-709) is read by no caller and not modelled.  Hanging-node constraints are not modelled: the vectors hold a value for every
degree of freedom.
-/

namespace Verif.Thermal

open Verif.Refinement

/-- The loop that fills `_data_to_transfer`, lines 645-690: solution, cosine, sine, melting indicator, state ratios.
`u` is the temperature vector, `dofs` the degrees of freedom of a cell.  `none` is a read outside an array. -/
def packStart (nStates nDofs : ℕ) (a : Arrays) (u : ℕ → ℝ) (dofs : ℕ → List ℕ) : ℕ → ℕ → List Cell → Option (List CellData)
  | _, _, [] => some []
  | ownedId, activatedId, c :: cs =>
    if c.owned then
      match a.state[ownedId]? with
      | none => none
      | some st =>
        if c.feIndex = 0 then
          match a.cos[activatedId]?, a.sin[activatedId]?, a.melted[activatedId]? with
          | some co, some si, some m =>
            (packStart nStates nDofs a u dofs (ownedId + 1) (activatedId + 1) cs).map
              (((dofs c.id).map (fun d : ℕ => WithTop.some (u d)) ++
                ([(co : WithTop ℝ), (si : WithTop ℝ), if m then ((1 : ℝ) : WithTop ℝ) else ((0 : ℝ) : WithTop ℝ)] ++
                  (st.take nStates).map fun x : ℝ => WithTop.some x)) :: ·)
          | _, _, _ => none
        else
          (packStart nStates nDofs a u dofs (ownedId + 1) activatedId cs).map
            ((List.replicate nDofs ⊤ ++ ([⊤, ⊤, ⊤] ++ (st.take nStates).map fun x : ℝ => WithTop.some x)) :: ·)
    else
      (packStart nStates nDofs a u dofs ownedId activatedId cs).map (List.replicate (nDofs + 3 + nStates) ⊤ :: ·)

/-- The body of the activation loop for the cell with identity `k`, lines 697-710: `active_fe_index() != 0` is tested, the
cosine and sine are stored.  (`set_future_fe_index` does not change `active_fe_index`.) -/
def activateCell (nDofs : ℕ) (co si : ℝ) (k : ℕ) (cells : List Cell) (data : List CellData) : List CellData :=
  List.zipWith
    (fun c d => if c.id = k ∧ c.feIndex ≠ 0 then (d.set nDofs (co : WithTop ℝ)).set (nDofs + 1) (si : WithTop ℝ) else d)
    cells data

/-- The activation loop over the given box numbers, lines 693-712.  `none` is a read outside `elements_to_activate`,
`new_deposition_cos` or `new_deposition_sin`. -/
def activateLoop (nDofs : ℕ) (elements : List (List ℕ)) (cos sin : List ℝ) (cells : List Cell) :
    List ℕ → List CellData → Option (List CellData)
  | [], data => some data
  | i :: is, data =>
    match elements[i]?, cos[i]?, sin[i]? with
    | some es, some co, some si =>
      activateLoop nDofs elements cos sin cells is (es.foldl (fun d k => activateCell nDofs co si k cells d) data)
    | _, _, _ => none

/-- `active_fe_index` after `execute_coarsening_and_refinement`: 0 for the cells that got `set_future_fe_index(0)`, lines
693-699 with `i` from `activation_start` to `activation_end`. -/
def newFeIndex (elements : List (List ℕ)) (s e : ℕ) (c : Cell) : ℕ :=
  if c.feIndex ≠ 0 ∧ ∃ i ∈ List.range' s (e - s), ∃ es, elements[i]? = some es ∧ c.id ∈ es then 0 else c.feIndex

/-- `add_material_start`, lines 600-724: what a rank hands over to `CellDataTransfer`. -/
def addStart (nStates nDofs : ℕ) (a : Arrays) (u : ℕ → ℝ) (dofs : ℕ → List ℕ) (cells : List Cell)
    (elements : List (List ℕ)) (cos sin : List ℝ) (s e : ℕ) : Option (List CellData) :=
  match packStart nStates nDofs a u dofs 0 0 cells with
  | none => none
  | some data => activateLoop nDofs elements cos sin cells (List.range' s (e - s)) data

open Classical in
/-- Writing the values of one cell, lines 782-788; only locally owned degrees of freedom are written. -/
noncomputable def writeDofs (ownedDof : ℕ → Prop) (sol : ℕ → WithTop ℝ) (ps : List (ℕ × WithTop ℝ)) : ℕ → WithTop ℝ :=
  ps.foldl (fun s p => if ownedDof p.1 then Function.update s p.1 p.2 else s) sol

open Classical in
/-- The part of the loop 770-817 that restores the solution, lines 774-789, with the new degrees of freedom `dofs`. -/
noncomputable def restore (nDofs : ℕ) (dofs : ℕ → List ℕ) (ownedDof : ℕ → Prop) :
    List Cell → List CellData → (ℕ → WithTop ℝ) → (ℕ → WithTop ℝ)
  | c :: cs, d :: ds, sol =>
    restore nDofs dofs ownedDof cs ds
      (if c.owned = true ∧ d[0]? ≠ some ⊤ then writeDofs ownedDof sol ((dofs c.id).zip (d.take nDofs)) else sol)
  | _, _, sol => sol

open Classical in
/-- The part of the loop 770-817 that rebuilds the material arrays, lines 791-810. `none` is a short vector or an infinite
orientation or ratio (the C++ would store the infinity). -/
noncomputable def unpackEnd (nStates nDofs : ℕ) : List Cell → List CellData → Option Arrays
  | [], _ => some ⟨[], [], [], []⟩
  | _ :: _, [] => none
  | c :: cs, d :: ds =>
    match unpackEnd nStates nDofs cs ds with
    | none => none
    | some r =>
      if c.owned then
        match ((d.drop (nDofs + 3)).take nStates).mapM finite? with
        | none => none
        | some st =>
          if c.feIndex = 0 then
            match d[nDofs]?, d[nDofs + 1]?, d[nDofs + 2]? with
            | some (co : WithTop ℝ), some si, some m =>
              match finite? co, finite? si with
              | some co, some si =>
                some ⟨st :: r.state, co :: r.cos, si :: r.sin, decide (((0.5 : ℝ) : WithTop ℝ) < m) :: r.melted⟩
              | _, _ => none
            | _, _, _ => none
          else some { r with state := st :: r.state }
      else some r

/-- `add_material_end`, lines 731-825, for one rank: every locally owned entry of the new vector starts from the new-material
temperature (743-747), then the loop runs. -/
noncomputable def addEnd (nStates nDofs : ℕ) (dofs : ℕ → List ℕ) (ownedDof : ℕ → Prop) (newTemperature : ℝ) (cells : List Cell)
    (data : List CellData) : Option (Arrays × (ℕ → WithTop ℝ)) :=
  (unpackEnd nStates nDofs cells data).map fun a =>
    (a, restore nDofs dofs ownedDof cells data fun _ => (newTemperature : WithTop ℝ))

/-! ## Specification -/

/-- The number of the last box of the range `[s, e)` whose list contains the cell. -/
def lastBox (elements : List (List ℕ)) (s e k : ℕ) : Option ℕ :=
  ((List.range' s (e - s)).filter fun i => (elements[i]?.getD []).contains k).getLast?

/-- A cell listed for a box of the range. -/
def Listed (elements : List (List ℕ)) (s e k : ℕ) : Prop := ∃ i es, s ≤ i ∧ i < e ∧ elements[i]? = some es ∧ k ∈ es

/-! ## Lemmas -/

/-- What is packed for a cell of a field. -/
def packedStart (nStates nDofs : ℕ) (g : ℕ → Material) (u : ℕ → ℝ) (dofs : ℕ → List ℕ) (c : Cell) : CellData :=
  if c.owned then
    if c.feIndex = 0 then
      (dofs c.id).map (fun d : ℕ => WithTop.some (u d)) ++
        ([((g c.id).cos : WithTop ℝ), ((g c.id).sin : WithTop ℝ),
          if (g c.id).melted then ((1 : ℝ) : WithTop ℝ) else ((0 : ℝ) : WithTop ℝ)] ++
          (g c.id).ratios.map fun x : ℝ => WithTop.some x)
    else List.replicate nDofs ⊤ ++ ([⊤, ⊤, ⊤] ++ (g c.id).ratios.map fun x : ℝ => WithTop.some x)
  else List.replicate (nDofs + 3 + nStates) ⊤

theorem packStart_aux (nStates nDofs : ℕ) (g : ℕ → Material) (u : ℕ → ℝ) (dofs : ℕ → List ℕ) (a : Arrays)
    (pre cells : List Cell)
    (hs : a.state = ((pre ++ cells).filter (·.owned)).map (fun c => (g c.id).ratios))
    (hc : a.cos = ((pre ++ cells).filter fun c => c.owned && c.feIndex == 0).map (fun c => (g c.id).cos))
    (hsi : a.sin = ((pre ++ cells).filter fun c => c.owned && c.feIndex == 0).map (fun c => (g c.id).sin))
    (hm : a.melted = ((pre ++ cells).filter fun c => c.owned && c.feIndex == 0).map (fun c => (g c.id).melted))
    (hlen : ∀ c ∈ cells, c.owned = true → (g c.id).ratios.length = nStates) :
    packStart nStates nDofs a u dofs (pre.filter (·.owned)).length
      (pre.filter fun c => c.owned && c.feIndex == 0).length cells =
      some (cells.map (packedStart nStates nDofs g u dofs)) := by
  induction cells generalizing pre with
  | nil => rfl
  | cons c cs ih =>
    have ih' := ih (pre ++ [c]) (by simpa using hs) (by simpa using hc) (by simpa using hsi) (by simpa using hm)
      (fun d hd => hlen d (by simp [hd]))
    by_cases ho : c.owned = true
    · have hst : a.state[(pre.filter (·.owned)).length]? = some (g c.id).ratios := by
        rw [hs]; simp [List.filter_append, List.filter_cons, ho]
      have hl := hlen c (by simp) ho
      have e1 : ((pre ++ [c]).filter (·.owned)).length = (pre.filter (·.owned)).length + 1 := by
        simp [List.filter_append, ho]
      by_cases hf : c.feIndex = 0
      · have h1 : a.cos[(pre.filter fun c => c.owned && c.feIndex == 0).length]? = some (g c.id).cos := by
          rw [hc]; simp [List.filter_append, List.filter_cons, ho, hf]
        have h2 : a.sin[(pre.filter fun c => c.owned && c.feIndex == 0).length]? = some (g c.id).sin := by
          rw [hsi]; simp [List.filter_append, List.filter_cons, ho, hf]
        have h3 : a.melted[(pre.filter fun c => c.owned && c.feIndex == 0).length]? = some (g c.id).melted := by
          rw [hm]; simp [List.filter_append, List.filter_cons, ho, hf]
        have e2 : ((pre ++ [c]).filter fun c => c.owned && c.feIndex == 0).length =
            (pre.filter fun c => c.owned && c.feIndex == 0).length + 1 := by
          simp [List.filter_append, ho, hf]
        rw [e1, e2] at ih'
        simp only [packStart, ho, if_true, hst, hf, h1, h2, h3, ih', Option.map_some, List.map_cons, Option.some.injEq,
          List.cons.injEq, and_true]
        simp only [packedStart, ho, hf, if_true]
        rw [List.take_of_length_le hl.le]
      · have e2 : ((pre ++ [c]).filter fun c => c.owned && c.feIndex == 0).length =
            (pre.filter fun c => c.owned && c.feIndex == 0).length := by
          simp [List.filter_append, hf]
        rw [e1, e2] at ih'
        simp only [packStart, ho, if_true, hst, hf, if_false, ih', Option.map_some, List.map_cons, Option.some.injEq,
          List.cons.injEq, and_true]
        simp only [packedStart, ho, hf, if_true, if_false]
        rw [List.take_of_length_le hl.le]
    · have ho' : c.owned = false := by simpa using ho
      have e1 : ((pre ++ [c]).filter (·.owned)).length = (pre.filter (·.owned)).length := by
        simp [List.filter_append, ho']
      have e2 : ((pre ++ [c]).filter fun c => c.owned && c.feIndex == 0).length =
          (pre.filter fun c => c.owned && c.feIndex == 0).length := by
        simp [List.filter_append, ho']
      rw [e1, e2] at ih'
      simp only [packStart, ho', Bool.false_eq_true, if_false, ih', Option.map_some, List.map_cons, packedStart]

/-- The orientation stored for a cell that is activated by boxes. -/
def orient (nDofs : ℕ) (co si : ℝ) (d : CellData) : CellData := (d.set nDofs (co : WithTop ℝ)).set (nDofs + 1) (si : WithTop ℝ)

theorem orient_orient (nDofs : ℕ) (co si co' si' : ℝ) (d : CellData) :
    orient nDofs co si (orient nDofs co' si' d) = orient nDofs co si d := by
  unfold orient
  rw [List.set_comm _ _ (by omega : nDofs + 1 ≠ nDofs), List.set_set, List.set_set]

theorem zipWith_map_self {A B : Type*} (f : A → B → B) (h : A → B) (l : List A) :
    List.zipWith f l (l.map h) = l.map fun c => f c (h c) := by
  induction l with
  | nil => rfl
  | cons c cs ih => simp [ih]

theorem activateBox (nDofs : ℕ) (co si : ℝ) (cells : List Cell) (f : Cell → CellData) (es : List ℕ) :
    es.foldl (fun d k => activateCell nDofs co si k cells d) (cells.map f) =
      cells.map fun c => if c.feIndex ≠ 0 ∧ c.id ∈ es then orient nDofs co si (f c) else f c := by
  induction es generalizing f with
  | nil => simp
  | cons k es ih =>
    rw [List.foldl_cons]
    unfold activateCell at ih ⊢
    rw [zipWith_map_self, ih]
    refine List.map_congr_left fun c _ => ?_
    change (if c.feIndex ≠ 0 ∧ c.id ∈ es then
      orient nDofs co si (if c.id = k ∧ c.feIndex ≠ 0 then orient nDofs co si (f c) else f c)
      else if c.id = k ∧ c.feIndex ≠ 0 then orient nDofs co si (f c) else f c) = _
    by_cases h0 : c.feIndex = 0
    · simp [h0]
    · by_cases h1 : c.id = k
      · by_cases h2 : c.id ∈ es
        · simp only [h0, h1, ne_eq, not_false_eq_true, and_self, and_true, if_true, List.mem_cons, true_or, orient_orient]
          split_ifs <;> rfl
        · simp only [ne_eq, h0, not_false_eq_true, h2, and_false, h1, and_self, if_true, List.mem_cons, true_or]
          rw [h1] at h2
          simp [h2]
      · by_cases h2 : c.id ∈ es
        · simp [h0, h1, h2]
        · simp [h0, h1, h2]

/-- The data of a cell after the activation loop over the boxes `is`. -/
def afterBoxes (nDofs : ℕ) (elements : List (List ℕ)) (cos sin : List ℝ) (is : List ℕ) (c : Cell) (d : CellData) : CellData :=
  if c.feIndex ≠ 0 then
    match (is.filter fun i => (elements[i]?.getD []).contains c.id).getLast? with
    | some i => orient nDofs (cos.getD i 0) (sin.getD i 0) d
    | none => d
  else d

theorem activateLoop_eq (nDofs : ℕ) (elements : List (List ℕ)) (cos sin : List ℝ) (cells : List Cell) (is : List ℕ)
    (hi : ∀ i ∈ is, i < elements.length ∧ i < cos.length ∧ i < sin.length) (f : Cell → CellData) :
    activateLoop nDofs elements cos sin cells is (cells.map f) =
      some (cells.map fun c => afterBoxes nDofs elements cos sin is c (f c)) := by
  induction is generalizing f with
  | nil => simp [activateLoop, afterBoxes]
  | cons i is ih =>
    obtain ⟨h1, h2, h3⟩ := hi i (by simp)
    rw [activateLoop, List.getElem?_eq_getElem h1, List.getElem?_eq_getElem h2, List.getElem?_eq_getElem h3]
    simp only
    rw [activateBox, ih (fun j hj => hi j (by simp [hj]))]
    congr 1
    refine List.map_congr_left fun c _ => ?_
    unfold afterBoxes
    by_cases h0 : c.feIndex = 0
    · simp [h0]
    · simp only [ne_eq, h0, not_false_eq_true, if_true, true_and]
      by_cases hm : c.id ∈ elements[i]
      · have : (i :: is).filter (fun i => (elements[i]?.getD []).contains c.id) =
            i :: is.filter (fun i => (elements[i]?.getD []).contains c.id) := by
          rw [List.filter_cons, if_pos]
          rw [List.getElem?_eq_getElem h1]; simpa using hm
        rw [this]
        cases hl : (is.filter fun i => (elements[i]?.getD []).contains c.id).getLast? with
        | none =>
          rw [List.getLast?_eq_none_iff] at hl
          rw [hl]
          simp [hm, List.getD_eq_getElem?_getD, h2, h3]
        | some j =>
          rw [List.getLast?_cons, hl]
          simp [hm, orient_orient]
      · have : (i :: is).filter (fun i => (elements[i]?.getD []).contains c.id) =
            is.filter (fun i => (elements[i]?.getD []).contains c.id) := by
          rw [List.filter_cons, if_neg]
          rw [List.getElem?_eq_getElem h1]; simpa using hm
        rw [this]
        simp only [hm, if_false]

theorem newFeIndex_zero (elements : List (List ℕ)) (s e : ℕ) (c : Cell) :
    newFeIndex elements s e c = 0 ↔ c.feIndex = 0 ∨ Listed elements s e c.id := by
  unfold newFeIndex Listed
  have key : (∃ i ∈ List.range' s (e - s), ∃ es, elements[i]? = some es ∧ c.id ∈ es) ↔
      ∃ i es, s ≤ i ∧ i < e ∧ elements[i]? = some es ∧ c.id ∈ es := by
    constructor
    · rintro ⟨i, hi, es, h1, h2⟩
      rw [List.mem_range'_1] at hi
      exact ⟨i, es, by omega, by omega, h1, h2⟩
    · rintro ⟨i, es, h1, h2, h3, h4⟩
      exact ⟨i, by rw [List.mem_range'_1]; omega, es, h3, h4⟩
  split_ifs with h
  · exact ⟨fun _ => Or.inr (key.1 h.2), fun _ => rfl⟩
  · constructor
    · exact Or.inl
    · rintro (h' | h')
      · exact h'
      · by_contra h0
        exact h ⟨h0, key.2 h'⟩

theorem lastBox_none (elements : List (List ℕ)) (s e k : ℕ) : lastBox elements s e k = none ↔ ¬ Listed elements s e k := by
  unfold lastBox Listed
  rw [List.getLast?_eq_none_iff, List.filter_eq_nil_iff]
  constructor
  · rintro h ⟨i, es, h1, h2, h3, h4⟩
    have := h i (by rw [List.mem_range'_1]; omega)
    rw [h3] at this
    simp [h4] at this
  · intro h i hi hc
    rw [List.mem_range'_1] at hi
    cases h3 : elements[i]? with
    | none => simp [h3] at hc
    | some es =>
      refine h ⟨i, es, by omega, by omega, h3, ?_⟩
      simpa [h3] using hc

open Classical in
theorem writeDofs_other (ownedDof : ℕ → Prop) (sol : ℕ → WithTop ℝ) (ps : List (ℕ × WithTop ℝ)) (d : ℕ)
    (h : ∀ p ∈ ps, p.1 ≠ d) : writeDofs ownedDof sol ps d = sol d := by
  induction ps generalizing sol with
  | nil => rfl
  | cons p ps ih =>
    have : writeDofs ownedDof sol (p :: ps) =
        writeDofs ownedDof (if ownedDof p.1 then Function.update sol p.1 p.2 else sol) ps := rfl
    rw [this, ih _ fun q hq => h q (by simp [hq])]
    split_ifs
    · rw [Function.update_of_ne (h p (by simp)).symm]
    · rfl

open Classical in
/-- After a sequence of writes an owned entry has the common value of the writes to it. -/
theorem writeDofs_value (ownedDof : ℕ → Prop) (sol : ℕ → WithTop ℝ) (ps : List (ℕ × WithTop ℝ)) (d : ℕ) (v : WithTop ℝ)
    (ho : ownedDof d) (h : ∀ p ∈ ps, p.1 = d → p.2 = v) (hex : sol d = v ∨ ∃ p ∈ ps, p.1 = d) :
    writeDofs ownedDof sol ps d = v := by
  induction ps generalizing sol with
  | nil =>
    rcases hex with h' | ⟨p, hp, _⟩
    · exact h'
    · cases hp
  | cons p ps ih =>
    have : writeDofs ownedDof sol (p :: ps) =
        writeDofs ownedDof (if ownedDof p.1 then Function.update sol p.1 p.2 else sol) ps := rfl
    rw [this]
    refine ih _ (fun q hq => h q (by simp [hq])) ?_
    by_cases hp : p.1 = d
    · left
      rw [hp, if_pos ho, Function.update_self]
      exact h p (by simp) hp
    · rcases hex with h' | ⟨q, hq, hqd⟩
      · left
        split_ifs
        · rw [Function.update_of_ne (Ne.symm hp), h']
        · exact h'
      · right
        rcases List.mem_cons.1 hq with rfl | hq
        · exact absurd hqd hp
        · exact ⟨q, hq, hqd⟩

open Classical in
/-- All writes of the restoring loop. -/
noncomputable def writes (nDofs : ℕ) (dofs : ℕ → List ℕ) : List Cell → List CellData → List (ℕ × WithTop ℝ)
  | c :: cs, d :: ds =>
    (if c.owned = true ∧ d[0]? ≠ some ⊤ then (dofs c.id).zip (d.take nDofs) else []) ++ writes nDofs dofs cs ds
  | _, _ => []

theorem restore_eq (nDofs : ℕ) (dofs : ℕ → List ℕ) (ownedDof : ℕ → Prop) (cells : List Cell) (data : List CellData)
    (sol : ℕ → WithTop ℝ) :
    restore nDofs dofs ownedDof cells data sol = writeDofs ownedDof sol (writes nDofs dofs cells data) := by
  induction cells generalizing data sol with
  | nil => cases data <;> rfl
  | cons c cs ih =>
    cases data with
    | nil => rfl
    | cons d ds =>
      rw [restore, ih, writes]
      by_cases h : c.owned = true ∧ d[0]? ≠ some ⊤
      · rw [if_pos h, if_pos h]
        unfold writeDofs
        rw [List.foldl_append]
      · rw [if_neg h, if_neg h, List.nil_append]

/-! ## The whole operation over all ranks -/

/-- The material data of a cell after material has been added, as the code leaves them. -/
def added (g : ℕ → Material) (elements : List (List ℕ)) (cos sin : List ℝ) (s e : ℕ) (c : Cell) : Material :=
  if c.feIndex = 0 then g c.id
  else match lastBox elements s e c.id with
    | none => g c.id
    | some i => { g c.id with cos := cos.getD i 0, sin := sin.getD i 0, melted := true }

theorem mapM_take_drop (pre : CellData) (xs : List ℝ) (m n : ℕ) (hm : pre.length = m) (hn : xs.length = n) :
    (((pre ++ xs.map fun x : ℝ => WithTop.some x).drop m).take n).mapM finite? = some xs := by
  rw [List.drop_append_of_le_length hm.ge, List.drop_of_length_le hm.le, List.nil_append,
    List.take_of_length_le (by simp [hn])]
  exact mapM_finite xs

theorem unpackEnd_holds (nStates nDofs : ℕ) (g : ℕ → Material) (u : ℕ → ℝ) (dofs : ℕ → List ℕ) (elements : List (List ℕ))
    (cos sin : List ℝ) (s e : ℕ) (oldCell : ℕ → Cell) (cells : List Cell) (data : List CellData)
    (ht : Transferred (fun i => afterBoxes nDofs elements cos sin (List.range' s (e - s)) (oldCell i)
      (packedStart nStates nDofs g u dofs (oldCell i))) id cells data)
    (hid : ∀ c ∈ cells, c.owned = true → (oldCell c.id).id = c.id ∧ (oldCell c.id).owned = true ∧
      c.feIndex = newFeIndex elements s e (oldCell c.id) ∧ (g c.id).ratios.length = nStates ∧
      ((oldCell c.id).feIndex = 0 → (dofs c.id).length = nDofs)) :
    ∃ a, unpackEnd nStates nDofs cells data = some a ∧
      Holds nStates cells a (fun i => added g elements cos sin s e (oldCell i)) := by
  induction ht with
  | nil => exact ⟨⟨[], [], [], []⟩, rfl, by simp [Holds]⟩
  | @cons c d cs ds hcd hrest ih =>
    obtain ⟨r, hr, h1, h2, h3, h4, h5⟩ := ih (fun x hx => hid x (by simp [hx]))
    by_cases ho : c.owned = true
    swap
    · have ho' : c.owned = false := by simpa using ho
      refine ⟨r, by simp only [unpackEnd, hr, ho', Bool.false_eq_true, if_false], ?_⟩
      refine ⟨by simp [ho', h1], by simp [ho', h2], by simp [ho', h3], by simp [ho', h4], ?_⟩
      intro x hx hxo
      rcases List.mem_cons.1 hx with rfl | hx
      · exact absurd hxo ho
      · exact h5 x hx hxo
    obtain ⟨hi, howned, hfe, hlen, hdl⟩ := hid c (by simp) ho
    have hd := hcd ho
    simp only [id] at hd
    set g' := fun i => added g elements cos sin s e (oldCell i) with hg'
    have hlen' : (g' c.id).ratios.length = nStates := by
      simp only [hg', added]
      split_ifs
      · rw [hi]; exact hlen
      · split
        · rw [hi]; exact hlen
        · rw [hi]; exact hlen
    -- what was transferred, described by its parts
    have hparts : ((d.drop (nDofs + 3)).take nStates).mapM finite? = some (g' c.id).ratios ∧
        (c.feIndex = 0 → d[nDofs]? = some (((g' c.id).cos : ℝ) : WithTop ℝ) ∧
          d[nDofs + 1]? = some (((g' c.id).sin : ℝ) : WithTop ℝ) ∧
          ∃ m, d[nDofs + 2]? = some m ∧
            (open Classical in decide (((0.5 : ℝ) : WithTop ℝ) < m)) = (g' c.id).melted) := by
      by_cases hf : (oldCell c.id).feIndex = 0
      · have hfeq : g' c.id = g c.id := by simp only [hg', added, hf, if_true, hi]
        rw [hfeq]
        simp only [afterBoxes, hf, ne_eq, not_true_eq_false, if_false, packedStart, howned, if_true, hi] at hd
        have hdl' := hdl hf
        subst hd
        refine ⟨?_, fun _ => ⟨?_, ?_, ?_⟩⟩
        · rw [← List.append_assoc]
          exact mapM_take_drop _ _ _ _ (by simp [hdl']) hlen
        · rw [List.getElem?_append_right (by simp [hdl'])]; simp [hdl']
        · rw [List.getElem?_append_right (by simp [hdl'])]; simp [hdl']
        · refine ⟨_, ?_, melted_roundtrip _⟩
          rw [List.getElem?_append_right (by simp [hdl'])]; simp [hdl']
      · have hp : packedStart nStates nDofs g u dofs (oldCell c.id) =
            List.replicate nDofs ⊤ ++ ([⊤, ⊤, ⊤] ++ (g c.id).ratios.map fun x : ℝ => WithTop.some x) := by
          simp only [packedStart, howned, if_true, hf, if_false, hi]
        rw [hp] at hd
        simp only [afterBoxes, ne_eq, hf, not_false_eq_true, if_true] at hd
        cases hb : lastBox elements s e c.id with
        | none =>
          have hfeq : g' c.id = g c.id := by simp only [hg', added, hf, if_false, hi, hb]
          rw [hfeq]
          have hb' := hb
          unfold lastBox at hb'
          rw [hi, hb'] at hd
          subst hd
          refine ⟨?_, fun h0 => ?_⟩
          · rw [← List.append_assoc]
            exact mapM_take_drop _ _ _ _ (by simp) hlen
          · rw [hfe] at h0
            rcases (newFeIndex_zero _ _ _ _).1 h0 with h | h
            · exact absurd h hf
            · rw [hi] at h
              exact absurd h ((lastBox_none _ _ _ _).1 hb)
        | some i =>
          have hfeq : g' c.id = { g c.id with cos := cos.getD i 0, sin := sin.getD i 0, melted := true } := by
            simp only [hg', added, hf, if_false, hi, hb]
          rw [hfeq]
          unfold lastBox at hb
          rw [hi, hb] at hd
          have hd' : d = List.replicate nDofs ⊤ ++ ([((cos.getD i 0 : ℝ) : WithTop ℝ), ((sin.getD i 0 : ℝ) : WithTop ℝ), ⊤] ++
              (g c.id).ratios.map fun x : ℝ => WithTop.some x) := by
            rw [hd]
            simp only [orient]
            rw [List.set_append_right _ _ (by simp), List.set_append_right _ _ (by simp)]
            simp
          subst hd'
          refine ⟨?_, fun _ => ⟨?_, ?_, ?_⟩⟩
          · rw [← List.append_assoc]
            exact mapM_take_drop _ _ _ _ (by simp) hlen
          · rw [List.getElem?_append_right (by simp)]; simp
          · rw [List.getElem?_append_right (by simp)]; simp
          · refine ⟨⊤, ?_, ?_⟩
            · rw [List.getElem?_append_right (by simp)]; simp
            · simp only [decide_eq_true_eq]; exact WithTop.coe_lt_top _
    obtain ⟨p1, p2⟩ := hparts
    by_cases hf : c.feIndex = 0
    · obtain ⟨q1, q2, m, q3, q4⟩ := p2 hf
      refine ⟨⟨(g' c.id).ratios :: r.state, (g' c.id).cos :: r.cos, (g' c.id).sin :: r.sin, (g' c.id).melted :: r.melted⟩,
        ?_, ?_⟩
      · simp only [unpackEnd, hr, ho, if_true, p1, hf, q1, q2, q3, finite?, q4]
      · refine ⟨?_, ?_, ?_, ?_, ?_⟩
        · simp [ho, h1]
        · simp [ho, hf, h2]
        · simp [ho, hf, h3]
        · simp [ho, hf, h4]
        · intro x hx hxo
          rcases List.mem_cons.1 hx with rfl | hx
          · exact hlen'
          · exact h5 x hx hxo
    · refine ⟨{ r with state := (g' c.id).ratios :: r.state }, ?_, ?_⟩
      · simp only [unpackEnd, hr, ho, if_true, p1, hf, if_false]
      · refine ⟨?_, ?_, ?_, ?_, ?_⟩
        · simp [ho, h1]
        · simp [hf, h2]
        · simp [hf, h3]
        · simp [hf, h4]
        · intro x hx hxo
          rcases List.mem_cons.1 hx with rfl | hx
          · exact hlen'
          · exact h5 x hx hxo

end Verif.Thermal
