import Verif.Thermal.AddMaterial
import Mathlib.Data.List.Forall2

/-!
# C41: properties of adding material
-/

namespace Verif.Thermal

open Verif.Refinement

/-- Contract of `CellDataTransfer` when no cell is refined (lines 718-723, 762-763): `got` holds, for every locally owned cell
of a rank after the operation, the vector that the rank owning the cell before had sent for it; the partition may have
changed.  Entries of other cells are arbitrary. -/
def Shipped (oldCells : ℕ → List Cell) (sent : ℕ → List CellData) (newCells : List Cell) (got : List CellData) : Prop :=
  List.Forall₂ (fun c d => c.owned = true → ∃ (r k : ℕ) (oc : Cell), (oldCells r)[k]? = some oc ∧ oc.owned = true ∧
    oc.id = c.id ∧ (sent r)[k]? = some d) newCells got

/-- Before: the cells and arrays of every rank hold the field `g`; `fe k` is the index of cell `k` (0: holds material); `u` is
the temperature and `dofs k` the degrees of freedom of a cell with material. -/
structure Before (nStates nDofs : ℕ) where
  g : ℕ → Material
  fe : ℕ → ℕ
  u : ℕ → ℝ
  dofs : ℕ → List ℕ
  cells : ℕ → List Cell
  arrays : ℕ → Arrays
  holds : ∀ r, Holds nStates (cells r) (arrays r) g
  feIndex : ∀ r, ∀ c ∈ cells r, c.owned = true → c.feIndex = fe c.id
  dofsLength : ∀ r, ∀ c ∈ cells r, c.owned = true → fe c.id = 0 → (dofs c.id).length = nDofs

/-- The boxes: the cells listed for each box, and what each rank is given: its own cells of each list. -/
structure Boxes where
  elements : List (List ℕ)
  cos : List ℝ
  sin : List ℝ
  ofRank : ℕ → List (List ℕ)
  cosLength : cos.length = elements.length
  sinLength : sin.length = elements.length
  rankLength : ∀ r, (ofRank r).length = elements.length

/-- Every rank's lists contain exactly its own cells of the global lists. -/
def Boxes.Agree {nStates nDofs : ℕ} (B : Boxes) (b : Before nStates nDofs) : Prop :=
  ∀ r, ∀ c ∈ b.cells r, c.owned = true → ∀ i : ℕ,
    (c.id ∈ ((B.ofRank r)[i]?.getD []) ↔ c.id ∈ (B.elements[i]?.getD []))

theorem afterBoxes_congr (nDofs : ℕ) (e1 e2 : List (List ℕ)) (cos sin : List ℝ) (is : List ℕ) (c : Cell) (d : CellData)
    (h : ∀ i : ℕ, (c.id ∈ (e1[i]?.getD []) ↔ c.id ∈ (e2[i]?.getD []))) :
    afterBoxes nDofs e1 cos sin is c d = afterBoxes nDofs e2 cos sin is c d := by
  unfold afterBoxes
  have : (fun i : ℕ => (e1[i]?.getD []).contains c.id) = fun i : ℕ => (e2[i]?.getD []).contains c.id := by
    funext i
    have := h i
    rw [Bool.eq_iff_iff]
    simpa using this
  rw [this]

/-- What a rank sends for one of its cells. -/
def sentFor {nStates nDofs : ℕ} (b : Before nStates nDofs) (B : Boxes) (s e k : ℕ) : CellData :=
  afterBoxes nDofs B.elements B.cos B.sin (List.range' s (e - s)) ⟨k, true, b.fe k⟩
    (packedStart nStates nDofs b.g b.u b.dofs ⟨k, true, b.fe k⟩)

theorem addStart_eq {nStates nDofs : ℕ} (b : Before nStates nDofs) (B : Boxes) (s e : ℕ) (he : e ≤ B.elements.length) (r : ℕ) :
    addStart nStates nDofs (b.arrays r) b.u b.dofs (b.cells r) (B.ofRank r) B.cos B.sin s e =
      some ((b.cells r).map fun c => afterBoxes nDofs (B.ofRank r) B.cos B.sin (List.range' s (e - s)) c
        (packedStart nStates nDofs b.g b.u b.dofs c)) := by
  obtain ⟨h1, h2, h3, h4, h5⟩ := b.holds r
  have := packStart_aux nStates nDofs b.g b.u b.dofs (b.arrays r) [] (b.cells r) h1 h2 h3 h4 h5
  simp only [List.filter_nil, List.length_nil] at this
  unfold addStart
  rw [this]
  refine activateLoop_eq _ _ _ _ _ _ ?_ _
  intro i hi
  rw [List.mem_range'_1] at hi
  rw [B.rankLength, B.cosLength, B.sinLength]
  omega

theorem lastBox_some (elements : List (List ℕ)) (s e k i : ℕ) (h : lastBox elements s e k = some i) :
    s ≤ i ∧ i < e ∧ k ∈ elements[i]?.getD [] ∧ ∀ j, i < j → j < e → k ∉ elements[j]?.getD [] := by
  unfold lastBox at h
  have hm := List.mem_of_getLast? h
  rw [List.mem_filter, List.mem_range'_1] at hm
  refine ⟨by omega, by omega, by simpa using hm.2, fun j hj hje hk => ?_⟩
  have hsorted : ((List.range' s (e - s)).filter fun i => (elements[i]?.getD []).contains k).Pairwise (· < ·) :=
    List.Pairwise.filter _ (List.pairwise_lt_range')
  obtain ⟨l, hl⟩ : ∃ l, ((List.range' s (e - s)).filter fun i => (elements[i]?.getD []).contains k) = l ++ [i] := by
    rw [List.getLast?_eq_some_iff] at h
    obtain ⟨l, hl⟩ := h
    exact ⟨l, hl⟩
  have hjm : j ∈ ((List.range' s (e - s)).filter fun i => (elements[i]?.getD []).contains k) := by
    rw [List.mem_filter, List.mem_range'_1]
    exact ⟨by omega, by simpa using hk⟩
  rw [hl] at hjm hsorted
  rw [List.mem_append] at hjm
  rcases hjm with hjm | hjm
  · have := (List.pairwise_append.1 hsorted).2.2 j hjm i (by simp)
    omega
  · simp at hjm
    omega

/-- The writes of the restoring loop for a rank. -/
theorem mem_writes {nStates nDofs : ℕ} (hn : 0 < nDofs) (b : Before nStates nDofs) (B : Boxes) (s e : ℕ) (newDofs : ℕ → List ℕ)
    (cells : List Cell) (data : List CellData)
    (ht : Transferred (sentFor b B s e) id cells data)
    (hl : ∀ c ∈ cells, c.owned = true → b.fe c.id = 0 → (b.dofs c.id).length = nDofs) (p : ℕ × WithTop ℝ) :
    p ∈ writes nDofs newDofs cells data ↔
      ∃ c ∈ cells, c.owned = true ∧ b.fe c.id = 0 ∧ ∃ i od : ℕ, (newDofs c.id)[i]? = some p.1 ∧
        (b.dofs c.id)[i]? = some od ∧ p.2 = WithTop.some (b.u od) := by
  induction ht with
  | nil => simp [writes]
  | @cons c d cs ds hcd hrest ih =>
    have ih' := ih (fun x hx => hl x (by simp [hx]))
    rw [writes, List.mem_append, ih']
    have hhead : p ∈ (open Classical in
        if c.owned = true ∧ d[0]? ≠ some ⊤ then (newDofs c.id).zip (d.take nDofs) else []) ↔
        (c.owned = true ∧ b.fe c.id = 0 ∧ ∃ i od : ℕ, (newDofs c.id)[i]? = some p.1 ∧
        (b.dofs c.id)[i]? = some od ∧ p.2 = WithTop.some (b.u od)) := by
      by_cases ho : c.owned = true
      swap
      · simp [ho]
      have hd := hcd ho
      simp only [id, sentFor, packedStart, if_true] at hd
      by_cases hf : b.fe c.id = 0
      · simp only [afterBoxes, hf, ne_eq, not_true_eq_false, if_false, if_true] at hd
        have hlen := hl c (by simp) ho hf
        have h0 : d[0]? ≠ some ⊤ := by
          rw [hd, List.getElem?_append_left (by simp; omega)]
          rw [List.getElem?_map]
          intro h
          rw [Option.map_eq_some_iff] at h
          obtain ⟨a, _, ha⟩ := h
          cases ha
        have htake : d.take nDofs = (b.dofs c.id).map fun x : ℕ => WithTop.some (b.u x) := by
          rw [hd, List.take_append_of_le_length (by simp [hlen]), List.take_of_length_le (by simp [hlen])]
        rw [if_pos ⟨ho, h0⟩, htake]
        simp only [ho, hf, true_and]
        constructor
        · intro hp
          obtain ⟨i, hi⟩ := List.getElem?_of_mem hp
          rw [List.getElem?_zip_eq_some] at hi
          obtain ⟨h1, h2⟩ := hi
          rw [List.getElem?_map, Option.map_eq_some_iff] at h2
          obtain ⟨od, h2, h3⟩ := h2
          exact ⟨i, od, h1, h2, h3.symm⟩
        · rintro ⟨i, od, h1, h2, h3⟩
          refine List.mem_of_getElem? (i := i) ?_
          rw [List.getElem?_zip_eq_some]
          refine ⟨h1, ?_⟩
          rw [List.getElem?_map, h2, h3]
          rfl
      · have h0 : d[0]? = some ⊤ := by
          simp only [hf, if_false] at hd
          have hz : (List.replicate nDofs (⊤ : WithTop ℝ) ++ ([⊤, ⊤, ⊤] ++ (b.g c.id).ratios.map fun x : ℝ => WithTop.some x))[0]? =
              some ⊤ := by
            rw [List.getElem?_append_left (by simpa using hn)]
            simp [hn]
          rw [hd]
          unfold afterBoxes
          rw [if_pos (show b.fe c.id ≠ 0 from hf)]
          split
          · unfold orient
            rw [List.getElem?_set_ne (by omega), List.getElem?_set_ne (by omega)]
            exact hz
          · exact hz
        simp [h0, hf]
    rw [hhead]
    simp only [List.exists_mem_cons_iff]

/-- **C41**, all that the code guarantees.  For every initial distribution of cells over ranks, every range `[s, e)` of existing
boxes and every distribution after it: no read is out of range, and on every rank
* the state ratios of all cells are kept, cells with material keep orientation and melt history,
* cells without material that are listed for a box of the range get the orientation of the last such box,
* an entry of the temperature vector owned by the rank is the old temperature if one of the rank's own cells held material and
  has that degree of freedom, and the new-material temperature otherwise.
`newDofs` is the numbering after the operation; `hcons`: cells with material that share a degree of freedom had the same
temperature there (continuity).  Missing for the full property: new cells are marked as melted
(`C41_melted_refuted`), and temperatures are lost at degrees of freedom whose owner has no cell that held material
(`C41_parallel_temperature_refuted`; on one rank there are none, `C41_serial`). -/
theorem C41_add_material_partial {nStates nDofs : ℕ} (hn : 0 < nDofs) (b : Before nStates nDofs) (B : Boxes) (hB : B.Agree b)
    (s e : ℕ) (he : e ≤ B.elements.length) :
    ∃ sent : ℕ → List CellData,
      (∀ r, addStart nStates nDofs (b.arrays r) b.u b.dofs (b.cells r) (B.ofRank r) B.cos B.sin s e = some (sent r)) ∧
      ∀ (newCells : List Cell) (got : List CellData) (_ : Shipped b.cells sent newCells got)
        (_ : ∀ c ∈ newCells, c.owned = true → (c.feIndex = 0 ↔ b.fe c.id = 0 ∨ Listed B.elements s e c.id) ∧
          (c.feIndex ≠ 0 → c.feIndex = b.fe c.id))
        (newDofs : ℕ → List ℕ) (ownedDof : ℕ → Prop) (newTemperature : ℝ)
        (_ : ∀ k k' i j d od od' : ℕ, b.fe k = 0 → b.fe k' = 0 → (newDofs k)[i]? = some d → (newDofs k')[j]? = some d →
          (b.dofs k)[i]? = some od → (b.dofs k')[j]? = some od' → b.u od = b.u od')
        (_ : ∀ k, b.fe k = 0 → (newDofs k).length = nDofs),
        ∃ (a : Arrays) (sol : ℕ → WithTop ℝ) (g' : ℕ → Material),
          addEnd nStates nDofs newDofs ownedDof newTemperature newCells got = some (a, sol) ∧
          Holds nStates newCells a g' ∧
          (∀ k, (g' k).ratios = (b.g k).ratios) ∧
          (∀ k, b.fe k = 0 → g' k = b.g k) ∧
          (∀ k, b.fe k ≠ 0 → Listed B.elements s e k → ∃ i, s ≤ i ∧ i < e ∧ k ∈ B.elements[i]?.getD [] ∧
            (∀ j, i < j → j < e → k ∉ B.elements[j]?.getD []) ∧
            B.cos[i]? = some (g' k).cos ∧ B.sin[i]? = some (g' k).sin ∧ (g' k).melted = true) ∧
          (∀ d, ownedDof d → ∀ c ∈ newCells, c.owned = true → b.fe c.id = 0 → ∀ i : ℕ, (newDofs c.id)[i]? = some d →
            ∃ od, (b.dofs c.id)[i]? = some od ∧ sol d = WithTop.some (b.u od)) ∧
          (∀ d, ownedDof d → (∀ c ∈ newCells, c.owned = true → b.fe c.id = 0 → d ∉ newDofs c.id) →
            sol d = WithTop.some newTemperature) := by
  refine ⟨_, fun r => addStart_eq b B s e he r, ?_⟩
  intro newCells got hship hfe newDofs ownedDof newT hcons hnd
  -- the transferred data in terms of `sentFor`
  have hinfo : ∀ c ∈ newCells, c.owned = true → ∃ (r : ℕ) (oc : Cell), oc ∈ b.cells r ∧ oc.owned = true ∧ oc.id = c.id := by
    intro c hc ho
    obtain ⟨i, hi⟩ := List.getElem?_of_mem hc
    have hlt := (List.getElem?_eq_some_iff.1 hi).1
    have hlen := hship.length_eq
    have := (List.forall₂_iff_get.1 hship).2 i hlt (by omega)
    rw [List.get_eq_getElem] at this
    have hce : newCells[i] = c := (List.getElem?_eq_some_iff.1 hi).2
    rw [hce] at this
    obtain ⟨r, k, oc, h1, h2, h3, _⟩ := this ho
    exact ⟨r, oc, List.mem_of_getElem? h1, h2, h3⟩
  have ht : Transferred (sentFor b B s e) id newCells got := by
    unfold Transferred
    refine List.Forall₂.imp ?_ hship
    intro c d hcd ho
    obtain ⟨r, k, oc, h1, h2, h3, h4⟩ := hcd ho
    rw [List.getElem?_map, h1] at h4
    simp only [Option.map_some, Option.some.injEq] at h4
    have hmem := List.mem_of_getElem? h1
    have hoc : oc = ⟨c.id, true, b.fe c.id⟩ := by
      have := b.feIndex r oc hmem h2
      cases oc
      simp only [Cell.mk.injEq] at *
      exact ⟨h3, h2, by rw [this, h3]⟩
    rw [← h4, afterBoxes_congr nDofs _ B.elements _ _ _ _ _ (hB r oc hmem h2), hoc]
    rfl
  have hlenr : ∀ c ∈ newCells, c.owned = true → (b.g c.id).ratios.length = nStates := by
    intro c hc ho
    obtain ⟨r, oc, h1, h2, h3⟩ := hinfo c hc ho
    rw [← h3]
    exact (b.holds r).2.2.2.2 oc h1 h2
  have hlend : ∀ c ∈ newCells, c.owned = true → b.fe c.id = 0 → (b.dofs c.id).length = nDofs := by
    intro c hc ho hf
    obtain ⟨r, oc, h1, h2, h3⟩ := hinfo c hc ho
    have := b.dofsLength r oc h1 h2
    rw [h3] at this
    exact this hf
  obtain ⟨a, ha, hholds⟩ := unpackEnd_holds nStates nDofs b.g b.u b.dofs B.elements B.cos B.sin s e
    (fun k => ⟨k, true, b.fe k⟩) newCells got ht (by
      intro c hc ho
      refine ⟨rfl, rfl, ?_, hlenr c hc ho, hlend c hc ho⟩
      obtain ⟨f1, f2⟩ := hfe c hc ho
      by_cases h0 : c.feIndex = 0
      · rw [h0]
        exact ((newFeIndex_zero _ _ _ _).2 (f1.1 h0)).symm
      · have : ¬ newFeIndex B.elements s e ⟨c.id, true, b.fe c.id⟩ = 0 := by
          rw [newFeIndex_zero]
          exact fun h => h0 (f1.2 h)
        rw [f2 h0]
        unfold newFeIndex at this ⊢
        split_ifs with h
        · rw [if_pos h] at this; exact absurd rfl this
        · rfl)
  refine ⟨a, restore nDofs newDofs ownedDof newCells got fun _ => (newT : WithTop ℝ),
    fun k => added b.g B.elements B.cos B.sin s e ⟨k, true, b.fe k⟩, ?_, hholds, ?_, ?_, ?_, ?_, ?_⟩
  · simp only [addEnd, ha, Option.map_some]
  · intro k
    simp only [added]
    split_ifs
    · rfl
    · split <;> rfl
  · intro k hk
    simp only [added, hk, if_true]
  · intro k hk hlisted
    cases hb : lastBox B.elements s e k with
    | none => exact absurd hlisted ((lastBox_none _ _ _ _).1 hb)
    | some i =>
      obtain ⟨h1, h2, h3, h4⟩ := lastBox_some _ _ _ _ _ hb
      have hic : i < B.cos.length := by rw [B.cosLength]; omega
      have his : i < B.sin.length := by rw [B.sinLength]; omega
      refine ⟨i, h1, h2, h3, h4, ?_, ?_, ?_⟩ <;> simp only [added, hk, if_false, hb]
      · rw [List.getElem?_eq_getElem hic]; simp [List.getD_eq_getElem?_getD, hic]
      · rw [List.getElem?_eq_getElem his]; simp [List.getD_eq_getElem?_getD, his]
  · intro d hd c hc ho hf i hi
    have hil : i < (b.dofs c.id).length := by
      rw [hlend c hc ho hf, ← hnd c.id hf]
      exact (List.getElem?_eq_some_iff.1 hi).1
    refine ⟨(b.dofs c.id)[i], List.getElem?_eq_getElem hil, ?_⟩
    rw [restore_eq]
    refine writeDofs_value ownedDof _ _ d _ hd ?_ (Or.inr ⟨(d, WithTop.some (b.u (b.dofs c.id)[i])), ?_, rfl⟩)
    · intro p hp hpd
      obtain ⟨c', hc', ho', hf', j, od, g1, g2, g3⟩ := (mem_writes hn b B s e newDofs newCells got ht hlend p).1 hp
      rw [g3, hcons c'.id c.id j i d od _ hf' hf (hpd ▸ g1) hi g2 (List.getElem?_eq_getElem hil)]
    · exact (mem_writes hn b B s e newDofs newCells got ht hlend _).2
        ⟨c, hc, ho, hf, i, _, hi, List.getElem?_eq_getElem hil, rfl⟩
  · intro d hd hno
    rw [restore_eq, writeDofs_other]
    intro p hp hpd
    obtain ⟨c', hc', ho', hf', j, od, g1, g2, g3⟩ := (mem_writes hn b B s e newDofs newCells got ht hlend p).1 hp
    exact hno c' hc' ho' hf' (hpd ▸ List.mem_of_getElem? g1)

/-- **C41** for a run on one rank, temperatures: every cell that held material keeps its nodal temperatures, and every degree of
freedom that no such cell has gets the new-material temperature. -/
theorem C41_serial {nStates nDofs : ℕ} (hn : 0 < nDofs) (b : Before nStates nDofs) (B : Boxes) (hB : B.Agree b)
    (s e : ℕ) (he : e ≤ B.elements.length)
    (hall : ∀ c ∈ b.cells 0, c.owned = true) (hids : ((b.cells 0).map (·.id)).Nodup)
    (hone : ∀ r, r ≠ 0 → b.cells r = [])
    (newDofs : ℕ → List ℕ) (newTemperature : ℝ)
    (hcons : ∀ k k' i j d od od' : ℕ, b.fe k = 0 → b.fe k' = 0 → (newDofs k)[i]? = some d → (newDofs k')[j]? = some d →
      (b.dofs k)[i]? = some od → (b.dofs k')[j]? = some od' → b.u od = b.u od')
    (hnd : ∀ k, b.fe k = 0 → (newDofs k).length = nDofs) :
    ∃ (sent : List CellData) (a : Arrays) (sol : ℕ → WithTop ℝ),
      addStart nStates nDofs (b.arrays 0) b.u b.dofs (b.cells 0) (B.ofRank 0) B.cos B.sin s e = some sent ∧
      addEnd nStates nDofs newDofs (fun _ => True) newTemperature
        ((b.cells 0).map fun c => { c with feIndex := newFeIndex B.elements s e c }) sent = some (a, sol) ∧
      (∀ c ∈ b.cells 0, c.feIndex = 0 → ∀ i d : ℕ, (newDofs c.id)[i]? = some d →
        ∃ od, (b.dofs c.id)[i]? = some od ∧ sol d = WithTop.some (b.u od)) ∧
      (∀ d, (∀ c ∈ b.cells 0, c.feIndex = 0 → d ∉ newDofs c.id) → sol d = WithTop.some newTemperature) := by
  obtain ⟨sent, h1, h2⟩ := C41_add_material_partial hn b B hB s e he
  have hlen : (sent 0).length = (b.cells 0).length := by
    have := h1 0
    rw [addStart_eq b B s e he 0] at this
    rw [← Option.some.inj this, List.length_map]
  obtain ⟨a, sol, g', k1, _, _, _, _, k6, k7⟩ := h2
    ((b.cells 0).map fun c => { c with feIndex := newFeIndex B.elements s e c }) (sent 0) (by
      unfold Shipped
      rw [List.forall₂_iff_get]
      refine ⟨by rw [List.length_map, hlen], ?_⟩
      intro i hi1 hi2 _
      have hi : i < (b.cells 0).length := by simpa using hi1
      refine ⟨0, i, (b.cells 0)[i], List.getElem?_eq_getElem hi, hall _ (List.getElem_mem hi), by simp, ?_⟩
      rw [List.get_eq_getElem, List.getElem?_eq_getElem])
    (by
      intro c hc _
      obtain ⟨oc, hoc, rfl⟩ := List.mem_map.1 hc
      have hfe := b.feIndex 0 oc hoc (hall oc hoc)
      constructor
      · simp only
        rw [newFeIndex_zero, hfe]
      · simp only
        intro h0
        rw [← hfe]
        unfold newFeIndex at h0 ⊢
        split_ifs with h
        · rw [if_pos h] at h0; exact absurd rfl h0
        · rfl)
    newDofs (fun _ => True) newTemperature hcons hnd
  refine ⟨sent 0, a, sol, h1 0, k1, ?_, ?_⟩
  · intro c hc hf i d hi
    refine k6 d trivial _ (List.mem_map_of_mem hc) (hall c hc) ?_ i hi
    rw [← hf]; exact (b.feIndex 0 c hc (hall c hc)).symm
  · intro d hno
    refine k7 d trivial ?_
    intro c hc _ hf
    obtain ⟨oc, hoc, rfl⟩ := List.mem_map.1 hc
    refine hno oc hoc ?_
    rw [b.feIndex 0 oc hoc (hall oc hoc)]
    exact hf

/-- One cell with material at 1000 and 900 degrees, then two cells without, of which the first is in two boxes. -/
noncomputable def exampleBefore : Before 3 2 where
  g := fun k => if k = 0 then ⟨[1, 0, 0], 1, 0, false⟩ else ⟨[0, 0, 1], 0, 0, false⟩
  fe := fun k => if k = 0 then 0 else 1
  u := fun d => if d = 0 then 1000 else 900
  dofs := fun k => if k = 0 then [0, 1] else []
  cells := fun r => if r = 0 then [⟨0, true, 0⟩, ⟨1, true, 1⟩, ⟨2, true, 1⟩] else []
  arrays := fun r => if r = 0 then ⟨[[1, 0, 0], [0, 0, 1], [0, 0, 1]], [1], [0], [false]⟩ else ⟨[], [], [], []⟩
  holds := by
    intro r
    by_cases h : r = 0 <;> simp [h, Holds]
  feIndex := by
    intro r c hc _
    by_cases h : r = 0
    · simp [h] at hc
      rcases hc with rfl | rfl | rfl <;> simp
    · simp [h] at hc
  dofsLength := by
    intro r c hc _ hf
    by_cases h : r = 0
    · simp [h] at hc
      rcases hc with rfl | rfl | rfl <;> simp at hf ⊢
    · simp [h] at hc

/-- Boxes with their cells and directions. -/
def exampleBoxes : Boxes where
  elements := [[0, 1], [1]]
  cos := [1, 0]
  sin := [0, 1]
  ofRank := fun r => if r = 0 then [[0, 1], [1]] else [[], []]
  cosLength := rfl
  sinLength := rfl
  rankLength := by intro r; by_cases h : r = 0 <;> simp [h]

/-- The hypotheses of `C41_serial` can be met: the second cell is activated and shares degree of freedom 1. -/
example : exampleBoxes.Agree exampleBefore ∧ (2 ≤ exampleBoxes.elements.length) ∧
    (∀ c ∈ exampleBefore.cells 0, c.owned = true) ∧
    (∀ k k' i j d od od' : ℕ, exampleBefore.fe k = 0 → exampleBefore.fe k' = 0 →
      ((fun k => if k = 0 then [0, 1] else [1, 2]) k : List ℕ)[i]? = some d →
      ((fun k => if k = 0 then [0, 1] else [1, 2]) k' : List ℕ)[j]? = some d →
      (exampleBefore.dofs k)[i]? = some od → (exampleBefore.dofs k')[j]? = some od' →
      exampleBefore.u od = exampleBefore.u od') := by
  refine ⟨?_, by simp [exampleBoxes], by simp [exampleBefore], ?_⟩
  · intro r c hc _ i
    by_cases h : r = 0
    · simp [exampleBoxes, h]
    · simp [exampleBefore, h] at hc
  · intro k k' i j d od od' hk hk' h1 h2 h3 h4
    simp only [exampleBefore] at *
    by_cases e1 : k = 0
    · by_cases e2 : k' = 0
      · simp only [e1, e2, if_true] at h1 h2 h3 h4
        rw [h1] at h3; rw [h2] at h4
        rw [← Option.some.inj h3, ← Option.some.inj h4]
      · simp [e2] at hk'
    · simp [e1] at hk

/-- **C41 refuted**: deposited material "has never been melted" according to the driver (`application/adamantine.hh:1169-1171`),
but every newly activated cell is marked as melted: the melting indicator of its vector is still the infinity it was filled with.
Witness: the serial run above; cell 1 is new and its mark is `true`. -/
theorem C41_melted_refuted :
    ∃ (sent : List CellData) (a : Arrays) (sol : ℕ → WithTop ℝ),
      addStart 3 2 (exampleBefore.arrays 0) exampleBefore.u exampleBefore.dofs (exampleBefore.cells 0)
        (exampleBoxes.ofRank 0) exampleBoxes.cos exampleBoxes.sin 0 2 = some sent ∧
      addEnd 3 2 (fun k => if k = 0 then [0, 1] else [1, 2]) (fun _ => True) 300
        [⟨0, true, 0⟩, ⟨1, true, 0⟩, ⟨2, true, 1⟩] sent = some (a, sol) ∧
      a.cos = [1, 0] ∧ a.sin = [0, 1] ∧ a.melted = [false, true] := by
  refine ⟨_, _, _, rfl, rfl, ?_⟩
  simp only [decide_eq_true_eq, List.cons.injEq, and_true, true_and]
  constructor
  · simp; norm_num
  · exact WithTop.coe_lt_top _

/-- Two ranks: rank 1 owns cell 1 with material at 1000 degrees (both nodes), rank 0 owns cell 0 without material. -/
noncomputable def parallelBefore : Before 1 2 where
  g := fun _ => ⟨[1], 1, 0, false⟩
  fe := fun k => if k = 1 then 0 else 1
  u := fun _ => 1000
  dofs := fun k => if k = 1 then [0, 1] else []
  cells := fun r => if r = 0 then [⟨0, true, 1⟩, ⟨1, false, 0⟩] else if r = 1 then [⟨0, false, 1⟩, ⟨1, true, 0⟩] else []
  arrays := fun r => if r = 0 then ⟨[[1]], [], [], []⟩ else if r = 1 then ⟨[[1]], [1], [0], [false]⟩ else ⟨[], [], [], []⟩
  holds := by
    intro r
    by_cases h : r = 0
    · simp [h, Holds]
    · by_cases h' : r = 1 <;> simp [h, h', Holds]
  feIndex := by
    intro r c hc ho
    by_cases h : r = 0
    · simp [h] at hc
      rcases hc with rfl | rfl <;> simp
    · by_cases h' : r = 1
      · simp [h'] at hc
        rcases hc with rfl | rfl <;> simp
      · simp [h, h'] at hc
  dofsLength := by
    intro r c hc ho hf
    by_cases h : r = 0
    · simp [h] at hc
      rcases hc with rfl | rfl <;> simp at hf ⊢
    · by_cases h' : r = 1
      · simp [h'] at hc
        rcases hc with rfl | rfl <;> simp at hf ⊢
      · simp [h, h'] at hc

/-- **C41 refuted** in parallel: cells that hold material do not keep their temperature.  After cell 0 (rank 0) has been
activated it shares degree of freedom 1 with cell 1 (rank 1), and deal.II gives a shared degree of freedom to the lowest
rank, here rank 0.  Rank 1 has the old temperature but does not own the entry (`rw_index_set.is_element`, line 784), rank 0 owns
it but has no old data: the node of cell 1 that was at 1000 degrees is at the new-material temperature 300 afterwards. -/
theorem C41_parallel_temperature_refuted :
    ∃ (sent0 sent1 : List CellData) (a0 a1 : Arrays) (sol0 sol1 : ℕ → WithTop ℝ),
      addStart 1 2 (parallelBefore.arrays 0) parallelBefore.u parallelBefore.dofs (parallelBefore.cells 0) [[0]] [1] [0] 0 1 =
        some sent0 ∧
      addStart 1 2 (parallelBefore.arrays 1) parallelBefore.u parallelBefore.dofs (parallelBefore.cells 1) [[]] [1] [0] 0 1 =
        some sent1 ∧
      addEnd 1 2 (fun k => if k = 0 then [0, 1] else [1, 2]) (fun d => d = 0 ∨ d = 1) 300 [⟨0, true, 0⟩, ⟨1, false, 0⟩] sent0 =
        some (a0, sol0) ∧
      addEnd 1 2 (fun k => if k = 0 then [0, 1] else [1, 2]) (fun d => d = 2) 300 [⟨0, false, 0⟩, ⟨1, true, 0⟩] sent1 =
        some (a1, sol1) ∧
      -- before: degree of freedom 0 of cell 1; now it is degree of freedom 1, owned by rank 0
      parallelBefore.u 0 = 1000 ∧ sol0 1 = WithTop.some (300 : ℝ) ∧ sol1 2 = WithTop.some (1000 : ℝ) := by
  refine ⟨_, _, _, _, _, _, rfl, rfl, rfl, rfl, rfl, ?_, ?_⟩
  · rw [restore_eq, writeDofs_other]
    intro p hp
    simp [writes, parallelBefore, activateCell] at hp
  · rw [restore_eq]
    refine writeDofs_value _ _ _ _ _ rfl ?_ (Or.inr ?_)
    · intro p hp h2
      simp [writes, parallelBefore, activateCell] at hp
      rcases hp with rfl | rfl
      · simp at h2
      · rfl
    · simp [writes, parallelBefore, activateCell]

end Verif.Thermal
