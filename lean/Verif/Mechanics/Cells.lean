import Verif.Mechanics.Plasticity
import Mathlib.Data.List.Basic
import Mathlib.Logic.Function.Basic

/-!
# C48, C49, C73, C74, C76: cell-wise data of the mechanical simulation

`source/MechanicalOperator.cc:317-376` (melt history → reference temperature), `source/MechanicalPhysics.cc:157-283` (transfer of the
plastic variables) and `source/MechanicalPhysics.cc:286-470` (`setup_dofs` of the thermo-mechanical simulation).
-/

namespace Verif.Mechanics

/-! ## C48 -/

/-- An active cell of the mesh as `assemble_rhs` sees it (position in the list = `active_cell_index`).  `melted` is the flag of the
*mesh cell*, which the thermal simulation keeps only in the compressed vector `_has_melted` below. -/
structure MCell where
  owned : Bool
  thermalFE : ℕ
  mechFE : ℕ
  material : ℕ
  melted : Bool

/-- The vector `has_melted` handed over by the thermal simulation: one entry per locally owned cell with thermal fe index 0, in cell
order (`ThermalPhysics.templates.hh:542-593`, `:770-806`, see C42). -/
def hasMeltedVec (cells : List MCell) : List Bool :=
  (cells.filter fun c => c.owned && c.thermalFE == 0).map MCell.melted

/-- `cell_indices`, `MechanicalOperator.cc:327-349`; entries not written keep the value 0 of the vector constructor. -/
def cellIndices : List MCell → ℕ → List ℕ
  | [], _ => []
  | c :: cs, k =>
    if c.owned && c.thermalFE == 0 then (if c.mechFE = 0 then k else 0) :: cellIndices cs (k + 1)
    else 0 :: cellIndices cs k

/-- The reference temperature used by the worker on the cell with active cell index `i`, lines 366-373; `none`: an access out of bounds. -/
def referenceTemperature {K : Type} (cells : List MCell) (refs : List K) (i : ℕ) : Option K := do
  let c ← cells[i]?
  let k ← (cellIndices cells 0)[i]?
  let m ← (hasMeltedVec cells)[k]?
  if m then refs[c.material]? else refs.getLast?

/-- The vector of reference temperatures built by the driver, `application/adamantine.hh:828-841`: one per material, then the initial
temperature. -/
def referenceTemps {K : Type} (perMaterial : List K) (initial : K) : List K := perMaterial ++ [initial]

theorem cellIndices_get (cells : List MCell) (k i : ℕ) (c : MCell) (h : cells[i]? = some c) (ho : c.owned = true) (ht : c.thermalFE = 0)
    (hm : c.mechFE = 0) :
    ∃ p, (cellIndices cells k)[i]? = some (k + p) ∧ (hasMeltedVec cells)[p]? = some c.melted := by
  induction cells generalizing k i with
  | nil => simp at h
  | cons a as ih =>
    cases i with
    | zero =>
      simp only [List.getElem?_cons_zero, Option.some.injEq] at h
      subst h
      refine ⟨0, ?_, ?_⟩
      · simp [cellIndices, ho, ht, hm]
      · simp [hasMeltedVec, ho, ht]
    | succ i =>
      simp only [List.getElem?_cons_succ] at h
      by_cases hc : (a.owned && a.thermalFE == 0) = true
      · obtain ⟨p, h1, h2⟩ := ih (k + 1) i h
        refine ⟨p + 1, ?_, ?_⟩
        · rw [cellIndices, if_pos hc, List.getElem?_cons_succ, h1]
          congr 1
          omega
        · unfold hasMeltedVec at h2 ⊢
          rw [List.filter_cons, if_pos hc, List.map_cons, List.getElem?_cons_succ, h2]
      · obtain ⟨p, h1, h2⟩ := ih k i h
        refine ⟨p, ?_, ?_⟩
        · rw [cellIndices, if_neg hc, List.getElem?_cons_succ, h1]
        · unfold hasMeltedVec at h2 ⊢
          rw [List.filter_cons, if_neg hc, h2]

/-- **C48**: for every mesh, every distribution of owned, empty, liquid and solid cells: a locally owned cell of the mechanical simulation
that also carries temperature uses the reference temperature of its material if *this mesh cell* has melted, and the initial temperature
otherwise; no access is out of bounds. -/
theorem C48_reference {K : Type} (cells : List MCell) (perMaterial : List K) (initial : K) (i : ℕ) (c : MCell) (T : K)
    (h : cells[i]? = some c) (ho : c.owned = true) (hm : c.mechFE = 0) (ht : c.thermalFE = 0) (hT : perMaterial[c.material]? = some T) :
    referenceTemperature cells (referenceTemps perMaterial initial) i = some (if c.melted then T else initial) := by
  obtain ⟨p, h1, h2⟩ := cellIndices_get cells 0 i c h ho ht hm
  rw [Nat.zero_add] at h1
  unfold referenceTemperature referenceTemps
  simp only [h, h1, h2, Option.bind_eq_bind, Option.bind_some]
  cases c.melted with
  | true =>
    have hlt : c.material < perMaterial.length := by
      rw [List.getElem?_eq_some_iff] at hT; exact hT.1
    simp [List.getElem?_append_left hlt, hT]
  | false => simp

example : referenceTemperature [⟨false, 0, 0, 0, true⟩, ⟨true, 0, 1, 0, true⟩, ⟨true, 1, 1, 0, false⟩, ⟨true, 0, 0, 0, false⟩,
    ⟨true, 0, 0, 1, true⟩] (referenceTemps [10, 20] 1) 4 = some 20 := by decide

/-- What `C48_reference` needs about the fe indices is exactly needed: a mechanical cell without temperature would silently take the melt
flag of the first thermal cell of the rank. (`C49_setup` shows that `setup_dofs` never leaves such a cell.) -/
theorem C48_needs_thermal :
    referenceTemperature [⟨true, 0, 1, 0, true⟩, ⟨true, 1, 0, 0, false⟩] (referenceTemps [10] 1) 1 = some 10 := by decide

/-! ## C49: transfer -/

/-- Sequential writes into a vector. -/
def writes {K : Type} (l : List (ℕ × K)) (m : ℕ → K) : ℕ → K := l.foldl (fun m w => Function.update m w.1 w.2) m

theorem writes_append {K : Type} (l r : List (ℕ × K)) (m : ℕ → K) : writes (l ++ r) m = writes r (writes l m) := by
  simp [writes, List.foldl_append]

theorem writes_not_mem {K : Type} (l : List (ℕ × K)) (m : ℕ → K) (x : ℕ) (h : ∀ w ∈ l, w.1 ≠ x) : writes l m x = m x := by
  induction l generalizing m with
  | nil => rfl
  | cons a as ih =>
    change writes as (Function.update m a.1 a.2) x = m x
    rw [ih _ (fun w hw => h w (List.mem_cons_of_mem _ hw)), Function.update_of_ne (h a List.mem_cons_self).symm]

theorem writes_mem {K : Type} (l : List (ℕ × K)) (m : ℕ → K) (x : ℕ) (v : K) (hmem : (x, v) ∈ l) (h : ∀ w ∈ l, w.1 = x → w.2 = v) :
    writes l m x = v := by
  induction l generalizing m with
  | nil => simp at hmem
  | cons a as ih =>
    change writes as (Function.update m a.1 a.2) x = v
    by_cases hx : (x, v) ∈ as
    · exact ih _ hx fun w hw => h w (List.mem_cons_of_mem _ hw)
    · have ha : a = (x, v) := by
        rcases List.mem_cons.1 hmem with h1 | h1
        · exact h1.symm
        · exact absurd h1 hx
      subst ha
      rw [writes_not_mem]
      · simp
      · intro w hw hwx
        apply hx
        have := h w (List.mem_cons_of_mem _ hw) hwx
        rwa [show w = (x, v) from Prod.ext hwx this] at hw

/-- Plastic variables of a cell: yield radius per quadrature point, raw entries of stress and back stress (`access_raw_entry(i)`). -/
structure PlasticVars (K : Type) where
  kappa : ℕ → K
  stress : ℕ → ℕ → K
  back : ℕ → ℕ → K

/-- The writes of `prepare_transfer_mpi` into `cell_data`, `MechanicalPhysics.cc:183-203`, in program order; `nq` quadrature points, `ns`
independent components. -/
def packWrites {K : Type} (nq ns : ℕ) (p : PlasticVars K) : List (ℕ × K) :=
  (List.range nq).map (fun q => (q, p.kappa q)) ++
  (List.range nq).flatMap fun q => (List.range ns).flatMap fun i =>
    [(nq * 1 + q * ns + i, p.stress q i), (nq * (1 + ns) + q * ns + i, p.back q i)]

/-- Length of `cell_data`. -/
def packLength (nq ns : ℕ) : ℕ := nq * (1 + ns * 2)

/-- `complete_transfer_mpi`, lines 256-281: what is read back from the transferred data. -/
def unpack {K : Type} (nq ns : ℕ) (data : ℕ → K) : PlasticVars K :=
  ⟨fun q => data q, fun q i => data (nq * 1 + q * ns + i), fun q i => data (nq * (1 + ns) + q * ns + i)⟩

theorem block_lt {nq ns q i : ℕ} (hq : q < nq) (hi : i < ns) : q * ns + i < nq * ns := by
  calc q * ns + i < q * ns + ns := by omega
    _ = (q + 1) * ns := by ring
    _ ≤ nq * ns := Nat.mul_le_mul_right _ hq

theorem block_inj {ns q i q' i' : ℕ} (hi : i < ns) (hi' : i' < ns) (h : q * ns + i = q' * ns + i') : q = q' ∧ i = i' := by
  have hns : 0 < ns := by omega
  have h1 : (q * ns + i) / ns = q := by
    rw [Nat.add_comm, Nat.add_mul_div_right _ _ hns, Nat.div_eq_of_lt hi, Nat.zero_add]
  have h2 : (q' * ns + i') / ns = q' := by
    rw [Nat.add_comm, Nat.add_mul_div_right _ _ hns, Nat.div_eq_of_lt hi', Nat.zero_add]
  have hq : q = q' := by rw [← h1, ← h2, h]
  subst hq
  exact ⟨rfl, by omega⟩

theorem mem_packWrites {K : Type} (nq ns : ℕ) (p : PlasticVars K) (w : ℕ × K) :
    w ∈ packWrites nq ns p ↔ (∃ q < nq, w = (q, p.kappa q)) ∨ (∃ q < nq, ∃ i < ns, w = (nq * 1 + q * ns + i, p.stress q i)) ∨
      (∃ q < nq, ∃ i < ns, w = (nq * (1 + ns) + q * ns + i, p.back q i)) := by
  unfold packWrites
  simp only [List.mem_append, List.mem_map, List.mem_range, List.mem_flatMap, List.mem_cons, List.not_mem_nil, or_false]
  constructor
  · rintro (⟨q, h, rfl⟩ | ⟨q, h, i, hi, rfl | rfl⟩)
    · exact Or.inl ⟨q, h, rfl⟩
    · exact Or.inr (Or.inl ⟨q, h, i, hi, rfl⟩)
    · exact Or.inr (Or.inr ⟨q, h, i, hi, rfl⟩)
  · rintro (⟨q, h, rfl⟩ | ⟨q, h, i, hi, rfl⟩ | ⟨q, h, i, hi, rfl⟩)
    · exact Or.inl ⟨q, h, rfl⟩
    · exact Or.inr ⟨q, h, i, hi, Or.inl rfl⟩
    · exact Or.inr ⟨q, h, i, hi, Or.inr rfl⟩

/-- **C49**, transfer: for every number of quadrature points and components, all writes are inside the buffer and reading back the
buffer of a cell gives its yield radii, stresses and back stresses. -/
theorem C49_round_trip {K : Type} (nq ns : ℕ) (p : PlasticVars K) (m : ℕ → K) :
    (∀ w ∈ packWrites nq ns p, w.1 < packLength nq ns) ∧
    (∀ q < nq, (unpack nq ns (writes (packWrites nq ns p) m)).kappa q = p.kappa q) ∧
    (∀ q < nq, ∀ i < ns, (unpack nq ns (writes (packWrites nq ns p) m)).stress q i = p.stress q i ∧
      (unpack nq ns (writes (packWrites nq ns p) m)).back q i = p.back q i) := by
  have e1 : nq * (1 + ns) = nq + nq * ns := by ring
  have e2 : nq * (1 + ns * 2) = nq + nq * ns + nq * ns := by ring
  refine ⟨?_, ?_, ?_⟩
  · intro w hw
    unfold packLength
    rcases (mem_packWrites nq ns p w).1 hw with ⟨q, hq, rfl⟩ | ⟨q, hq, i, hi, rfl⟩ | ⟨q, hq, i, hi, rfl⟩
    · simp only; omega
    · have := block_lt hq hi
      simp only; omega
    · have := block_lt hq hi
      simp only; omega
  · intro q hq
    unfold unpack
    simp only
    apply writes_mem
    · exact (mem_packWrites nq ns p _).2 (Or.inl ⟨q, hq, rfl⟩)
    · intro w hw hx
      rcases (mem_packWrites nq ns p w).1 hw with ⟨q', hq', rfl⟩ | ⟨q', hq', i, hi, rfl⟩ | ⟨q', hq', i, hi, rfl⟩
      · simp only at hx ⊢; rw [hx]
      · simp only at hx; omega
      · simp only at hx; omega
  · intro q hq i hi
    unfold unpack
    simp only
    have hb := block_lt hq hi
    constructor
    · apply writes_mem
      · exact (mem_packWrites nq ns p _).2 (Or.inr (Or.inl ⟨q, hq, i, hi, rfl⟩))
      · intro w hw hx
        rcases (mem_packWrites nq ns p w).1 hw with ⟨q', hq', rfl⟩ | ⟨q', hq', i', hi', rfl⟩ | ⟨q', hq', i', hi', rfl⟩
        · simp only at hx; omega
        · simp only at hx ⊢
          obtain ⟨h1, h2⟩ := block_inj (q := q') (q' := q) hi' hi (by omega)
          rw [h1, h2]
        · simp only at hx; omega
    · apply writes_mem
      · exact (mem_packWrites nq ns p _).2 (Or.inr (Or.inr ⟨q, hq, i, hi, rfl⟩))
      · intro w hw hx
        rcases (mem_packWrites nq ns p w).1 hw with ⟨q', hq', rfl⟩ | ⟨q', hq', i', hi', rfl⟩ | ⟨q', hq', i', hi', rfl⟩
        · simp only at hx; omega
        · have := block_lt hq' hi'
          simp only at hx; omega
        · simp only at hx ⊢
          obtain ⟨h1, h2⟩ := block_inj (q := q') (q' := q) hi' hi (by omega)
          rw [h1, h2]

example : (unpack 2 3 (writes (packWrites 2 3 ⟨fun q => q + 100, fun q i => 10 * q + i, fun q i => 1000 + 10 * q + i⟩)
    fun _ => 0)).back 1 2 = 1012 := by decide

/-! ## C49: setup_dofs -/

/-- Plastic variables of a cell in `setup_dofs`; `kappa q = none` is the NaN stored for cells without solid material. -/
structure CellVars (d : ℕ) where
  kappa : ℕ → Option ℝ
  stress : ℕ → Tens d
  back : ℕ → Tens d

/-- A locally owned cell in `setup_dofs`: the solid ratio and the fe index of the thermal simulation are inputs. -/
structure SCell (d : ℕ) where
  solid : ℝ
  thermalFE : ℕ
  mechFE : ℕ
  elasticLimit : ℝ
  vars : CellVars d

/-- Initial values of a cell that has just become solid. -/
def freshVars (d : ℕ) (limit : ℝ) : CellVars d := ⟨fun _ => some limit, fun _ => 0, fun _ => 0⟩

/-- Values of a cell without solid material. -/
def emptyVars (d : ℕ) : CellVars d := ⟨fun _ => none, fun _ => 0, fun _ => 0⟩

open Classical in
/-- The loop body of `setup_dofs`, `MechanicalPhysics.cc:340-397`: new fe index, entry of the temporary arrays, and whether this cell asks for
a new matrix. -/
noncomputable def setupCell {d : ℕ} (c : SCell d) : ℕ × CellVars d × Bool :=
  if 0.99 < c.solid then
    if c.mechFE = c.thermalFE then (c.mechFE, c.vars, false)
    else (c.thermalFE, freshVars d c.elasticLimit, true)
  else (1, emptyVars d, decide (c.mechFE = 0))

/-- `setup_dofs`, lines 338-434: `rebuild` is the argument, `others` what the other ranks contribute to the `logical_or`.  Without a rebuild
the temporary arrays are dropped. -/
noncomputable def setupDofs {d : ℕ} (rebuild others : Bool) (cells : List (SCell d)) : List (SCell d) :=
  let any := rebuild || others || cells.any fun c => (setupCell c).2.2;
  cells.map fun c => { c with mechFE := (setupCell c).1, vars := if any then (setupCell c).2.1 else c.vars }

theorem setupDofs_get {d : ℕ} (rebuild others : Bool) (cells : List (SCell d)) (i : ℕ) (c : SCell d) (h : cells[i]? = some c) :
    ∃ b, ((setupCell c).2.2 = true → b = true) ∧ (rebuild = true → b = true) ∧ (setupDofs rebuild others cells)[i]? =
      some { c with mechFE := (setupCell c).1, vars := if b then (setupCell c).2.1 else c.vars } := by
  refine ⟨rebuild || others || cells.any fun c => (setupCell c).2.2, ?_, ?_, ?_⟩
  · intro hc
    have : cells.any (fun c => (setupCell c).2.2) = true := List.any_eq_true.2 ⟨c, List.mem_of_getElem? h, hc⟩
    simp [this]
  · intro hr; simp [hr]
  · unfold setupDofs
    simp [h]

/-- **C49**, phase changes: after `setup_dofs`, for every mesh and whether or not the matrix is rebuilt,
* a cell that was and is solid keeps its plastic variables,
* a cell that is solid now and was not part of the mechanical simulation starts from the elastic limit and zero stresses,
* a cell that stopped being solid leaves the mechanical simulation and carries no data,
* a cell takes part exactly if it is solid (ratio above 0.99) and carries temperature. -/
theorem C49_setup {d : ℕ} (rebuild others : Bool) (cells : List (SCell d)) (i : ℕ) (c : SCell d) (h : cells[i]? = some c)
    (hf : c.mechFE = 0 ∨ c.mechFE = 1) (ht : c.thermalFE = 0 ∨ c.thermalFE = 1) :
    ∃ c', (setupDofs rebuild others cells)[i]? = some c' ∧ c'.thermalFE = c.thermalFE ∧ (c'.mechFE = 0 ∨ c'.mechFE = 1) ∧
      (c'.mechFE = 0 ↔ 0.99 < c.solid ∧ c.thermalFE = 0) ∧
      (0.99 < c.solid → c.mechFE = 0 → c.thermalFE = 0 → c'.vars = c.vars) ∧
      (0.99 < c.solid → c.mechFE = 1 → c.thermalFE = 0 →
        (∀ q, c'.vars.kappa q = some c.elasticLimit) ∧ (∀ q, c'.vars.stress q = 0) ∧ (∀ q, c'.vars.back q = 0)) ∧
      (c.solid ≤ 0.99 → c.mechFE = 0 →
        (∀ q, c'.vars.kappa q = none) ∧ (∀ q, c'.vars.stress q = 0) ∧ (∀ q, c'.vars.back q = 0)) := by
  obtain ⟨b, hb, _, hget⟩ := setupDofs_get rebuild others cells i c h
  refine ⟨_, hget, rfl, ?_, ?_, ?_, ?_, ?_⟩
  · simp only [setupCell]
    split_ifs <;> simp_all
  · simp only [setupCell]
    split_ifs with h1 h2
    · constructor
      · intro h0; exact ⟨h1, by rw [← h2]; exact h0⟩
      · rintro ⟨_, h0⟩; rw [h2]; exact h0
    · simp [h1]
    · simp [h1]
  · intro h1 h2 h3
    simp only [setupCell, h1, if_true, h2, h3]
    split_ifs <;> rfl
  · intro h1 h2 h3
    have hs : setupCell c = (0, freshVars d c.elasticLimit, true) := by simp [setupCell, h1, h2, h3]
    have hbt : b = true := hb (by rw [hs])
    simp only [hs, hbt, if_true]
    exact ⟨fun _ => rfl, fun _ => rfl, fun _ => rfl⟩
  · intro h1 h2
    have hs : setupCell c = (1, emptyVars d, true) := by simp [setupCell, not_lt.2 h1, h2]
    have hbt : b = true := hb (by rw [hs])
    simp only [hs, hbt, if_true]
    exact ⟨fun _ => rfl, fun _ => rfl, fun _ => rfl⟩

/-- The three cases occur. -/
example : ∃ c : SCell 3, 0.99 < c.solid ∧ c.mechFE = 1 ∧ c.thermalFE = 0 := ⟨⟨1, 0, 1, 5, freshVars 3 5⟩, by norm_num, rfl, rfl⟩
example : ∃ c : SCell 3, 0.99 < c.solid ∧ c.mechFE = 0 ∧ c.thermalFE = 0 := ⟨⟨1, 0, 0, 5, freshVars 3 5⟩, by norm_num, rfl, rfl⟩
example : ∃ c : SCell 3, c.solid ≤ 0.99 ∧ c.mechFE = 0 := ⟨⟨0.5, 0, 0, 5, freshVars 3 5⟩, by norm_num, rfl⟩

/-! ## C76: melting between two mechanical steps -/

/-- A cell over a sequence of thermal time steps: the solid ratio and the thermal fe index after each, and whether the mechanical problem is
solved in this step (`adamantine.hh:1296`: multiples of `mechanical_time_step_factor` or of the output interval). -/
noncomputable def cellHistory {d : ℕ} : List (ℝ × Bool) → SCell d → SCell d
  | [], c => c
  | (s, mech) :: rest, c =>
    let c1 := { c with solid := s };
    cellHistory rest (if mech then { c1 with mechFE := (setupCell c1).1, vars := (setupCell c1).2.1 } else c1)

/-- **C76 refuted**: a solid cell that melts completely and solidifies again between two mechanical steps keeps the stress and the yield
radius it had before melting. -/
theorem C76_refuted {d : ℕ} (v : CellVars d) (limit : ℝ) :
    (cellHistory [(1, true), (0, false), (1, true)] (⟨1, 0, 0, limit, v⟩ : SCell d)).vars = v := by
  simp [cellHistory, setupCell]
  norm_num

/-- **C76**, what holds: if a mechanical step is taken while the cell is not solid, then at the first mechanical step after which the cell is solid again
it has lost its stresses and its hardening; whatever happens in between. -/
theorem C76_partial {d : ℕ} (c : SCell d) (ht : c.thermalFE = 0) (s s' : ℝ) (hs : s ≤ 0.99) (hs' : 0.99 < s') (mid : List ℝ) :
    (cellHistory ((s, true) :: mid.map (fun x => (x, false)) ++ [(s', true)]) c).vars = freshVars d c.elasticLimit := by
  have hmid : ∀ (l : List ℝ) (c : SCell d), ∃ x, ∀ r, cellHistory (l.map (fun x => (x, false)) ++ r) c = cellHistory r { c with solid := x } := by
    intro l
    induction l with
    | nil => intro c; exact ⟨c.solid, fun r => rfl⟩
    | cons a as ih =>
      intro c
      obtain ⟨x, hx⟩ := ih { c with solid := a }
      exact ⟨x, fun r => by simp only [List.map_cons, List.cons_append, cellHistory]; exact hx r⟩
  have h1 : setupCell ({ c with solid := s } : SCell d) = (1, emptyVars d, decide (c.mechFE = 0)) := by
    simp [setupCell, not_lt.2 hs]
  simp only [List.cons_append, cellHistory, h1, if_true]
  obtain ⟨x, hx⟩ := hmid mid ⟨s, c.thermalFE, 1, c.elasticLimit, emptyVars d⟩
  rw [hx]
  simp [cellHistory, setupCell, hs', ht]

/-! ## C73: old displacement -/

/-- A locally owned cell: the nodes (dofs) it uses and whether it is solid before and after. Dofs are identified by their support point, so the
renumbering by `distribute_dofs` is invisible. -/
structure DCell where
  nodes : List ℕ
  wasSolid : Bool
  isSolid : Bool

/-- Saving and restoring `_old_displacement`, `MechanicalPhysics.cc:308-336` and `:447-468`, on one rank owning all dofs: the values written for each
cell, in cell order, over a zero vector. -/
def restoreWrites (u : ℕ → ℝ) (cells : List DCell) : List (ℕ × ℝ) :=
  cells.flatMap fun c => if c.isSolid then c.nodes.map fun n => (n, if c.wasSolid then u n else 0) else []

/-- `_old_displacement` after `setup_dofs`. -/
def restored (u : ℕ → ℝ) (cells : List DCell) : ℕ → ℝ := writes (restoreWrites u cells) fun _ => 0

/-- **C73 refuted**: two cells share node 1; the first was and stays solid, the second becomes solid. The old displacement of node 1, which belongs to
the cell that stayed solid, is replaced by 0 (and the next stress increment of that cell is computed with a wrong displacement increment); with the cells in the
other order it is kept. -/
theorem C73_refuted :
    restored (fun _ => 7) [⟨[0, 1], true, true⟩, ⟨[1, 2], false, true⟩] 1 = 0 ∧
    restored (fun _ => 7) [⟨[1, 2], false, true⟩, ⟨[0, 1], true, true⟩] 1 = 7 := by
  constructor <;> simp [restored, restoreWrites, writes]

theorem restored_append_cell (u : ℕ → ℝ) (cells : List DCell) (c : DCell) (n : ℕ) :
    restored u (cells ++ [c]) n =
      if c.isSolid = true ∧ n ∈ c.nodes then (if c.wasSolid then u n else 0) else restored u cells n := by
  unfold restored restoreWrites
  rw [List.flatMap_append, writes_append]
  set m := writes (cells.flatMap fun c => if c.isSolid then c.nodes.map fun n => (n, if c.wasSolid then u n else 0) else []) fun _ => 0
  simp only [List.flatMap_cons, List.flatMap_nil, List.append_nil]
  by_cases hs : c.isSolid = true
  · rw [if_pos hs]
    by_cases hn : n ∈ c.nodes
    · rw [if_pos ⟨hs, hn⟩]
      apply writes_mem
      · exact List.mem_map.2 ⟨n, hn, rfl⟩
      · intro w hw hx
        obtain ⟨k, _, rfl⟩ := List.mem_map.1 hw
        simp only at hx ⊢
        rw [hx]
    · rw [if_neg (fun h => hn h.2)]
      apply writes_not_mem
      intro w hw hx
      obtain ⟨k, hk, rfl⟩ := List.mem_map.1 hw
      exact hn (hx ▸ hk)
  · rw [if_neg hs, if_neg (fun h => hs h.1)]
    rfl

/-- **C73**, what holds, for every mesh: the old displacement of a node is kept exactly if it was zero or if, in cell order, the last solid cell using
the node was already solid. -/
theorem C73_partial (u : ℕ → ℝ) (before after : List DCell) (c : DCell) (n : ℕ) (hs : c.isSolid = true) (hn : n ∈ c.nodes)
    (hlast : ∀ c' ∈ after, c'.isSolid = true → n ∉ c'.nodes) :
    restored u (before ++ [c] ++ after) n = if c.wasSolid then u n else 0 := by
  induction after using List.reverseRecOn with
  | nil => rw [List.append_nil, restored_append_cell, if_pos ⟨hs, hn⟩]
  | append_singleton as a ih =>
    rw [← List.append_assoc, restored_append_cell, if_neg]
    · exact ih fun c' hc' => hlast c' (List.mem_append_left _ hc')
    · rintro ⟨h1, h2⟩
      exact hlast a (List.mem_append_right _ (List.mem_singleton.2 rfl)) h1 h2

/-- **C73**: a node that no solid cell uses has no old displacement. -/
theorem C73_unused (u : ℕ → ℝ) (cells : List DCell) (n : ℕ) (h : ∀ c ∈ cells, c.isSolid = true → n ∉ c.nodes) : restored u cells n = 0 := by
  induction cells using List.reverseRecOn with
  | nil => rfl
  | append_singleton as a ih =>
    rw [restored_append_cell, if_neg]
    · exact ih fun c hc => h c (List.mem_append_left _ hc)
    · rintro ⟨h1, h2⟩
      exact h a (List.mem_append_right _ (List.mem_singleton.2 rfl)) h1 h2

/-- **C73**: in particular, when no cell becomes solid, every solid cell keeps the displacement of all its nodes. -/
theorem C73_no_new_cells_partial (u : ℕ → ℝ) (cells : List DCell) (h : ∀ c ∈ cells, c.isSolid = true → c.wasSolid = true) (c : DCell) (hc : c ∈ cells)
    (hs : c.isSolid = true) (n : ℕ) (hn : n ∈ c.nodes) : restored u cells n = u n := by
  induction cells using List.reverseRecOn with
  | nil => simp at hc
  | append_singleton as a ih =>
    rw [restored_append_cell]
    split_ifs with h1 h2
    · rfl
    · exact absurd (h a (by simp) h1.1) h2
    · rcases List.mem_append.1 hc with hc | hc
      · exact ih (fun c' hc' => h c' (List.mem_append_left _ hc')) hc
      · rw [List.mem_singleton] at hc
        subst hc
        exact absurd ⟨hs, hn⟩ h1

example : ∀ c ∈ ([⟨[0, 1], true, true⟩, ⟨[1, 2], true, false⟩] : List DCell), c.isSolid = true → c.wasSolid = true := by decide

/-! ## C74: the thermal load and the thread schedule -/

/-- Steps of the workers of `assemble_rhs` with respect to the buffer `temperature_local_dof_indices`, which is declared outside of the worker
(`MechanicalOperator.cc:353-354`) and captured by reference: worker `w` fills it with the dofs of its cell (line 390) and later reads it (lines 398-402).
`MeshWorker::mesh_loop` runs the workers of several cells at the same time when deal.II uses threads (`application/adamantine.cc:249-250` does not limit them). -/
inductive WStep where
  | fill (w : ℕ)
  | read (w : ℕ)
deriving DecidableEq

/-- Run a schedule: the buffer holds the dofs of the cell that filled it last; the result is the list of (worker, dofs it used). -/
def runSchedule {D : Type} (dofs : ℕ → D) : List WStep → D → List (ℕ × D)
  | [], _ => []
  | WStep.fill w :: s, _ => runSchedule dofs s (dofs w)
  | WStep.read w :: s, b => (w, b) :: runSchedule dofs s b

/-- A schedule respects the program order of each worker: it fills before it reads. -/
def ProgramOrder (s : List WStep) : Prop := ∀ pre w post, s = pre ++ WStep.read w :: post → WStep.fill w ∈ pre

/-- **C74 refuted**: two cells processed at the same time; the schedule respects the program order of both workers, and the first one computes its load
with the temperatures of the other cell. -/
theorem C74_refuted {D : Type} (dofs : ℕ → D) (b : D) :
    runSchedule dofs [WStep.fill 0, WStep.fill 1, WStep.read 0, WStep.read 1] b = [(0, dofs 1), (1, dofs 1)] ∧
    ProgramOrder [WStep.fill 0, WStep.fill 1, WStep.read 0, WStep.read 1] := by
  constructor
  · rfl
  · intro pre w post h
    rcases pre with _ | ⟨a, _ | ⟨b, _ | ⟨c, _ | ⟨e, t⟩⟩⟩⟩ <;> simp at h
    · obtain ⟨rfl, rfl, rfl, _⟩ := h; simp
    · obtain ⟨rfl, rfl, rfl, rfl, _⟩ := h; simp

/-- **C74**, what holds: if the workers run one after the other, in any order, every cell's load uses its own temperatures. -/
theorem C74_sequential_partial {D : Type} (dofs : ℕ → D) (order : List ℕ) (b : D) (w : ℕ) (x : D)
    (h : (w, x) ∈ runSchedule dofs (order.flatMap fun w => [WStep.fill w, WStep.read w]) b) : x = dofs w := by
  induction order generalizing b with
  | nil => simp [runSchedule] at h
  | cons a as ih =>
    simp only [List.flatMap_cons, List.cons_append, List.nil_append, runSchedule, List.mem_cons, Prod.mk.injEq] at h
    rcases h with ⟨rfl, rfl⟩ | h
    · rfl
    · exact ih _ h

example : (3, 30) ∈ runSchedule (fun n => 10 * n) ([5, 3, 4].flatMap fun w => [WStep.fill w, WStep.read w]) 0 := by decide

end Verif.Mechanics
