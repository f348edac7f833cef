import Verif.Mechanics.MeshLoop
import Verif.Mechanics.System

/-!
# C141: the threads assemble the mechanical system

The loop of `MeshLoop` on the cells of `System`: the copier is `AffineConstraints::distribute_local_to_global`
(`source/MechanicalOperator.cc:256-260`, `:417-421`) and the terms are those of `Stiffness`.  The numbers are real; the entries of the local
systems outside of the cell are not touched.
-/

namespace Verif.Mechanics.MeshLoop

open Verif.Assembly Matrix

variable {d N : ℕ}

/-- The cell as the worker of `assemble_matrix` sees it: its numbers by position. -/
noncomputable def matrixCellOf (c : SolidCell d (Fin N)) : MatrixCell :=
  ⟨(List.finRange c.n).map fun i => (c.dof i).val, c.nq, fun i j q =>
    if h : i < c.n ∧ j < c.n ∧ q < c.nq then
      ((c.geo.grad ⟨q, h.2.2⟩ ⟨i, h.1⟩ (c.geo.comp ⟨i, h.1⟩) * c.geo.grad ⟨q, h.2.2⟩ ⟨j, h.2.1⟩ (c.geo.comp ⟨j, h.2.1⟩) * c.m.lambda) +
        (c.geo.grad ⟨q, h.2.2⟩ ⟨i, h.1⟩ (c.geo.comp ⟨j, h.2.1⟩) * c.geo.grad ⟨q, h.2.2⟩ ⟨j, h.2.1⟩ (c.geo.comp ⟨i, h.1⟩) * c.m.mu) +
        (if c.geo.comp ⟨i, h.1⟩ = c.geo.comp ⟨j, h.2.1⟩ then
          c.m.mu * ∑ k, c.geo.grad ⟨q, h.2.2⟩ ⟨i, h.1⟩ k * c.geo.grad ⟨q, h.2.2⟩ ⟨j, h.2.1⟩ k else 0)) * c.geo.JxW ⟨q, h.2.2⟩
    else 0⟩

/-- The cell as the worker of `assemble_rhs` sees it, with the dofs of the temperature on it, the values of the temperature shape functions
and the reference temperature. -/
noncomputable def loadCellOf (c : SolidCell d (Fin N)) (thermalDofs : List ℕ) (shape : ℕ → ℕ → ℝ) (reference : ℝ) : LoadCell :=
  ⟨(List.finRange c.n).map fun i => (c.dof i).val, thermalDofs, c.nq, reference, (3 * c.m.lambda + 2 * c.m.mu) * c.alpha, shape, fun q i =>
    if h : q < c.nq ∧ i < c.n then c.geo.grad ⟨q, h.1⟩ ⟨i, h.2⟩ (c.geo.comp ⟨i, h.2⟩) * c.geo.JxW ⟨q, h.1⟩ else 0⟩

/-- What a global number contributes to the row `g`. -/
noncomputable def coefAt (h : Hanging (Fin N)) (n : ℕ) (g : Fin N) : ℝ := if hn : n < N then h.coef ⟨n, hn⟩ g else 0

/-- `distribute_local_to_global` of a matrix. -/
noncomputable def copyMatrix (h : Hanging (Fin N)) (A : Fin N → Fin N → ℝ) (cd : CopyData (ℕ × ℕ)) : Fin N → Fin N → ℝ :=
  fun g g' => A g g' + ∑ i : Fin cd.dofs.length, ∑ j : Fin cd.dofs.length,
    coefAt h (cd.dofs.get i) g * cd.entry (i, j) * coefAt h (cd.dofs.get j) g'

/-- `distribute_local_to_global` of a vector. -/
noncomputable def copyVector (h : Hanging (Fin N)) (r : Fin N → ℝ) (cd : CopyData ℕ) : Fin N → ℝ :=
  fun g => r g + ∑ i : Fin cd.dofs.length, coefAt h (cd.dofs.get i) g * cd.entry i

theorem coefAt_dof (h : Hanging (Fin N)) (x g : Fin N) : coefAt h x.val g = h.coef x g := by
  unfold coefAt
  rw [dif_pos x.isLt]

theorem total_range (n : ℕ) (f : ℕ → ℝ) : total (· + ·) ((List.range n).map f) = ∑ q : Fin n, f q := by
  unfold total
  rw [← List.sum_eq_foldl, ← Finset.sum_range]
  induction n with
  | zero => simp
  | succ n ih => rw [List.range_succ, List.map_append, List.sum_append, ih, Finset.sum_range_succ]; simp

/-- A sum over the positions of the list of the dofs of a cell. -/
theorem sum_dofs (n : ℕ) (dof : Fin n → Fin N) (f : ℕ → ℕ → ℝ) :
    ∑ i : Fin ((List.finRange n).map fun i => (dof i).val).length, f (((List.finRange n).map fun i => (dof i).val).get i) i =
      ∑ i : Fin n, f (dof i).val i := by
  have hl : ((List.finRange n).map fun i => (dof i).val).length = n := by simp
  rw [← (finCongr hl).sum_comp]
  refine Finset.sum_congr rfl fun i _ => ?_
  simp
  rfl

theorem entry_matrix (c : SolidCell d (Fin N)) (i j : Fin c.n) :
    (localMatrix (· + ·) (matrixCellOf c)).entry (i.val, j.val) = cellMatrix c.geo c.m.lambda c.m.mu i j := by
  simp only [localMatrix]
  rw [if_pos (by simp [matrixCellOf])]
  change total (· + ·) ((List.range c.nq).map fun q => (matrixCellOf c).term i j q) = _
  rw [total_range]
  unfold cellMatrix
  refine Finset.sum_congr rfl fun q _ => ?_
  simp only [matrixCellOf]
  rw [dif_pos ⟨i.isLt, j.isLt, q.isLt⟩]

theorem copyMatrix_cell (h : Hanging (Fin N)) (A : Fin N → Fin N → ℝ) (c : SolidCell d (Fin N)) (hc : c.fe = 0) :
    copyMatrix h A (localMatrix (· + ·) (matrixCellOf c)) = addCellMatrix h A c := by
  funext g g'
  unfold copyMatrix addCellMatrix
  rw [if_pos hc]
  congr 1
  have hd : (localMatrix (· + ·) (matrixCellOf c)).dofs = (List.finRange c.n).map fun i => (c.dof i).val := rfl
  have he := entry_matrix c
  generalize (localMatrix (· + ·) (matrixCellOf c)) = cd at hd he ⊢
  obtain ⟨E, l⟩ := cd
  simp only at hd he ⊢
  subst hd
  rw [sum_dofs c.n c.dof (fun x i => ∑ j : Fin ((List.finRange c.n).map fun i => (c.dof i).val).length,
    coefAt h x g * E (i, j) * coefAt h (((List.finRange c.n).map fun i => (c.dof i).val).get j) g')]
  refine Finset.sum_congr rfl fun i _ => ?_
  rw [sum_dofs c.n c.dof (fun x j => coefAt h (c.dof i).val g * E (i, j) * coefAt h x g')]
  refine Finset.sum_congr rfl fun j _ => ?_
  rw [coefAt_dof, coefAt_dof, he]

theorem entry_load (T : ℕ → ℝ) (c : SolidCell d (Fin N)) (thermalDofs : List ℕ) (shape : ℕ → ℕ → ℝ) (reference : ℝ)
    (hdT : ∀ q : Fin c.nq, c.dT q = -reference + (thermalDofs.mapIdx fun j n => shape q j * T n).sum) (i : Fin c.n) :
    (localLoad (· + ·) T (loadCellOf c thermalDofs shape reference)).entry i = thermalLoad c.geo c.m.lambda c.m.mu c.alpha c.dT i := by
  simp only [localLoad]
  rw [if_pos (by simp [loadCellOf])]
  change total (· + ·) ((List.range c.nq).map fun q => (loadCellOf c thermalDofs shape reference).divergence q i * (_ * _)) = _
  rw [total_range]
  unfold thermalLoad
  refine Finset.sum_congr rfl fun q _ => ?_
  simp only [loadCellOf, temperatureIncrease]
  rw [dif_pos ⟨q.isLt, i.isLt⟩, trace_gradShape, hdT]
  ring

theorem copyVector_cell (h : Hanging (Fin N)) (r : Fin N → ℝ) (T : ℕ → ℝ) (c : SolidCell d (Fin N)) (thermalDofs : List ℕ)
    (shape : ℕ → ℕ → ℝ) (reference : ℝ)
    (hdT : ∀ q : Fin c.nq, c.dT q = -reference + (thermalDofs.mapIdx fun j n => shape q j * T n).sum) :
    copyVector h r (localLoad (· + ·) T (loadCellOf c thermalDofs shape reference)) =
      h.distribute c.dof (thermalLoad c.geo c.m.lambda c.m.mu c.alpha c.dT) r := by
  funext g
  unfold copyVector Hanging.distribute
  congr 1
  have hd : (localLoad (· + ·) T (loadCellOf c thermalDofs shape reference)).dofs = (List.finRange c.n).map fun i => (c.dof i).val := rfl
  have he := entry_load T c thermalDofs shape reference hdT
  generalize (localLoad (· + ·) T (loadCellOf c thermalDofs shape reference)) = cd at hd he ⊢
  obtain ⟨E, l⟩ := cd
  simp only at hd he ⊢
  subst hd
  rw [sum_dofs c.n c.dof (fun x i => coefAt h x g * E i)]
  refine Finset.sum_congr rfl fun i _ => ?_
  rw [coefAt_dof, he]

/-- The loops visit the cells with finite-element index 0 (`MechanicalOperator.cc:262-270`, `:423-431`). -/
theorem foldl_solid {A : Type} (f : A → SolidCell d (Fin N) → A) (cells : List (SolidCell d (Fin N))) (a : A) :
    (solidCells cells).foldl f a = cells.foldl (fun a c => if c.fe = 0 then f a c else a) a := by
  induction cells generalizing a with
  | nil => rfl
  | cons c cs ih =>
    unfold solidCells at *
    by_cases hc : c.fe = 0
    · rw [List.filter_cons, if_pos (by simpa using hc), List.foldl_cons, List.foldl_cons, if_pos hc, ih]
    · rw [List.filter_cons, if_neg (by simpa using hc), List.foldl_cons, if_neg hc, ih]

/-- **C141**, the system matrix: for every mesh, every constraints and every schedule of the workers, the matrix that `assemble_matrix` leaves
when the loop returns is the system matrix of C111 to C113. -/
theorem C141_system_matrix (h : Hanging (Fin N)) (diag : Fin N → ℝ) (cells : List (SolidCell d (Fin N))) (b : ℕ → ℕ)
    (schedule : List (Move (ℕ × ℕ)))
    (hr : Returned (execute (· + ·) (copyMatrix h)
      (before ((solidCells cells).map fun c => matrixWork (matrixCellOf c)) b fun _ _ => 0) schedule)) (g g' : Fin N) :
    (execute (· + ·) (copyMatrix h) (before ((solidCells cells).map fun c => matrixWork (matrixCellOf c)) b fun _ _ => 0) schedule).result g g' +
      (if g = g' ∧ h.constrained g = true then diag g else 0) = systemMatrix h diag cells g g' := by
  have := C141_matrix (· + ·) (copyMatrix h) ((solidCells cells).map matrixCellOf) b (fun _ _ => 0) schedule
  rw [List.map_map] at this
  have := this hr
  unfold systemMatrix
  congr 1
  refine (congrFun (congrFun this g) g').trans ?_
  rw [List.map_map, List.foldl_map]
  have h2 : cells.foldl (addCellMatrix h) (fun _ _ => 0) = (solidCells cells).foldl (addCellMatrix h) fun _ _ => 0 := by
    rw [foldl_solid]
    congr 1
    funext A c
    unfold addCellMatrix
    split_ifs <;> rfl
  rw [h2]
  have h3 : ∀ (l : List (SolidCell d (Fin N))) (A : Fin N → Fin N → ℝ), (∀ c ∈ l, c.fe = 0) →
      l.foldl (fun A c => copyMatrix h A ((localMatrix (· + ·) ∘ matrixCellOf) c)) A = l.foldl (addCellMatrix h) A := by
    intro l
    induction l with
    | nil => intro A _; rfl
    | cons c l ih =>
      intro A hl
      rw [List.foldl_cons, List.foldl_cons, Function.comp_apply, copyMatrix_cell h A c (hl c List.mem_cons_self)]
      exact ih _ fun c' hc' => hl c' (List.mem_cons_of_mem _ hc')
  rw [h3 _ _ fun c hc => by simpa using (List.mem_filter.1 hc).2]

/-- **C141**, the thermal load: with the temperature at the quadrature points interpolated from the temperatures of the cell, the vector that
`assemble_rhs` leaves is the right-hand side of C111 to C113, under every schedule in which no worker overwrites a dof number another
one has still to read. -/
theorem C141_system_load_partial (h : Hanging (Fin N)) (T : ℕ → ℝ) (cells : List (SolidCell d (Fin N))) (thermalDofs : SolidCell d (Fin N) → List ℕ)
    (shape : SolidCell d (Fin N) → ℕ → ℕ → ℝ) (reference : SolidCell d (Fin N) → ℝ) (b : ℕ → ℕ) (schedule : List (Move ℕ))
    (hdT : ∀ c ∈ cells, ∀ q : Fin c.nq, c.dT q = -reference c + ((thermalDofs c).mapIdx fun j n => shape c q j * T n).sum)
    (hq : NoOverwriting (· + ·) (copyVector h)
      (before ((solidCells cells).map fun c => loadWork T (loadCellOf c (thermalDofs c) (shape c) (reference c))) b fun _ => 0) schedule)
    (hr : Returned (execute (· + ·) (copyVector h)
      (before ((solidCells cells).map fun c => loadWork T (loadCellOf c (thermalDofs c) (shape c) (reference c))) b fun _ => 0) schedule)) :
    (execute (· + ·) (copyVector h)
      (before ((solidCells cells).map fun c => loadWork T (loadCellOf c (thermalDofs c) (shape c) (reference c))) b fun _ => 0) schedule).result =
      systemRhs h true [] cells := by
  have := C141_load_partial (· + ·) (copyVector h) T
    ((solidCells cells).map fun c => loadCellOf c (thermalDofs c) (shape c) (reference c)) b (fun _ => 0) schedule
  rw [List.map_map] at this
  refine (this hq hr).trans ?_
  unfold systemRhs
  simp only [if_true, List.length_nil, ne_eq, not_true_eq_false, if_false]
  rw [List.map_map, List.foldl_map, ← foldl_solid]
  have h3 : ∀ (l : List (SolidCell d (Fin N))) (r : Fin N → ℝ), (∀ c ∈ l, c ∈ cells) →
      l.foldl (fun r c => copyVector h r ((localLoad (· + ·) T ∘ fun c => loadCellOf c (thermalDofs c) (shape c) (reference c)) c)) r =
        l.foldl (fun r c => h.distribute c.dof (thermalLoad c.geo c.m.lambda c.m.mu c.alpha c.dT) r) r := by
    intro l
    induction l with
    | nil => intro r _; rfl
    | cons c l ih =>
      intro r hl
      rw [List.foldl_cons, List.foldl_cons, Function.comp_apply,
        copyVector_cell h r T c _ _ _ (hdT c (hl c List.mem_cons_self))]
      exact ih _ fun c' hc' => hl c' (List.mem_cons_of_mem _ hc')
  exact h3 _ _ fun c hc => (List.mem_filter.1 hc).1

/-- The hypotheses about the schedule are met, whatever the cells. -/
example (h : Hanging (Fin N)) (T : ℕ → ℝ) (cells : List (SolidCell d (Fin N))) (thermalDofs : SolidCell d (Fin N) → List ℕ)
    (shape : SolidCell d (Fin N) → ℕ → ℕ → ℝ) (reference : SolidCell d (Fin N) → ℝ) (b : ℕ → ℕ) : ∃ schedule,
    NoOverwriting (· + ·) (copyVector h)
      (before ((solidCells cells).map fun c => loadWork T (loadCellOf c (thermalDofs c) (shape c) (reference c))) b fun _ => 0) schedule ∧
    Returned (execute (· + ·) (copyVector h)
      (before ((solidCells cells).map fun c => loadWork T (loadCellOf c (thermalDofs c) (shape c) (reference c))) b fun _ => 0) schedule) := by
  obtain ⟨l, h1, h2⟩ := exists_alone (· + ·) (copyVector h)
    ((solidCells cells).map fun c => loadWork T (loadCellOf c (thermalDofs c) (shape c) (reference c))) b fun _ => 0
  exact ⟨l, noOverwriting_of_one _ _ _ _ h2, h1⟩

end Verif.Mechanics.MeshLoop
