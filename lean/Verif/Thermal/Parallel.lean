import Verif.Thermal.Stages
import Verif.Thermal.Energy
import Mathlib.Tactic.FinCases

/-!
# C127: the temperatures do not depend on the number of processes

`vmult_add`, `compute_inverse_mass_matrix` (`source/ThermalOperator.templates.hh:122-223`), `evaluate_thermal_physics_impl` and
`evolve_one_time_step` (`source/ThermalPhysics.templates.hh:48-124`, `:859-888`) on several processes.  The vectors are
`dealii::LinearAlgebra::distributed::Vector`: every process stores the entries it owns and copies (ghosts) of some others.  By the
documented contract of deal.II, `MatrixFree::loop` and `cell_loop` first fetch the ghost entries of the source from their owners, run
the local work on the cells and faces of the process, and then send what was written to ghost entries of the destination to their
owners, where it is added.  All other vector operations (`sadd`, `scale`, linear combinations of stages) act on each process alone.

A distributed vector is a function on pairs of a process and a degree of freedom; what is stored for a degree of freedom that the
process neither owns nor has a copy of, and for ghosts outside a loop, is arbitrary.
-/

namespace Verif.Assembly

open Verif.Material Verif.Input
open Verif.Thermal (Method)

variable {ι : Type*} [Fintype ι] [DecidableEq ι] {R : Type*} [Fintype R] [DecidableEq R]

/-! ## Model -/

/-- How a mesh is distributed over the processes `R`: `owner` of every degree of freedom, the ghost `copy`s a process has, and the
process that works on each cell and each face (`dealii::MatrixFree` assigns every face to one process). -/
structure Layout (m : PMesh ι) (R : Type*) where
  owner : ι → R
  copy : R → ι → Bool
  home : Fin m.nc → R
  faceHome : Fin m.nf → R

variable {m : PMesh ι}

/-- The process has the entry, as its owner or as a ghost. -/
def Layout.holds (L : Layout m R) (r : R) (g : ι) : Bool := decide (L.owner g = r) || L.copy r g

/-- `update_ghost_values` (start of a loop): the ghosts are fetched from the owners. -/
def Layout.fetch (L : Layout m R) (Y : R × ι → ℝ) (r : R) (g : ι) : ℝ :=
  if L.holds r g then Y (L.owner g, g) else Y (r, g)

/-- `compress(VectorOperation::add)` (end of a loop): the owner receives the sum of what the processes have written; ghosts are set
to zero. -/
def Layout.compress (L : Layout m R) (D : R → ι → ℝ) (p : R × ι) : ℝ :=
  if L.owner p.2 = p.1 then ∑ r, (if L.holds r p.2 then D r p.2 else 0) else 0

/-- The cells and faces a process works on. -/
noncomputable def Layout.part (L : Layout m R) (s : PState m) (r : R) : Mesh ι where
  hanging := m.hanging
  cells := ((List.finRange m.nc).filter fun c => decide (L.home c = r)).map fun c => (m.cells c).withPowder m.kind (s.powder c)
  faces := ((List.finRange m.nf).filter fun f => decide (L.faceHome f = r)).map
    fun f => (m.faces f).withPowder m.kind (s.facePowder f)
  types := m.types

/-- The local work of `vmult_add`, `source/ThermalOperator.templates.hh:197-213`. -/
noncomputable def Mesh.work (m : Mesh ι) (beams : List Beam) (y dst : ι → ℝ) : ι → ℝ :=
  let dst1 := m.cells.foldl (cellApply m.hanging beams y) dst;
  if adiabaticOnly m.types then dst1 else m.faces.foldl (faceApply m.types m.hanging y) dst1

/-- `vmult_add` on all processes, `source/ThermalOperator.templates.hh:186-223`: `get_constrained_dofs` lists the constrained degrees
of freedom that the process owns. -/
noncomputable def Layout.vmultAdd (L : Layout m R) (s : PState m) (beams : List Beam) (D Y : R × ι → ℝ) (p : R × ι) : ℝ :=
  let v := L.compress (fun r => (L.part s r).work beams (L.fetch Y r) fun g => D (r, g)) p;
  if L.owner p.2 = p.1 ∧ m.hanging.constrained p.2 then v + 1 * Y p else v

/-- `compute_inverse_mass_matrix` on all processes, `source/ThermalOperator.templates.hh:122-170`. -/
noncomputable def Layout.invMass (L : Layout m R) (s : PState m) (p : R × ι) : ℝ :=
  let v := L.compress (fun r => (L.part s r).cells.foldl (massApply m.hanging (L.fetch (fun _ => 1) r)) fun _ => 0) p;
  1 / (if L.owner p.2 = p.1 ∧ m.hanging.constrained p.2 then v + 1 else v)

/-- The state ratios after a loop: each process updates those of its own cells and faces with the temperatures it reads. -/
noncomputable def Layout.after (L : Layout m R) (s : PState m) (Y : R × ι → ℝ) : PState m where
  liquid c := (m.after s (L.fetch Y (L.home c))).liquid c
  powder c := (m.after s (L.fetch Y (L.home c))).powder c
  facePowder f := (m.after s (L.fetch Y (L.faceHome f))).facePowder f

/-- `evaluate_thermal_physics_impl` on all processes. -/
noncomputable def Layout.eval (L : Layout m R) (beams : ℝ → List Beam) (s : PState m) (t : ℝ) (Y : R × ι → ℝ) :
    (R × ι → ℝ) × PState m :=
  (fun p => L.vmultAdd s (beams t) (fun _ => 0) Y p * L.invMass s p, L.after s Y)

/-- Stages of an explicit Runge-Kutta method, as `PMesh.stages`. -/
noncomputable def Layout.stages (L : Layout m R) (beams : ℝ → List Beam) (dt t : ℝ) (Y : R × ι → ℝ) :
    List (ℝ × List ℝ) → List (R × ι → ℝ) → PState m → List (R × ι → ℝ) × PState m
  | [], ks, s => (ks, s)
  | (c, a) :: rows, ks, s =>
    let r := L.eval beams s (t + c * dt) (fun i => Y i + dt * ((a.zip ks).map fun p => p.1 * p.2 i).sum);
    L.stages beams dt t Y rows (ks ++ [r.1]) r.2

/-- `dealii::TimeStepping::ExplicitRungeKutta::evolve_one_time_step` on all processes. -/
noncomputable def Layout.rungeKutta (L : Layout m R) (beams : ℝ → List Beam) (rows : List (ℝ × List ℝ)) (b : List ℝ) (dt t : ℝ)
    (Y : R × ι → ℝ) (s : PState m) : (R × ι → ℝ) × PState m :=
  let r := L.stages beams dt t Y rows [] s;
  (fun i => Y i + dt * ((b.zip r.1).map fun p => p.1 * p.2 i).sum, r.2)

/-- `evolve_one_time_step` on all processes, `source/ThermalPhysics.templates.hh:859-888`. -/
noncomputable def Layout.evolve (L : Layout m R) (beams : ℝ → List Beam) (meth : Method) (dt t : ℝ) (Y : R × ι → ℝ) (s : PState m) :
    (R × ι → ℝ) × PState m :=
  match meth with
  | .forwardEuler =>
    let r := L.eval beams s t Y;
    (fun i => 1 * Y i + dt * r.1 i, r.2)
  | .rk3 => L.rungeKutta beams Thermal.rk3Rows Thermal.rk3Weights dt t Y s
  | .rk4 => L.rungeKutta beams Thermal.rk4Rows Thermal.rk4Weights dt t Y s

/-- The distributed temperatures and the state after `k` steps from time `t`. -/
noncomputable def Layout.run (L : Layout m R) (beams : ℝ → List Beam) (meth : Method) (dt t : ℝ) (Y : R × ι → ℝ) (s : PState m) :
    ℕ → (R × ι → ℝ) × PState m
  | 0 => (Y, s)
  | k + 1 => L.evolve beams meth dt (t + k * dt) (L.run beams meth dt t Y s k).1 (L.run beams meth dt t Y s k).2

/-- The printed heat input, `source/ThermalPhysics.templates.hh:68-114`: every process sums over its own cells with material, then
`Utilities::MPI::sum`. -/
noncomputable def printedHeatAll (beams : List Beam) (cells : R → List PrintQuad) : ℝ := ∑ r, printedHeat beams (cells r)

/-! ## Specification -/

/-- Every process has the entries that its cells with material and its exposed faces need (the "locally relevant" degrees of
freedom, with those that hanging nodes are interpolated from). -/
structure Layout.Relevant (L : Layout m R) : Prop where
  cells : ∀ c : Fin m.nc, (m.cells c).cell.fe = 0 → ∀ i g, m.hanging.coef ((m.cells c).cell.dof i) g ≠ 0 → L.holds (L.home c) g = true
  faces : ∀ f : Fin m.nf, (m.faces f).face.Exposed →
    ∀ i g, m.hanging.coef ((m.faces f).face.side.dof i) g ≠ 0 → L.holds (L.faceHome f) g = true

/-- The distributed vector `Y` stores the temperatures `y`: the owner of every degree of freedom has its temperature. -/
def Layout.Stores (L : Layout m R) (Y : R × ι → ℝ) (y : ι → ℝ) : Prop := ∀ g, Y (L.owner g, g) = y g

/-! ## Lemmas -/

theorem resolve_congr (h : Hanging ι) (y y' : ι → ℝ) (a : ι) (hy : ∀ g, h.coef a g ≠ 0 → y g = y' g) :
    h.resolve y a = h.resolve y' a := by
  unfold Hanging.resolve
  refine Finset.sum_congr rfl fun g _ => ?_
  by_cases hc : h.coef a g = 0
  · rw [hc]; simp
  · rw [hy g hc]

theorem entry_congr (h : Hanging ι) (beams : List Beam) (y y' : ι → ℝ) (c : Cell ι)
    (hy : ∀ i g, h.coef (c.dof i) g ≠ 0 → y g = y' g) : c.entry h beams y = c.entry h beams y' := by
  have hr : ∀ i, h.resolve y (c.dof i) = h.resolve y' (c.dof i) := fun i => resolve_congr h y y' _ (hy i)
  have hv : c.value h y = c.value h y' := by funext q; simp only [Cell.value, hr]
  have hg : c.gradient h y = c.gradient h y' := by funext q d; simp only [Cell.gradient, hr]
  funext i
  simp only [Cell.entry, Cell.source, Cell.flux, hv, hg]

theorem face_congr (h : Hanging ι) (y y' : ι → ℝ) (f : Face ι)
    (hy : ∀ i g, h.coef (f.side.dof i) g ≠ 0 → y g = y' g) : f.value h y = f.value h y' := by
  funext q
  have hr : ∀ i, h.resolve y (f.side.dof i) = h.resolve y' (f.side.dof i) := fun i => resolve_congr h y y' _ (hy i)
  simp only [Face.value, hr]

/-- What a face adds. -/
noncomputable def Face.adds (f : Face ι) (types : List ℕ) (h : Hanging ι) (y : ι → ℝ) (g : ι) : ℝ :=
  if f.Exposed then ∑ i, h.coef (f.side.dof i) g * ∑ q, f.submitted types h y q * f.side.shape i q * f.jxw q else 0

theorem faceApply_raw (types : List ℕ) (h : Hanging ι) (y dst : ι → ℝ) (f : Face ι) (g : ι) :
    faceApply types h y dst f g = dst g + f.adds types h y g := by
  unfold faceApply Face.adds
  by_cases h1 : some f.fe1 = f.fe2
  · rw [if_pos h1, if_neg (fun hf => ((exposed_iff f).1 hf).1 h1), add_zero]
  · rw [if_neg h1]
    by_cases h2 : f.fe1 ≠ 0 ∧ f.fe2 ≠ some 0
    · rw [if_pos h2, if_neg (fun hf => ((exposed_iff f).1 hf).2 h2), add_zero]
    · rw [if_neg h2, if_pos ((exposed_iff f).2 ⟨h1, h2⟩), Hanging.distribute]

/-- What a cell adds. -/
noncomputable def Cell.adds (c : Cell ι) (h : Hanging ι) (beams : List Beam) (y : ι → ℝ) (g : ι) : ℝ :=
  if c.fe = 0 then ∑ i, h.coef (c.dof i) g * c.entry h beams y i else 0

/-- What a cell adds to the mass. -/
def Cell.addsMass (c : Cell ι) (h : Hanging ι) (y : ι → ℝ) (g : ι) : ℝ :=
  if c.fe = 0 then
    ∑ i, h.coef (c.dof i) g * ∑ q, (∑ j, c.mshape j q * h.resolve y (c.dof j)) * c.mshape i q * c.mjxw q else 0

theorem massApply_raw (h : Hanging ι) (y dst : ι → ℝ) (c : Cell ι) (g : ι) :
    massApply h y dst c g = dst g + c.addsMass h y g := by
  unfold massApply Cell.addsMass
  by_cases h1 : c.fe = 0
  · rw [if_pos h1, if_pos h1, Hanging.distribute]
  · rw [if_neg h1, if_neg h1, add_zero]

theorem sum_filter_finRange (n : ℕ) (P : Fin n → Bool) (φ : Fin n → ℝ) :
    (((List.finRange n).filter P).map φ).sum = ∑ c, if P c then φ c else 0 := by
  have : ∀ l : List (Fin n), ((l.filter P).map φ).sum = (l.map fun c => if P c then φ c else 0).sum := by
    intro l
    induction l with
    | nil => simp
    | cons a l ih => by_cases h : P a <;> simp [h, ih]
  rw [this, ← List.ofFn_eq_map, List.sum_ofFn]

theorem work_eq (M : Mesh ι) (beams : List Beam) (y dst : ι → ℝ) (g : ι) :
    M.work beams y dst g = dst g + (M.cells.map fun c => c.adds M.hanging beams y g).sum +
      (if adiabaticOnly M.types then 0 else (M.faces.map fun f => f.adds M.types M.hanging y g).sum) := by
  have hc := foldl_add (cellApply M.hanging beams y) (fun c g => c.adds M.hanging beams y g)
    (fun d c g => cellApply_add M.hanging beams y d c g) M.cells
  have hf := foldl_add (faceApply M.types M.hanging y) (fun f g => f.adds M.types M.hanging y g)
    (fun d f g => faceApply_raw M.types M.hanging y d f g) M.faces
  unfold Mesh.work
  by_cases ha : adiabaticOnly M.types = true
  · simp only [if_pos ha, hc, add_zero]
  · simp only [if_neg ha, hf, hc]

theorem vmultAdd_work (M : Mesh ι) (beams : List Beam) (dst y : ι → ℝ) (g : ι) :
    M.vmultAdd beams dst y g = (if M.hanging.constrained g then M.work beams y dst g + 1 * y g else M.work beams y dst g) := rfl

theorem fetch_stores (L : Layout m R) {Y : R × ι → ℝ} {y : ι → ℝ} (h : L.Stores Y y) (r : R) (g : ι)
    (hr : L.holds r g = true) : L.fetch Y r g = y g := by
  rw [Layout.fetch, if_pos hr, h g]

theorem cell_local (L : Layout m R) (hL : L.Relevant) {Y : R × ι → ℝ} {y : ι → ℝ} (h : L.Stores Y y) (c : Fin m.nc)
    (hc : (m.cells c).cell.fe = 0) (i : Fin (m.cells c).cell.n) (g : ι) (hg : m.hanging.coef ((m.cells c).cell.dof i) g ≠ 0) :
    L.fetch Y (L.home c) g = y g := fetch_stores L h _ g (hL.cells c hc i g hg)

theorem face_local (L : Layout m R) (hL : L.Relevant) {Y : R × ι → ℝ} {y : ι → ℝ} (h : L.Stores Y y) (f : Fin m.nf)
    (hf : (m.faces f).face.Exposed) (i : Fin (m.faces f).face.side.n) (g : ι)
    (hg : m.hanging.coef ((m.faces f).face.side.dof i) g ≠ 0) : L.fetch Y (L.faceHome f) g = y g :=
  fetch_stores L h _ g (hL.faces f hf i g hg)

/-- Summing what the processes hold of `g` over the processes is summing over all cells. -/
theorem sum_parts {n : ℕ} (home : Fin n → R) (holds : R → Bool) (φ : R → Fin n → ℝ) (ψ : Fin n → ℝ)
    (h : ∀ c, φ (home c) c = ψ c) (h0 : ∀ c, holds (home c) = false → ψ c = 0) :
    ∑ r, (if holds r then ∑ c, (if home c = r then φ r c else 0) else 0) = ∑ c, ψ c := by
  have e : ∀ r, (if holds r then ∑ c, (if home c = r then φ r c else 0) else 0) = ∑ c, (if home c = r then ψ c else 0) := by
    intro r
    by_cases hr : holds r = true
    · rw [if_pos hr]
      refine Finset.sum_congr rfl fun c _ => ?_
      by_cases hc : home c = r
      · rw [if_pos hc, if_pos hc, ← hc, h]
      · rw [if_neg hc, if_neg hc]
    · rw [if_neg hr]
      symm
      refine Finset.sum_eq_zero fun c _ => ?_
      by_cases hc : home c = r
      · rw [if_pos hc, h0 c (by rw [hc]; simpa using hr)]
      · rw [if_neg hc]
  simp only [e]
  rw [Finset.sum_comm]
  simp

theorem part_cells (L : Layout m R) (s : PState m) (r : R) (φ : Cell ι → ℝ) :
    ((L.part s r).cells.map φ).sum = ∑ c, if L.home c = r then φ ((m.cells c).withPowder m.kind (s.powder c)) else 0 := by
  have := sum_filter_finRange m.nc (fun c => decide (L.home c = r)) fun c => φ ((m.cells c).withPowder m.kind (s.powder c))
  simp only [decide_eq_true_eq] at this
  rw [← this]
  simp only [Layout.part, List.map_map, Function.comp_def]

theorem part_faces (L : Layout m R) (s : PState m) (r : R) (φ : Face ι → ℝ) :
    ((L.part s r).faces.map φ).sum = ∑ f, if L.faceHome f = r then φ ((m.faces f).withPowder m.kind (s.facePowder f)) else 0 := by
  have := sum_filter_finRange m.nf (fun f => decide (L.faceHome f = r)) fun f => φ ((m.faces f).withPowder m.kind (s.facePowder f))
  simp only [decide_eq_true_eq] at this
  rw [← this]
  simp only [Layout.part, List.map_map, Function.comp_def]

theorem compress_owner (L : Layout m R) (D : R → ι → ℝ) (g : ι) :
    L.compress D (L.owner g, g) = ∑ r, (if L.holds r g then D r g else 0) := by
  simp [Layout.compress]

theorem work_owner (L : Layout m R) (hL : L.Relevant) (s : PState m) (beams : List Beam) {Y : R × ι → ℝ} {y : ι → ℝ}
    (h : L.Stores Y y) (g : ι) :
    L.compress (fun r => (L.part s r).work beams (L.fetch Y r) fun _ => 0) (L.owner g, g) =
      (m.frozen s).work beams y (fun _ => 0) g := by
  rw [compress_owner, work_eq]
  simp only [work_eq]
  have hM : (m.frozen s).cells.map (fun c => c.adds (m.frozen s).hanging beams y g) =
      List.ofFn fun c => ((m.cells c).withPowder m.kind (s.powder c)).adds m.hanging beams y g := by
    simp [PMesh.frozen, List.map_ofFn, Function.comp_def]
  have hF : (m.frozen s).faces.map (fun f => f.adds (m.frozen s).types (m.frozen s).hanging y g) =
      List.ofFn fun f => ((m.faces f).withPowder m.kind (s.facePowder f)).adds m.types m.hanging y g := by
    simp [PMesh.frozen, List.map_ofFn, Function.comp_def]
  rw [hM, hF, List.sum_ofFn, List.sum_ofFn]
  have h1 := sum_parts L.home (fun r => L.holds r g)
    (fun r c => ((m.cells c).withPowder m.kind (s.powder c)).adds m.hanging beams (L.fetch Y r) g)
    (fun c => ((m.cells c).withPowder m.kind (s.powder c)).adds m.hanging beams y g)
    (fun c => by
      unfold Cell.adds
      by_cases hc : (m.cells c).cell.fe = 0
      · rw [entry_congr m.hanging beams (L.fetch Y (L.home c)) y ((m.cells c).withPowder m.kind (s.powder c)) (cell_local L hL h c hc)]
      · rw [if_neg (show ¬ ((m.cells c).withPowder m.kind (s.powder c)).fe = 0 from hc), if_neg (show ¬ ((m.cells c).withPowder m.kind (s.powder c)).fe = 0 from hc)])
    (fun c hh => by
      unfold Cell.adds
      by_cases hc : (m.cells c).cell.fe = 0
      · rw [if_pos (show ((m.cells c).withPowder m.kind (s.powder c)).fe = 0 from hc)]
        refine Finset.sum_eq_zero fun i _ => ?_
        have : m.hanging.coef ((m.cells c).cell.dof i) g = 0 := by
          by_contra hne
          rw [hL.cells c hc i g hne] at hh
          exact absurd hh (by decide)
        rw [show ((m.cells c).withPowder m.kind (s.powder c)).dof i = (m.cells c).cell.dof i from rfl, this, zero_mul]
      · rw [if_neg (show ¬ ((m.cells c).withPowder m.kind (s.powder c)).fe = 0 from hc)])
  have h2 := sum_parts L.faceHome (fun r => L.holds r g)
    (fun r f => ((m.faces f).withPowder m.kind (s.facePowder f)).adds m.types m.hanging (L.fetch Y r) g)
    (fun f => ((m.faces f).withPowder m.kind (s.facePowder f)).adds m.types m.hanging y g)
    (fun f => by
      unfold Face.adds
      by_cases hf : (m.faces f).face.Exposed
      · have := face_congr m.hanging (L.fetch Y (L.faceHome f)) y ((m.faces f).withPowder m.kind (s.facePowder f))
          (face_local L hL h f hf)
        simp only [Face.submitted, this]
      · rw [if_neg (show ¬ ((m.faces f).withPowder m.kind (s.facePowder f)).Exposed from hf),
          if_neg (show ¬ ((m.faces f).withPowder m.kind (s.facePowder f)).Exposed from hf)])
    (fun f hh => by
      unfold Face.adds
      by_cases hf : (m.faces f).face.Exposed
      · rw [if_pos (show ((m.faces f).withPowder m.kind (s.facePowder f)).Exposed from hf)]
        refine Finset.sum_eq_zero fun i _ => ?_
        have : m.hanging.coef ((m.faces f).face.side.dof i) g = 0 := by
          by_contra hne
          rw [hL.faces f hf i g hne] at hh
          exact absurd hh (by decide)
        rw [show ((m.faces f).withPowder m.kind (s.facePowder f)).side.dof i = (m.faces f).face.side.dof i from rfl, this, zero_mul]
      · rw [if_neg (show ¬ ((m.faces f).withPowder m.kind (s.facePowder f)).Exposed from hf)])
  rw [← h1, ← h2]
  have ht : (m.frozen s).types = m.types := rfl
  rw [ht]
  by_cases ha : adiabaticOnly m.types = true
  · rw [if_pos ha, add_zero, zero_add]
    refine Finset.sum_congr rfl fun r _ => ?_
    have e1 : (L.part s r).types = m.types := rfl
    have e2 : (L.part s r).hanging = m.hanging := rfl
    rw [e1, e2, if_pos ha, part_cells, zero_add, add_zero]
  · rw [if_neg ha, zero_add, ← Finset.sum_add_distrib]
    refine Finset.sum_congr rfl fun r _ => ?_
    have e1 : (L.part s r).types = m.types := rfl
    have e2 : (L.part s r).hanging = m.hanging := rfl
    rw [e1, e2, if_neg ha, part_cells, part_faces, zero_add]
    by_cases hr : L.holds r g = true
    · simp only [if_pos hr]
    · simp only [if_neg hr, add_zero]

theorem stores_one (L : Layout m R) : L.Stores (fun _ => 1) fun _ => 1 := fun _ => rfl

theorem mass_owner (L : Layout m R) (hL : L.Relevant) (s : PState m) (g : ι) :
    L.compress (fun r => (L.part s r).cells.foldl (massApply m.hanging (L.fetch (fun _ => 1) r)) fun _ => 0) (L.owner g, g) =
      (m.frozen s).cells.foldl (massApply m.hanging fun _ => 1) (fun _ => 0) g := by
  have hm : ∀ (y : ι → ℝ) (l : List (Cell ι)), l.foldl (massApply m.hanging y) (fun _ => 0) g =
      (l.map fun c => c.addsMass m.hanging y g).sum := by
    intro y l
    have := foldl_add (massApply m.hanging y) (fun c g => c.addsMass m.hanging y g)
      (fun d c g => massApply_raw m.hanging y d c g) l (fun _ => 0) g
    rw [this, zero_add]
  rw [compress_owner]
  simp only [hm, part_cells]
  have hM : (m.frozen s).cells.map (fun c => c.addsMass m.hanging (fun _ => 1) g) =
      List.ofFn fun c => ((m.cells c).withPowder m.kind (s.powder c)).addsMass m.hanging (fun _ => 1) g := by
    simp [PMesh.frozen, List.map_ofFn, Function.comp_def]
  rw [hM, List.sum_ofFn]
  refine sum_parts L.home (fun r => L.holds r g)
    (fun r c => ((m.cells c).withPowder m.kind (s.powder c)).addsMass m.hanging (L.fetch (fun _ => 1) r) g)
    (fun c => ((m.cells c).withPowder m.kind (s.powder c)).addsMass m.hanging (fun _ => 1) g) (fun c => ?_) (fun c hh => ?_)
  · have : L.fetch (fun _ => (1 : ℝ)) (L.home c) = fun _ => 1 := by
      funext g
      unfold Layout.fetch
      split <;> rfl
    rw [this]
  · unfold Cell.addsMass
    by_cases hc : (m.cells c).cell.fe = 0
    · rw [if_pos (show ((m.cells c).withPowder m.kind (s.powder c)).fe = 0 from hc)]
      refine Finset.sum_eq_zero fun i _ => ?_
      have : m.hanging.coef ((m.cells c).cell.dof i) g = 0 := by
        by_contra hne
        rw [hL.cells c hc i g hne] at hh
        exact absurd hh (by decide)
      rw [show ((m.cells c).withPowder m.kind (s.powder c)).dof i = (m.cells c).cell.dof i from rfl, this, zero_mul]
    · rw [if_neg (show ¬ ((m.cells c).withPowder m.kind (s.powder c)).fe = 0 from hc)]

theorem invMass_owner (L : Layout m R) (hL : L.Relevant) (s : PState m) (g : ι) :
    L.invMass s (L.owner g, g) = (m.frozen s).invMass g := by
  unfold Layout.invMass Mesh.invMass Mesh.mass
  simp only [mass_owner L hL s g, true_and]
  rfl

theorem vmultAdd_owner (L : Layout m R) (hL : L.Relevant) (s : PState m) (beams : List Beam) {Y : R × ι → ℝ} {y : ι → ℝ}
    (h : L.Stores Y y) (g : ι) :
    L.vmultAdd s beams (fun _ => 0) Y (L.owner g, g) = (m.frozen s).vmultAdd beams (fun _ => 0) y g := by
  unfold Layout.vmultAdd
  rw [vmultAdd_work]
  simp only [work_owner L hL s beams h g, true_and, h g]
  rfl

theorem after_eq (L : Layout m R) (hL : L.Relevant) (s : PState m) {Y : R × ι → ℝ} {y : ι → ℝ} (h : L.Stores Y y) :
    L.after s Y = m.after s y := by
  have hv : ∀ c : Fin m.nc, (m.cells c).cell.fe = 0 →
      (m.cells c).cell.value m.hanging (L.fetch Y (L.home c)) = (m.cells c).cell.value m.hanging y := by
    intro c hc
    funext q
    have hr : ∀ i, m.hanging.resolve (L.fetch Y (L.home c)) ((m.cells c).cell.dof i) = m.hanging.resolve y ((m.cells c).cell.dof i) :=
      fun i => resolve_congr m.hanging _ y _ (cell_local L hL h c hc i)
    simp only [Cell.value, hr]
  have hf : ∀ f : Fin m.nf, m.visits (m.faces f).face = true →
      (m.faces f).face.value m.hanging (L.fetch Y (L.faceHome f)) = (m.faces f).face.value m.hanging y := by
    intro f hf
    exact face_congr m.hanging _ y _ (face_local L hL h f ((visits_iff m _).1 hf).1)
  unfold Layout.after PMesh.after
  congr 1
  · funext c q
    dsimp only
    by_cases hc : (m.cells c).cell.fe = 0
    · rw [if_pos hc, if_pos hc, hv c hc]
    · rw [if_neg hc, if_neg hc]
  · funext c q
    dsimp only
    by_cases hc : (m.cells c).cell.fe = 0
    · rw [if_pos hc, if_pos hc, hv c hc]
    · rw [if_neg hc, if_neg hc]
  · funext f q
    dsimp only
    by_cases hc : m.visits (m.faces f).face = true
    · rw [if_pos hc, if_pos hc, hf f hc]
    · rw [if_neg hc, if_neg hc]

theorem eval_stores (L : Layout m R) (hL : L.Relevant) (beams : ℝ → List Beam) (s : PState m) (t : ℝ) {Y : R × ι → ℝ} {y : ι → ℝ}
    (h : L.Stores Y y) : L.Stores (L.eval beams s t Y).1 (m.eval beams s t y).1 ∧ (L.eval beams s t Y).2 = (m.eval beams s t y).2 := by
  refine ⟨fun g => ?_, after_eq L hL s h⟩
  unfold Layout.eval PMesh.eval Mesh.evaluate
  simp only [vmultAdd_owner L hL s (beams t) h g, invMass_owner L hL s g]

theorem combine_stores (L : Layout m R) {Y : R × ι → ℝ} {y : ι → ℝ} (h : L.Stores Y y) (dt : ℝ) (a : List ℝ)
    {Ks : List (R × ι → ℝ)} {ks : List (ι → ℝ)} (hk : List.Forall₂ L.Stores Ks ks) :
    L.Stores (fun i => Y i + dt * ((a.zip Ks).map fun p => p.1 * p.2 i).sum)
      (fun i => y i + dt * ((a.zip ks).map fun p => p.1 * p.2 i).sum) := by
  intro g
  have e : ((a.zip Ks).map fun p => p.1 * p.2 (L.owner g, g)).sum = ((a.zip ks).map fun p => p.1 * p.2 g).sum := by
    induction hk generalizing a with
    | nil => simp
    | cons hab _ ih =>
      cases a with
      | nil => simp
      | cons x a => simp only [List.zip_cons_cons, List.map_cons, List.sum_cons, hab g, ih a]
  simp only [h g, e]

theorem stages_stores (L : Layout m R) (hL : L.Relevant) (beams : ℝ → List Beam) (dt t : ℝ) {Y : R × ι → ℝ} {y : ι → ℝ}
    (h : L.Stores Y y) (rows : List (ℝ × List ℝ)) : ∀ {Ks : List (R × ι → ℝ)} {ks : List (ι → ℝ)} (s : PState m),
    List.Forall₂ L.Stores Ks ks →
    List.Forall₂ L.Stores (L.stages beams dt t Y rows Ks s).1 (m.stages beams dt t y rows ks s).1 ∧
      (L.stages beams dt t Y rows Ks s).2 = (m.stages beams dt t y rows ks s).2 := by
  induction rows with
  | nil => intro Ks ks s hk; exact ⟨hk, rfl⟩
  | cons r rows ih =>
    intro Ks ks s hk
    obtain ⟨c, a⟩ := r
    obtain ⟨h1, h2⟩ := eval_stores L hL beams s (t + c * dt) (combine_stores L h dt a hk)
    unfold Layout.stages PMesh.stages
    dsimp only
    rw [h2]
    exact ih _ (List.rel_append hk (List.Forall₂.cons h1 List.Forall₂.nil))

theorem evolve_stores (L : Layout m R) (hL : L.Relevant) (beams : ℝ → List Beam) (meth : Method) (dt t : ℝ) {Y : R × ι → ℝ}
    {y : ι → ℝ} (h : L.Stores Y y) (s : PState m) :
    L.Stores (L.evolve beams meth dt t Y s).1 (m.evolve beams meth dt t y s).1 ∧
      (L.evolve beams meth dt t Y s).2 = (m.evolve beams meth dt t y s).2 := by
  have hrk : ∀ rows b, L.Stores (L.rungeKutta beams rows b dt t Y s).1 (m.rungeKutta beams rows b dt t y s).1 ∧
      (L.rungeKutta beams rows b dt t Y s).2 = (m.rungeKutta beams rows b dt t y s).2 := by
    intro rows b
    obtain ⟨h1, h2⟩ := stages_stores L hL beams dt t h rows s List.Forall₂.nil
    exact ⟨combine_stores L h dt b h1, h2⟩
  cases meth with
  | forwardEuler =>
    obtain ⟨h1, h2⟩ := eval_stores L hL beams s t h
    refine ⟨fun g => ?_, h2⟩
    simp only [Layout.evolve, PMesh.evolve, h g, h1 g]
  | rk3 => exact hrk _ _
  | rk4 => exact hrk _ _

/-! ## C127 -/

/-- **C127** (time stepping; partial: between changes of the mesh, and for equal states of the faces, see the refutations).  For
every mesh with any hanging nodes, material laws and state, every distribution of the degrees of freedom, cells and faces over any
number of processes such that each has the entries its cells and faces need, every method, step length and number of steps: the
owner of each degree of freedom ends up with the temperature that a run on one process computes, whatever was stored in the ghost
entries at the start, and the state of every cell and face is the same. -/
theorem C127_steps_partial (L : Layout m R) (hL : L.Relevant) (beams : ℝ → List Beam) (meth : Method) (dt t : ℝ) (Y : R × ι → ℝ)
    (y : ι → ℝ) (h : ∀ g, Y (L.owner g, g) = y g) (s : PState m) (k : ℕ) :
    (∀ g, (L.run beams meth dt t Y s k).1 (L.owner g, g) = (m.run beams meth dt t y s k).1 g) ∧
      (L.run beams meth dt t Y s k).2 = (m.run beams meth dt t y s k).2 := by
  induction k with
  | zero => exact ⟨h, rfl⟩
  | succ k ih =>
    obtain ⟨h1, h2⟩ := ih
    have := evolve_stores L hL beams meth dt (t + k * dt) (Y := (L.run beams meth dt t Y s k).1) h1
      (L.run beams meth dt t Y s k).2
    rw [h2] at this
    unfold Layout.run PMesh.run
    rw [h2]
    exact this

/-- **C127** (any two numbers of processes).  Two runs on different numbers of processes, with different distributions, agree. -/
theorem C127_any_two_partial {R' : Type*} [Fintype R'] [DecidableEq R'] (L : Layout m R) (hL : L.Relevant) (L' : Layout m R')
    (hL' : L'.Relevant) (beams : ℝ → List Beam) (meth : Method) (dt t : ℝ) (Y : R × ι → ℝ) (Y' : R' × ι → ℝ)
    (h : ∀ g, Y (L.owner g, g) = Y' (L'.owner g, g)) (s : PState m) (k : ℕ) (g : ι) :
    (L.run beams meth dt t Y s k).1 (L.owner g, g) = (L'.run beams meth dt t Y' s k).1 (L'.owner g, g) := by
  rw [(C127_steps_partial L hL beams meth dt t Y (fun g => Y' (L'.owner g, g)) h s k).1 g,
    (C127_steps_partial L' hL' beams meth dt t Y' (fun g => Y' (L'.owner g, g)) (fun _ => rfl) s k).1 g]

theorem printedHeat_eq (beams : List Beam) (l : List PrintQuad) (l' : List PrintQuad) :
    printedHeat beams (l ++ l') = printedHeat beams l + printedHeat beams l' := by
  have key : ∀ (l : List PrintQuad) (a : ℝ), l.foldl (fun acc c => acc + ∑ i, ∑ q,
      (beams.foldl (fun s b => s + b.scalar (c.point q)) 0) * c.shape i q * c.jxw q) a = a + printedHeat beams l := by
    intro l
    induction l with
    | nil => intro a; simp [printedHeat]
    | cons c l ih =>
      intro a
      unfold printedHeat
      rw [List.foldl_cons, List.foldl_cons, ih, ih, zero_add, add_assoc]
  conv_lhs => unfold printedHeat
  rw [List.foldl_append, key]
  rfl

/-- **C127** (the printed heat input).  The printed number is the one of a run on one process, however the cells are distributed and
ordered. -/
theorem C127_printed_heat (beams : List Beam) {n : ℕ} (cells : Fin n → List PrintQuad) (all : List PrintQuad)
    (h : ((List.ofFn cells).flatten).Perm all) : printedHeatAll beams cells = printedHeat beams all := by
  have hs : ∀ l : List PrintQuad, printedHeat beams l = (l.map fun c => printedHeat beams [c]).sum := by
    intro l
    induction l with
    | nil => rfl
    | cons c l ih => rw [List.map_cons, List.sum_cons, ← ih, ← printedHeat_eq, List.singleton_append]
  have hfl : ∀ L : List (List PrintQuad), printedHeat beams L.flatten = (L.map (printedHeat beams)).sum := by
    intro L
    induction L with
    | nil => rfl
    | cons c l ih => rw [List.flatten_cons, printedHeat_eq, ih, List.map_cons, List.sum_cons]
  rw [hs all, ← (h.map _).sum_eq, ← hs, hfl, List.map_ofFn, List.sum_ofFn]
  rfl

/-! ### Examples and what is false -/

theorem coef_free {ι : Type*} [DecidableEq ι] (a g : ι) (h : a ≠ g) : (noHanging ι).coef a g = 0 := by
  simp [noHanging, Hanging.coef, h]

/-- A bar of two cells with three nodes. -/
noncomputable def barLaw : PMesh (Fin 3) where
  kind := .solidLiquidPowder
  hanging := noHanging _
  types := [1, 1]
  nc := 2
  cells := fun c => ⟨if c = 0 then lineCell 0 1 1 1 0 else lineCell 1 2 1 1 0, fun _ => ⟨1600, 1700⟩, fun _ _ _ => ⟨1, 1, 1, 1⟩⟩
  nf := 0
  faces := fun f => f.elim0

/-- Two processes, one cell each; the node between them belongs to process 0 and process 1 has a copy. -/
def barSplit : Layout barLaw (Fin 2) where
  owner := ![0, 0, 1]
  copy := fun r g => decide (r = 1 ∧ g = 1)
  home := fun c : Fin 2 => c
  faceHome := fun f => f.elim0

/-- The hypotheses of `C127_steps_partial` hold for a bar split in two. -/
example : barSplit.Relevant := by
  refine ⟨fun c _ i g hg => ?_, fun f => f.elim0⟩
  have hd : ∀ (c : Fin 2) (i : Fin 2), ((barLaw.cells c).cell.dof (Fin.cast (by fin_cases c <;> rfl) i)) =
      if c = 0 then (if i = 0 then 0 else 1) else (if i = 0 then 1 else 2) := by
    intro c i
    fin_cases c <;> fin_cases i <;> rfl
  have hn : (barLaw.cells c).cell.n = 2 := by
    change Fin 2 at c
    fin_cases c <;> rfl
  have he : (barLaw.cells c).cell.dof i = g := by
    by_contra hne
    exact hg (coef_free _ _ hne)
  change Fin 2 at c
  have := hd c (Fin.cast hn i)
  rw [show (Fin.cast (by fin_cases c <;> rfl) (Fin.cast hn i) : Fin (barLaw.cells c).cell.n) = i from rfl, he] at this
  subst this
  generalize (Fin.cast hn i) = j
  fin_cases c <;> fin_cases j <;> decide

/-- A powder grain with one node that loses heat by convection through a face towards a cell without material; only powder exchanges
heat, with coefficient 1, with surroundings at 300. -/
noncomputable def grain : PMesh (Fin 1) where
  kind := .solidLiquidPowder
  hanging := noHanging _
  types := [4]
  nc := 1
  cells := (dot .solidLiquidPowder).cells
  nf := 1
  faces := fun _ => ⟨⟨0, some 1, 0, 1, fun _ => 1, ⟨1, fun _ => 0, fun _ _ => 1⟩, ⟨1, fun _ => 0, fun _ _ => 1⟩,
    fun _ _ => ⟨1, 1, 300, 0, 300⟩⟩, fun _ => ⟨1600, 1700⟩, fun _ r _ => ⟨1, r.powder, 300, 0, 300⟩⟩

/-- The state of the grain when its face state is set by process `rank` (`get_state_from_material_properties`); process 0 owns the
grain, process `other` the cell without material. -/
def grainState (rank other : ℕ) : PState grain :=
  ⟨fun _ _ => 0, fun _ _ => 1, fun _ _ => (faceState rank ⟨0, 0, 0, 1⟩ (some ⟨1, other, 0, 0⟩)).2⟩

/-- The face of the grain as an evaluation with powder ratio `p` sees it. -/
noncomputable def grainFace (p : ℝ) : Face (Fin 1) :=
  ⟨0, some 1, 0, 1, fun _ => 1, ⟨1, fun _ => 0, fun _ _ => 1⟩, ⟨1, fun _ => 0, fun _ _ => 1⟩,
    fun _ T => ⟨1, (phase .solidLiquidPowder p (liq ⟨1600, 1700⟩ T)).powder, 300, 0, 300⟩⟩

theorem grain_step (s : PState grain) (p : ℝ) (hp : ∀ f q, s.facePowder f q = p) (h1 : p ≤ 1) :
    (grain.run (fun _ => []) .forwardEuler (1 / 10) 0 (fun _ => 1000) s 1).1 0 = 1000 - 70 * p := by
  have hc : ∀ (g' g : Fin 1), (noHanging (Fin 1)).coef g' g = 1 := by
    intro g' g
    simp [noHanging, Hanging.coef, Subsingleton.elim g' g]
  have hm : (grain.frozen s).mass 0 = 1 := by
    have : (grain.frozen s).mass 0 = ((dot .solidLiquidPowder).frozen ⟨s.liquid, s.powder, fun f => f.elim0⟩).mass 0 := rfl
    rw [this]
    simp only [Mesh.mass, PMesh.frozen, dot, PCell.withPowder, List.ofFn_succ, List.ofFn_zero, List.foldl_cons, List.foldl_nil,
      massApply, if_true, Hanging.distribute, Hanging.resolve]
    simp [Hanging.coef]
  have hl : liq ⟨1600, 1700⟩ 1000 = 0 := by
    rw [liq_eq ⟨1600, 1700⟩ (by norm_num)]
    norm_num [fraction]
  have hv : (grain.frozen s).vmultAdd [] (fun _ => 0) (fun _ => 1000) 0 = -(700 * p) := by
    rw [vmultAdd_work, if_neg (by simp [PMesh.frozen, grain, noHanging]), work_eq]
    have ha : adiabaticOnly (grain.frozen s).types = false := by change adiabaticOnly [4] = false; decide
    rw [ha]
    simp only [zero_add, Bool.false_eq_true, if_false]
    have hcell : ((grain.frozen s).cells.map fun c => c.adds (grain.frozen s).hanging [] (fun _ => 1000) 0).sum = 0 := by
      apply List.sum_eq_zero
      intro x hx
      obtain ⟨c, hc', rfl⟩ := List.mem_map.1 hx
      obtain ⟨i, rfl⟩ := List.mem_ofFn.1 hc'
      unfold Cell.adds Cell.entry
      have : sourcesOn [] = false := rfl
      simp only [this, Bool.false_eq_true, if_false]
      rw [if_pos (show ((grain.cells i).withPowder grain.kind (s.powder i)).fe = 0 from rfl)]
      refine Finset.sum_eq_zero fun j _ => ?_
      have h0 : ∀ q d, ((grain.cells i).withPowder grain.kind (s.powder i)).grad j q d = 0 := fun _ _ => rfl
      simp [h0]
    have hface : ((grain.frozen s).faces.map fun f => f.adds (grain.frozen s).types (grain.frozen s).hanging (fun _ => 1000) 0).sum =
        -(700 * p) := by
      have hs : s.facePowder = fun _ _ => p := by funext f q; exact hp f q
      have e : (grain.frozen s).faces = [grainFace p] := by
        change (List.ofFn fun f => (grain.faces f).withPowder grain.kind (s.facePowder f)) = _
        rw [hs]
        rfl
      rw [e, List.map_singleton, List.sum_singleton]
      unfold Face.adds
      rw [if_pos (show (grainFace p).Exposed from Or.inl ⟨rfl, by change some 1 ≠ some 0; decide⟩)]
      have hval : ∀ q, (grainFace p).value (noHanging (Fin 1)) (fun _ => 1000) q = 1000 := by
        intro q
        change ∑ _i : Fin 1, (1 : ℝ) * (noHanging (Fin 1)).resolve (fun _ => 1000) 0 = 1000
        simp [Hanging.resolve, hc]
      have ht : decide (Has (getType [4] 0) .convective) = true ∧ decide (Has (getType [4] 0) .radiative) = false := by decide
      have hco : ∀ q, (grainFace p).coef q 1000 = ⟨1, p, 300, 0, 300⟩ := by
        intro q
        change (⟨1, (phase .solidLiquidPowder p (liq ⟨1600, 1700⟩ 1000)).powder, 300, 0, 300⟩ : FaceCoef) = _
        rw [hl]
        simp [phase, h1]
      have hid : (grainFace p).id = 0 := rfl
      have hsub : (grainFace p).submitted [4] (noHanging (Fin 1)) (fun _ => 1000) = fun _ => -(700 * p) := by
        funext q
        unfold Face.submitted
        dsimp only
        rw [hval, hid, ht.1, ht.2, hco]
        simp [boundaryValue]
        ring
      change ∑ _i : Fin 1, (noHanging (Fin 1)).coef 0 0 * ∑ q, (grainFace p).submitted [4] (noHanging (Fin 1))
        (fun _ => 1000) q * 1 * 1 = _
      rw [hsub]
      change ∑ _i : Fin 1, (noHanging (Fin 1)).coef 0 0 * ∑ _q : Fin 1, -(700 * p) * 1 * 1 = _
      simp [hc]
    rw [hcell, hface, zero_add]
  have : (grain.run (fun _ => []) .forwardEuler (1 / 10) 0 (fun _ => 1000) s 1).1 0 =
      1 * 1000 + 1 / 10 * ((grain.frozen s).vmultAdd [] (fun _ => 0) (fun _ => 1000) 0 * (1 / (grain.frozen s).mass 0)) := rfl
  rw [this, hv, hm]
  ring

/-- The grain on process 0; process 1 works on the face. -/
def grainSplit : Layout grain (Fin 2) := ⟨fun _ => 0, fun _ _ => true, fun _ => 0, fun _ => 1⟩

/-- **C127 is false where the surface of the material is the boundary between two processes.**  The same powder grain at 1000 cools to
930 in the first step on one process and stays at 1000 on two, when the second process owns the empty cell next to it: the process
that works on the face does not know the state of the grain (`C96_face_state_refuted`).  (A second way in which the number of
processes shows is the temperature given to the nodes between processes when material is added,
`C41_parallel_temperature_refuted`.) -/
theorem C127_interface_refuted :
    grainSplit.Relevant ∧
    (grain.run (fun _ => []) .forwardEuler (1 / 10) 0 (fun _ => 1000) (grainState 0 0) 1).1 0 = 930 ∧
    (grainSplit.run (fun _ => []) .forwardEuler (1 / 10) 0 (fun _ => 1000) (grainState 1 1) 1).1 (0, 0) = 1000 := by
  have hR : grainSplit.Relevant := ⟨fun _ _ _ _ _ => by simp [Layout.holds, grainSplit], fun _ _ _ _ _ => by simp [Layout.holds, grainSplit]⟩
  refine ⟨hR, ?_, ?_⟩
  · rw [grain_step (grainState 0 0) 1 (fun _ _ => by simp [grainState, faceState]) le_rfl]
    norm_num
  · have := (C127_steps_partial grainSplit hR (fun _ => []) .forwardEuler (1 / 10) 0 (fun _ => 1000) (fun _ => 1000)
      (fun _ => rfl) (grainState 1 1) 1).1 0
    rw [show grainSplit.owner 0 = 0 from rfl] at this
    rw [this, grain_step (grainState 1 1) 0 (fun _ _ => by simp [grainState, faceState]) zero_le_one]
    norm_num

end Verif.Assembly
