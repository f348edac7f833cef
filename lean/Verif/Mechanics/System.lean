import Verif.Mechanics.Stiffness
import Verif.Thermal.AssemblyProps
import Mathlib.LinearAlgebra.FiniteDimensional.Basic
import Mathlib.Tactic.LinearCombination

/-!
# C111-C113: the assembled mechanical system, its solution and the stress

`source/MechanicalOperator.cc:185-316, 318-493` (assembly over the cells, body forces), `source/BodyForce.cc:21-34`
(gravity), `source/MechanicalPhysics.cc:101-130` (constraints: hanging nodes, clamped boundaries) and
`source/MechanicalPhysics.cc:471-546` (`solve`).

Simplifications.  Numbers are real; one rank.  deal.II is modelled by its documented contract:
`AffineConstraints::distribute_local_to_global` adds `Cᵀ K C` and `Cᵀ f` and puts some positive number on the diagonal of
a constrained degree of freedom; `distribute` sets the constrained values.  A clamped degree of freedom is constrained to
zero (all weights zero).  The conjugate gradient method is taken to return an exact solution when it returns; the
iteration limit is treated apart.  The material id and the property tables behind `lambda`, `mu`, `alpha` and the density
are those of C100-C103; `dT` is the temperature minus the reference temperature of C48.
-/

namespace Verif.Mechanics

open Matrix Verif.Assembly

variable {d : ℕ} {ι : Type} [Fintype ι] [DecidableEq ι]

/-- A locally owned cell of the mechanical problem; `fe` is the active finite-element index (0: solid). -/
structure SolidCell (d : ℕ) (ι : Type) where
  fe : ℕ
  n : ℕ
  nq : ℕ
  geo : CellFE d (Fin n) (Fin nq)
  shape : Fin nq → Fin n → ℝ
  dof : Fin n → ι
  m : Props
  alpha : ℝ
  density : ℝ
  dT : Fin nq → ℝ

/-- `BodyForce::eval`, `BodyForce.hh:22-30`: a force per volume for each cell. -/
abbrev Force (d : ℕ) (ι : Type) := SolidCell d ι → Fin d → ℝ

/-- `GravityForce::eval`, `BodyForce.cc:21-34` with `g` of `BodyForce.hh:53`; `axis<dim>::z` is the last axis
(`types.hh:166-191`). -/
noncomputable def gravity (k : ℕ) : Force (k + 1) ι := fun c a => if a = Fin.last k then -c.density * 9.80665 else 0

/-- `AffineConstraints::distribute_local_to_global(cell_matrix, …)`, the cells of index 0
(`MechanicalOperator.cc:258-283`). -/
def addCellMatrix (h : Hanging ι) (A : ι → ι → ℝ) (c : SolidCell d ι) : ι → ι → ℝ :=
  if c.fe = 0 then fun g g' => A g g' +
    ∑ i, ∑ j, h.coef (c.dof i) g * cellMatrix c.geo c.m.lambda c.m.mu i j * h.coef (c.dof j) g'
  else A

/-- `assemble_system`, `MechanicalOperator.cc:185-285`; `diag` are the numbers on the diagonal of the constrained
degrees of freedom. -/
def systemMatrix (h : Hanging ι) (diag : ι → ℝ) (cells : List (SolidCell d ι)) (g g' : ι) : ℝ :=
  cells.foldl (addCellMatrix h) (fun _ _ => 0) g g' + if g = g' ∧ h.constrained g = true then diag g else 0

/-- The total body force of a cell, `MechanicalOperator.cc:459-463`. -/
def totalForce (forces : List (Force d ι)) (c : SolidCell d ι) : Fin d → ℝ :=
  forces.foldl (fun s f => fun a => s a + f c a) fun _ => 0

/-- `cell_rhs(i)` of the body forces, `MechanicalOperator.cc:467-473`: the vector shape function of dof `i` has the
component `comp i` only. -/
def bodyLoad (forces : List (Force d ι)) (c : SolidCell d ι) (i : Fin c.n) : ℝ :=
  ∑ q, (∑ a, totalForce forces c a * (if c.geo.comp i = a then c.shape q i else 0)) * c.geo.JxW q

/-- `assemble_rhs`, `MechanicalOperator.cc:318-493`: the thermal loop only if there are reference temperatures, the
body-force loop only if there are body forces. -/
def systemRhs (h : Hanging ι) (thermal : Bool) (forces : List (Force d ι)) (cells : List (SolidCell d ι)) : ι → ℝ :=
  let r := if thermal then
      cells.foldl (fun r c => if c.fe = 0 then h.distribute c.dof (thermalLoad c.geo c.m.lambda c.m.mu c.alpha c.dT) r else r)
        fun _ => 0
    else fun _ => 0;
  if forces.length ≠ 0 then
    cells.foldl (fun r c => if c.fe = 0 then h.distribute c.dof (bodyLoad forces c) r else r) r
  else r

/-- What `cg.solve` returns when it returns: a solution of the system, `MechanicalPhysics.cc:499-506`. -/
def Solves (h : Hanging ι) (diag : ι → ℝ) (thermal : Bool) (forces : List (Force d ι)) (cells : List (SolidCell d ι))
    (x : ι → ℝ) : Prop :=
  ∀ g, ∑ g', systemMatrix h diag cells g g' * x g' = systemRhs h thermal forces cells g

/-- The displacement after `_affine_constraints.distribute`, `MechanicalPhysics.cc:508-512`. -/
def displacement (h : Hanging ι) (x : ι → ℝ) : ι → ℝ := h.resolve x

/-- The iteration limit and the test of deal.II's `SolverControl::check`, `MechanicalPhysics.cc:496-499`: the outcome at
step `k` with residual `r`. -/
inductive Control
  | iterate
  | success
  | failure
  deriving DecidableEq

open Classical in
/-- `dealii::SolverControl::check` with `max_iter = n_dofs / 10` and `tol = 1e-12 |rhs|`. -/
noncomputable def control (nDofs : ℕ) (rhsNorm : ℝ) (k : ℕ) (r : ℝ) : Control :=
  if r ≤ 1e-12 * rhsNorm then .success else if nDofs / 10 ≤ k then .failure else .iterate

/-! ## Specification -/

/-- The displacements the constraints allow: a constrained value is the weighted sum of the free values it depends on
(zero for a clamped one). -/
def Compatible (h : Hanging ι) (w : ι → ℝ) : Prop :=
  ∀ g, h.constrained g = true → w g = ∑ g', if h.constrained g' then 0 else h.weight g g' * w g'

/-- The solid cells. -/
def solidCells (cells : List (SolidCell d ι)) : List (SolidCell d ι) := cells.filter fun c => c.fe = 0

/-- Strain of a displacement field at a quadrature point of a cell. -/
noncomputable def SolidCell.strainOf (c : SolidCell d ι) (u : ι → ℝ) (q : Fin c.nq) : Tens d :=
  strain (gradU c.geo (fun i => u (c.dof i)) q)

/-- Value of component `a` of a displacement field at a quadrature point of a cell. -/
def SolidCell.valueOf (c : SolidCell d ι) (u : ι → ℝ) (q : Fin c.nq) (a : Fin d) : ℝ :=
  ∑ i, if c.geo.comp i = a then c.shape q i * u (c.dof i) else 0

/-- Work of the stress of a displacement `u` along a virtual displacement `w`. -/
noncomputable def internalWork (cells : List (SolidCell d ι)) (u w : ι → ℝ) : ℝ :=
  ((solidCells cells).map fun c =>
    ∑ q, contract (hooke c.m.lambda c.m.mu (c.strainOf u q)) (c.strainOf w q) * c.geo.JxW q).sum

/-- Work of the thermal stress `(3λ + 2μ) α ΔT` along `w`. -/
noncomputable def thermalWork (cells : List (SolidCell d ι)) (w : ι → ℝ) : ℝ :=
  ((solidCells cells).map fun c =>
    ∑ q, (3 * c.m.lambda + 2 * c.m.mu) * c.alpha * c.dT q * trace (c.strainOf w q) * c.geo.JxW q).sum

/-- Work of the body forces along `w`. -/
def forceWork (forces : List (Force d ι)) (cells : List (SolidCell d ι)) (w : ι → ℝ) : ℝ :=
  ((solidCells cells).map fun c => ∑ q, (∑ a, (forces.map fun f => f c a).sum * c.valueOf w q a) * c.geo.JxW q).sum

/-- The volume of a cell. -/
def SolidCell.volume (c : SolidCell d ι) : ℝ := ∑ q, c.geo.JxW q

/-! ## Lemmas -/

theorem compatible_resolve (h : Hanging ι) (w : ι → ℝ) (hw : Compatible h w) : h.resolve w = w := by
  funext g
  unfold Hanging.resolve
  by_cases hg : h.constrained g = true
  · rw [hw g hg]
    refine Finset.sum_congr rfl fun g' _ => ?_
    unfold Hanging.coef
    rw [if_pos hg]
    by_cases h' : h.constrained g' = true
    · rw [if_pos h', if_pos h', zero_mul]
    · rw [if_neg h', if_neg h']
  · rw [Finset.sum_eq_single g]
    · simp [Hanging.coef, hg]
    · intro b _ hb
      simp [Hanging.coef, hg, Ne.symm hb]
    · simp

theorem resolve_compatible (h : Hanging ι) (x : ι → ℝ) : Compatible h (h.resolve x) := by
  intro g hg
  show ∑ g', h.coef g g' * x g' = _
  refine Finset.sum_congr rfl fun g' _ => ?_
  by_cases h' : h.constrained g' = true
  · rw [if_pos h', coef_constrained h g g' h', zero_mul]
  · rw [if_neg h']
    have h1 : h.resolve x g' = x g' := by
      unfold Hanging.resolve
      rw [Finset.sum_eq_single g']
      · simp [Hanging.coef, h']
      · intro b _ hb
        simp [Hanging.coef, h', Ne.symm hb]
      · simp
    rw [h1]
    simp [Hanging.coef, hg, h']

theorem foldl_matrix (h : Hanging ι) (cells : List (SolidCell d ι)) (A : ι → ι → ℝ) (g g' : ι) :
    cells.foldl (addCellMatrix h) A g g' = A g g' + ((solidCells cells).map fun c =>
      ∑ i, ∑ j, h.coef (c.dof i) g * cellMatrix c.geo c.m.lambda c.m.mu i j * h.coef (c.dof j) g').sum := by
  induction cells generalizing A with
  | nil => simp [solidCells]
  | cons c cs ih =>
    rw [List.foldl_cons, ih]
    unfold addCellMatrix solidCells
    by_cases hc : c.fe = 0
    · simp only [if_pos hc, List.filter_cons, hc, decide_true, if_true, List.map_cons, List.sum_cons]
      ring
    · simp [hc, List.filter_cons]

theorem foldl_distribute (h : Hanging ι) (load : (c : SolidCell d ι) → Fin c.n → ℝ) (cells : List (SolidCell d ι))
    (r : ι → ℝ) (g : ι) :
    cells.foldl (fun r c => if c.fe = 0 then h.distribute c.dof (load c) r else r) r g =
      r g + ((solidCells cells).map fun c => ∑ i, h.coef (c.dof i) g * load c i).sum := by
  induction cells generalizing r with
  | nil => simp [solidCells]
  | cons c cs ih =>
    rw [List.foldl_cons, ih]
    unfold solidCells
    by_cases hc : c.fe = 0
    · simp only [if_pos hc, List.filter_cons, hc, decide_true, if_true, List.map_cons, List.sum_cons, Hanging.distribute]
      ring
    · simp [hc, List.filter_cons]

theorem sum_mul_list {α : Type*} (v : ι → ℝ) (f : α → ι → ℝ) (l : List α) :
    ∑ g, v g * (l.map fun c => f c g).sum = (l.map fun c => ∑ g, v g * f c g).sum := by
  induction l with
  | nil => simp
  | cons c cs ih =>
    simp only [List.map_cons, List.sum_cons, mul_add, Finset.sum_add_distrib, ih]

/-- The load of a cell tested with `v`. -/
theorem tested_load (h : Hanging ι) (v : ι → ℝ) (c : SolidCell d ι) (load : Fin c.n → ℝ) :
    ∑ g, v g * ∑ i, h.coef (c.dof i) g * load i = ∑ i, h.resolve v (c.dof i) * load i := by
  simp only [Finset.mul_sum]
  rw [Finset.sum_comm]
  refine Finset.sum_congr rfl fun i _ => ?_
  unfold Hanging.resolve
  rw [Finset.sum_mul]
  exact Finset.sum_congr rfl fun g _ => by ring

theorem tested_matrix (h : Hanging ι) (v x : ι → ℝ) (c : SolidCell d ι) :
    ∑ g, v g * ∑ g', (∑ i, ∑ j, h.coef (c.dof i) g * cellMatrix c.geo c.m.lambda c.m.mu i j * h.coef (c.dof j) g') * x g' =
      ∑ i, ∑ j, h.resolve x (c.dof i) * cellMatrix c.geo c.m.lambda c.m.mu i j * h.resolve v (c.dof j) := by
  have h1 : ∀ g, ∑ g', (∑ i, ∑ j, h.coef (c.dof i) g * cellMatrix c.geo c.m.lambda c.m.mu i j * h.coef (c.dof j) g') * x g' =
      ∑ i, h.coef (c.dof i) g * ∑ j, cellMatrix c.geo c.m.lambda c.m.mu i j * h.resolve x (c.dof j) := by
    intro g
    simp only [Finset.sum_mul, Finset.mul_sum]
    rw [Finset.sum_comm]
    refine Finset.sum_congr rfl fun i _ => ?_
    rw [Finset.sum_comm]
    refine Finset.sum_congr rfl fun j _ => ?_
    unfold Hanging.resolve
    rw [Finset.mul_sum, Finset.mul_sum]
    exact Finset.sum_congr rfl fun g' _ => by ring
  simp only [h1]
  rw [tested_load]
  simp only [Finset.mul_sum]
  rw [Finset.sum_comm]
  refine Finset.sum_congr rfl fun i _ => Finset.sum_congr rfl fun j _ => ?_
  rw [C47_symmetric]
  ring

theorem foldl_force (forces : List (Force d ι)) (c : SolidCell d ι) (s : Fin d → ℝ) (a : Fin d) :
    forces.foldl (fun s f => fun a => s a + f c a) s a = s a + (forces.map fun f => f c a).sum := by
  induction forces generalizing s with
  | nil => simp
  | cons f fs ih => rw [List.foldl_cons, ih, List.map_cons, List.sum_cons]; ring

theorem bodyLoad_work (forces : List (Force d ι)) (c : SolidCell d ι) (w : ι → ℝ) :
    ∑ i, w (c.dof i) * bodyLoad forces c i =
      ∑ q, (∑ a, (forces.map fun f => f c a).sum * c.valueOf w q a) * c.geo.JxW q := by
  unfold bodyLoad SolidCell.valueOf totalForce
  simp only [foldl_force, zero_add, Finset.mul_sum, Finset.sum_mul]
  rw [Finset.sum_comm]
  refine Finset.sum_congr rfl fun q _ => ?_
  rw [Finset.sum_comm]
  refine Finset.sum_congr rfl fun a _ => Finset.sum_congr rfl fun i _ => ?_
  split_ifs <;> ring

theorem thermalLoad_work (c : SolidCell d ι) (w : ι → ℝ) :
    ∑ i, w (c.dof i) * thermalLoad c.geo c.m.lambda c.m.mu c.alpha c.dT i =
      ∑ q, (3 * c.m.lambda + 2 * c.m.mu) * c.alpha * c.dT q * trace (c.strainOf w q) * c.geo.JxW q := by
  have ht : ∀ q, trace (c.strainOf w q) = ∑ i, w (c.dof i) * trace (gradShape c.geo q i) := by
    intro q
    have : trace (c.strainOf w q) = trace (gradU c.geo (fun i => w (c.dof i)) q) := by
      simp [SolidCell.strainOf, strain, trace]
    rw [this, gradU_eq, trace_sum]
    simp [trace_smul]
  unfold thermalLoad
  simp only [ht, Finset.mul_sum, Finset.sum_mul]
  rw [Finset.sum_comm]
  exact Finset.sum_congr rfl fun q _ => Finset.sum_congr rfl fun i _ => by ring

/-- The right-hand side tested with any vector. -/
theorem rhs_work (h : Hanging ι) (thermal : Bool) (forces : List (Force d ι)) (cells : List (SolidCell d ι)) (v : ι → ℝ) :
    ∑ g, v g * systemRhs h thermal forces cells g =
      (if thermal then thermalWork cells (h.resolve v) else 0) + forceWork forces cells (h.resolve v) := by
  have hb : ∑ g, v g * ((solidCells cells).map fun c => ∑ i, h.coef (c.dof i) g * bodyLoad forces c i).sum =
      forceWork forces cells (h.resolve v) := by
    rw [sum_mul_list]
    unfold forceWork
    congr 1
    refine List.map_congr_left fun c _ => ?_
    rw [tested_load, bodyLoad_work]
  have ht : ∑ g, v g * ((solidCells cells).map fun c =>
      ∑ i, h.coef (c.dof i) g * thermalLoad c.geo c.m.lambda c.m.mu c.alpha c.dT i).sum =
      thermalWork cells (h.resolve v) := by
    rw [sum_mul_list]
    unfold thermalWork
    congr 1
    refine List.map_congr_left fun c _ => ?_
    rw [tested_load, thermalLoad_work]
  have hf : forces.length = 0 → forceWork forces cells (h.resolve v) = 0 := by
    intro h0
    rw [List.length_eq_zero_iff] at h0
    subst h0
    simp [forceWork]
  unfold systemRhs
  cases thermal
  · by_cases h0 : forces.length ≠ 0
    · simp only [Bool.false_eq_true, if_false, if_pos h0, foldl_distribute, zero_add]
      exact hb
    · simp only [Bool.false_eq_true, if_false, if_neg h0, mul_zero, Finset.sum_const_zero, zero_add]
      exact (hf (not_not.1 h0)).symm
  · by_cases h0 : forces.length ≠ 0
    · simp only [if_true, if_pos h0, foldl_distribute, zero_add, mul_add, Finset.sum_add_distrib]
      rw [hb, ht]
    · simp only [if_true, if_neg h0, foldl_distribute, zero_add]
      rw [ht, hf (not_not.1 h0), add_zero]

/-- The matrix tested with any two vectors. -/
theorem matrix_work (h : Hanging ι) (diag : ι → ℝ) (cells : List (SolidCell d ι)) (v x : ι → ℝ) :
    ∑ g, v g * ∑ g', systemMatrix h diag cells g g' * x g' =
      internalWork cells (h.resolve x) (h.resolve v) +
        ∑ g, if h.constrained g then v g * (diag g * x g) else 0 := by
  have h1 : ∀ g, ∑ g', systemMatrix h diag cells g g' * x g' =
      ((solidCells cells).map fun c => ∑ g', (∑ i, ∑ j, h.coef (c.dof i) g *
        cellMatrix c.geo c.m.lambda c.m.mu i j * h.coef (c.dof j) g') * x g').sum +
        (if h.constrained g then diag g * x g else 0) := by
    intro g
    unfold systemMatrix
    simp only [foldl_matrix, zero_add, add_mul, Finset.sum_add_distrib]
    congr 1
    · have := sum_mul_list (fun g' => x g') (fun (c : SolidCell d ι) g' => ∑ i, ∑ j, h.coef (c.dof i) g *
        cellMatrix c.geo c.m.lambda c.m.mu i j * h.coef (c.dof j) g') (solidCells cells)
      rw [show (∑ g', (List.map (fun c : SolidCell d ι => ∑ i, ∑ j, h.coef (c.dof i) g *
        cellMatrix c.geo c.m.lambda c.m.mu i j * h.coef (c.dof j) g') (solidCells cells)).sum * x g') =
        ∑ g', x g' * (List.map (fun c : SolidCell d ι => ∑ i, ∑ j, h.coef (c.dof i) g *
        cellMatrix c.geo c.m.lambda c.m.mu i j * h.coef (c.dof j) g') (solidCells cells)).sum from
          Finset.sum_congr rfl fun g' _ => mul_comm _ _, this]
      congr 1
      exact List.map_congr_left fun c _ => Finset.sum_congr rfl fun g' _ => mul_comm _ _
    · rw [Finset.sum_eq_single g]
      · by_cases hg : h.constrained g = true <;> simp [hg]
      · intro b _ hb
        simp [Ne.symm hb]
      · simp
  simp only [h1, mul_add, Finset.sum_add_distrib]
  congr 1
  · rw [sum_mul_list]
    unfold internalWork
    congr 1
    refine List.map_congr_left fun c _ => ?_
    rw [tested_matrix, bilinear]
    rfl
  · exact Finset.sum_congr rfl fun g _ => by split_ifs <;> simp

theorem rhs_constrained (h : Hanging ι) (thermal : Bool) (forces : List (Force d ι)) (cells : List (SolidCell d ι)) (g : ι)
    (hg : h.constrained g = true) : systemRhs h thermal forces cells g = 0 := by
  have := rhs_work h thermal forces cells (fun g' => if g' = g then 1 else 0)
  have hr : h.resolve (fun g' => if g' = g then (1 : ℝ) else 0) = fun _ => 0 := by
    funext g'
    unfold Hanging.resolve
    refine Finset.sum_eq_zero fun b _ => ?_
    by_cases hb : b = g
    · subst hb; rw [coef_constrained h g' b hg, zero_mul]
    · simp [hb]
  have hstrain : ∀ (c : SolidCell d ι) (q : Fin c.nq), c.strainOf (fun _ => 0) q = 0 := by
    intro c q
    ext a b
    simp [SolidCell.strainOf, strain, gradU]
  rw [hr] at this
  simpa [thermalWork, forceWork, hstrain, SolidCell.valueOf] using this

/-! ## Theorems -/

/-- **C112**. Every solution of the assembled system is in equilibrium: for every virtual displacement the constraints
allow, the work of the elastic stress of the computed displacement is the work of the thermal stress and of the body
forces.  Whatever numbers are on the diagonal of the constrained degrees of freedom. -/
theorem C112_equilibrium (h : Hanging ι) (diag : ι → ℝ) (thermal : Bool) (forces : List (Force d ι))
    (cells : List (SolidCell d ι)) (x : ι → ℝ) (hx : Solves h diag thermal forces cells x) (w : ι → ℝ)
    (hw : Compatible h w) :
    internalWork cells (displacement h x) w = (if thermal then thermalWork cells w else 0) + forceWork forces cells w := by
  -- test with the free part of `w`
  have hr : h.resolve (fun g => if h.constrained g then 0 else w g) = w := by
    have h1 : h.resolve (fun g => if h.constrained g then 0 else w g) = h.resolve w := by
      funext g'
      unfold Hanging.resolve
      refine Finset.sum_congr rfl fun g _ => ?_
      by_cases hg : h.constrained g = true
      · simp [coef_constrained h g' g hg]
      · simp [hg]
    rw [h1, compatible_resolve h w hw]
  have h1 := matrix_work h diag cells (fun g => if h.constrained g then 0 else w g) x
  have h2 := rhs_work h thermal forces cells (fun g => if h.constrained g then 0 else w g)
  have h3 : ∑ g, (if h.constrained g then (if h.constrained g then 0 else w g) * (diag g * x g) else 0) = 0 :=
    Finset.sum_eq_zero fun g _ => by split_ifs <;> simp
  rw [h3, add_zero, hr] at h1
  rw [hr] at h2
  rw [displacement, ← h1, ← h2]
  exact Finset.sum_congr rfl fun g _ => by rw [hx g]

/-- **C112**. The displacement satisfies the constraints: hanging nodes follow their neighbours, and a clamped degree of
freedom does not move. -/
theorem C112_supports (h : Hanging ι) (x : ι → ℝ) :
    Compatible h (displacement h x) ∧
      ∀ g, h.constrained g = true → (∀ g', h.weight g g' = 0) → displacement h x g = 0 := by
  refine ⟨resolve_compatible h x, fun g hg hw => ?_⟩
  rw [displacement, resolve_compatible h x g hg]
  refine Finset.sum_eq_zero fun g' _ => ?_
  rw [hw g']
  simp

theorem sum_zero_each {α : Type*} (f : α → ℝ) (l : List α) (hf : ∀ c ∈ l, 0 ≤ f c) (h0 : (l.map f).sum = 0) :
    ∀ c ∈ l, f c = 0 := by
  induction l with
  | nil => simp
  | cons a l ih =>
    rw [List.map_cons, List.sum_cons] at h0
    have h1 := hf a (by simp)
    have h2 : 0 ≤ (l.map f).sum := List.sum_nonneg fun y hy => by
      obtain ⟨c, hc, rfl⟩ := List.mem_map.1 hy
      exact hf c (List.mem_cons_of_mem _ hc)
    intro c hc
    rcases List.mem_cons.1 hc with rfl | hc
    · linarith
    · exact ih (fun c hc => hf c (List.mem_cons_of_mem _ hc)) (by linarith) c hc

/-- Work of the stress of `u` along `w` in one cell. -/
noncomputable def SolidCell.work (c : SolidCell d ι) (u w : ι → ℝ) : ℝ :=
  ∑ q, contract (hooke c.m.lambda c.m.mu (c.strainOf u q)) (c.strainOf w q) * c.geo.JxW q

theorem work_eq (c : SolidCell d ι) (u w : ι → ℝ) :
    c.work u w = ∑ i, ∑ j, u (c.dof i) * cellMatrix c.geo c.m.lambda c.m.mu i j * w (c.dof j) := by
  rw [bilinear c.geo c.m.lambda c.m.mu (fun i => u (c.dof i)) fun i => w (c.dof i)]
  rfl

/-- Admissible stiffness: Lamé parameters and weights as in C47. -/
def StiffCells (cells : List (SolidCell d ι)) : Prop :=
  ∀ c ∈ solidCells cells, 0 ≤ c.m.lambda ∧ 0 < c.m.mu ∧ ∀ q, 0 < c.geo.JxW q

theorem work_nonneg (c : SolidCell d ι) (u : ι → ℝ) (h : 0 ≤ c.m.lambda ∧ 0 < c.m.mu ∧ ∀ q, 0 < c.geo.JxW q) :
    0 ≤ c.work u u ∧ (c.work u u = 0 → ∀ q, c.strainOf u q = 0) := by
  obtain ⟨h1, h2, h3⟩ := h
  rw [work_eq]
  refine ⟨C47_nonneg c.geo c.m.lambda c.m.mu (fun i => u (c.dof i)) h1 h2.le (fun q => (h3 q).le), fun h0 q => ?_⟩
  have hk := (C47_kernel c.geo c.m.lambda c.m.mu (fun i => u (c.dof i)) h1 h2 h3).1 h0
  ext a b
  have := hk q a b
  simp only [SolidCell.strainOf, strain, Matrix.zero_apply]
  linarith

theorem internalWork_nonneg (cells : List (SolidCell d ι)) (u : ι → ℝ) (hpos : StiffCells cells) :
    0 ≤ internalWork cells u u ∧
      (internalWork cells u u = 0 → ∀ c ∈ solidCells cells, ∀ q, c.strainOf u q = 0) := by
  have heq : internalWork cells u u = ((solidCells cells).map fun c => c.work u u).sum := rfl
  rw [heq]
  refine ⟨List.sum_nonneg fun y hy => ?_, fun h0 c hc q => ?_⟩
  · obtain ⟨c, hc, rfl⟩ := List.mem_map.1 hy
    exact (work_nonneg c u (hpos c hc)).1
  · exact (work_nonneg c u (hpos c hc)).2
      (sum_zero_each (fun c => c.work u u) _ (fun c hc => (work_nonneg c u (hpos c hc)).1) h0 c hc) q

/-- The supports hold the body: an allowed displacement without strain in any solid cell is zero. -/
def Supported (h : Hanging ι) (cells : List (SolidCell d ι)) : Prop :=
  ∀ w, Compatible h w → (∀ c ∈ solidCells cells, ∀ q, c.strainOf w q = 0) → w = fun _ => 0

/-- **C112**. The global matrix is symmetric and positive semi-definite, and positive definite when the supports hold the
body: what the conjugate gradient method needs. -/
theorem C112_matrix (h : Hanging ι) (diag : ι → ℝ) (hd : ∀ g, 0 < diag g) (cells : List (SolidCell d ι))
    (hpos : StiffCells cells) :
    (∀ g g', systemMatrix h diag cells g g' = systemMatrix h diag cells g' g) ∧
      (∀ x : ι → ℝ, 0 ≤ ∑ g, x g * ∑ g', systemMatrix h diag cells g g' * x g') ∧
      (Supported h cells → ∀ x : ι → ℝ, ∑ g, x g * ∑ g', systemMatrix h diag cells g g' * x g' = 0 → x = fun _ => 0) := by
  have hdiag : ∀ x : ι → ℝ, 0 ≤ ∑ g, if h.constrained g then x g * (diag g * x g) else 0 := fun x =>
    Finset.sum_nonneg fun g _ => by
      split_ifs
      · have := mul_nonneg (hd g).le (mul_self_nonneg (x g)); nlinarith
      · exact le_rfl
  refine ⟨?_, ?_, ?_⟩
  · intro g g'
    unfold systemMatrix
    rw [foldl_matrix, foldl_matrix]
    congr 1
    · congr 2
      refine List.map_congr_left fun c _ => ?_
      rw [Finset.sum_comm]
      refine Finset.sum_congr rfl fun i _ => Finset.sum_congr rfl fun j _ => ?_
      rw [C47_symmetric]; ring
    · by_cases hg : g = g'
      · subst hg; rfl
      · simp [hg, Ne.symm hg]
  · intro x
    rw [matrix_work]
    exact add_nonneg (internalWork_nonneg cells _ hpos).1 (hdiag x)
  · intro hs x hx
    rw [matrix_work] at hx
    obtain ⟨h1, h2⟩ := internalWork_nonneg cells (h.resolve x) hpos
    have h3 := hdiag x
    have h4 : h.resolve x = fun _ => 0 := hs _ (resolve_compatible h x) (h2 (by linarith))
    have h5 : ∑ g, (if h.constrained g then x g * (diag g * x g) else 0) = 0 := by linarith
    rw [Finset.sum_eq_zero_iff_of_nonneg (fun g _ => by
      split_ifs
      · have := mul_nonneg (hd g).le (mul_self_nonneg (x g)); nlinarith
      · exact le_rfl)] at h5
    funext g
    by_cases hg : h.constrained g = true
    · have h6 := h5 g (Finset.mem_univ _)
      rw [if_pos hg] at h6
      have hdg := (hd g).ne'
      rcases mul_eq_zero.1 h6 with h7 | h7
      · exact h7
      · exact (mul_eq_zero.1 h7).resolve_left hdg
    · have h6 := congrFun h4 g
      have h7 : h.resolve x g = x g := by
        unfold Hanging.resolve
        rw [Finset.sum_eq_single g]
        · simp [Hanging.coef, hg]
        · intro b _ hb
          simp [Hanging.coef, hg, Ne.symm hb]
        · simp
      rw [← h7, h6]

/-- **C112**. When the supports hold the body the system has exactly one solution. -/
theorem C112_unique (h : Hanging ι) (diag : ι → ℝ) (hd : ∀ g, 0 < diag g) (thermal : Bool) (forces : List (Force d ι))
    (cells : List (SolidCell d ι)) (hpos : StiffCells cells) (hs : Supported h cells) :
    ∃! x, Solves h diag thermal forces cells x := by
  let L : (ι → ℝ) →ₗ[ℝ] (ι → ℝ) :=
    { toFun := fun x g => ∑ g', systemMatrix h diag cells g g' * x g'
      map_add' := fun x y => by funext g; simp [mul_add, Finset.sum_add_distrib]
      map_smul' := fun a x => by
        funext g
        simp only [Pi.smul_apply, smul_eq_mul, RingHom.id_apply, Finset.mul_sum]
        exact Finset.sum_congr rfl fun g' _ => by ring }
  have hinj : Function.Injective L := by
    rw [← LinearMap.ker_eq_bot, LinearMap.ker_eq_bot']
    intro x hx
    refine (C112_matrix h diag hd cells hpos).2.2 hs x ?_
    refine Finset.sum_eq_zero fun g _ => ?_
    have : ∑ g', systemMatrix h diag cells g g' * x g' = 0 := congrFun hx g
    rw [this, mul_zero]
  obtain ⟨x, hx⟩ := (LinearMap.injective_iff_surjective.1 hinj) (systemRhs h thermal forces cells)
  refine ⟨x, fun g => congrFun hx g, fun y hy => ?_⟩
  apply hinj
  rw [hx]
  funext g
  exact hy g

theorem sum_map_sub' {α : Type*} (f g : α → ℝ) (l : List α) :
    (l.map fun c => f c - g c).sum = (l.map f).sum - (l.map g).sum := by
  induction l with
  | nil => simp
  | cons a l ih => simp only [List.map_cons, List.sum_cons, ih]; ring

/-- **C112**. The displacement does not depend on the numbers deal.II puts on the diagonal. -/
theorem C112_diagonal (h : Hanging ι) (diag diag' : ι → ℝ) (thermal : Bool) (forces : List (Force d ι))
    (cells : List (SolidCell d ι)) (hpos : StiffCells cells) (hs : Supported h cells) (x x' : ι → ℝ)
    (hx : Solves h diag thermal forces cells x) (hx' : Solves h diag' thermal forces cells x') :
    displacement h x = displacement h x' := by
  have hlin : ∀ (c : SolidCell d ι) (u v : ι → ℝ) (q : Fin c.nq),
      c.strainOf (fun g => u g - v g) q = c.strainOf u q - c.strainOf v q := by
    intro c u v q
    ext a b
    simp only [SolidCell.strainOf, strain, gradU, Matrix.sub_apply, sub_mul, Finset.sum_sub_distrib]
    ring
  set w : ι → ℝ := fun g => displacement h x g - displacement h x' g with hw
  have hcw : Compatible h w := by
    intro g hg
    rw [hw]
    simp only
    rw [(C112_supports h x).1 g hg, (C112_supports h x').1 g hg, ← Finset.sum_sub_distrib]
    refine Finset.sum_congr rfl fun g' _ => ?_
    split_ifs
    · ring
    · ring
  have e1 := C112_equilibrium h diag thermal forces cells x hx w hcw
  have e2 := C112_equilibrium h diag' thermal forces cells x' hx' w hcw
  have e3 : internalWork cells w w = internalWork cells (displacement h x) w - internalWork cells (displacement h x') w := by
    unfold internalWork
    rw [← sum_map_sub']
    congr 1
    refine List.map_congr_left fun c _ => ?_
    rw [← Finset.sum_sub_distrib]
    refine Finset.sum_congr rfl fun q _ => ?_
    rw [← sub_mul]
    congr 1
    rw [show c.strainOf w q = c.strainOf (displacement h x) q - c.strainOf (displacement h x') q from hlin c _ _ q]
    generalize c.strainOf (displacement h x) q = A
    generalize c.strainOf (displacement h x') q = B
    have hh : hooke c.m.lambda c.m.mu (A - B) = hooke c.m.lambda c.m.mu A + (-1 : ℝ) • hooke c.m.lambda c.m.mu B := by
      unfold hooke
      rw [trace_sub, mul_sub, sub_smul, smul_sub]
      module
    rw [hh, contract_add_left, contract_smul_left]
    ring
  have e4 := (internalWork_nonneg cells w hpos).2 (by rw [e3, e1, e2, sub_self])
  have e5 := hs w hcw e4
  funext g
  have := congrFun e5 g
  simp only [hw] at this
  linarith

/-- **C112**. The iteration limit is a tenth of the number of degrees of freedom: with fewer than ten of them the first
check already fails for every load (zero initial guess: the first residual is the norm of the load), so nothing is
computed. -/
theorem C112_small_mesh_refuted (nDofs : ℕ) (hn : nDofs < 10) (rhsNorm : ℝ) (hr : 0 < rhsNorm) :
    control nDofs rhsNorm 0 rhsNorm = .failure := by
  classical
  unfold control
  rw [if_neg (by norm_num; linarith), if_pos (by omega)]

/-- **C112**, the outcome of the linear solver: whatever the residuals `r k` are, the iteration stops after at most a tenth of the number of degrees of
freedom; it stops at the first residual that is at most `1e-12` times the norm of the load, with success, and fails (the program throws) exactly
if there is none up to the limit. -/
theorem C112_solver_outcome (nDofs : ℕ) (rhsNorm : ℝ) (r : ℕ → ℝ) :
    ∃ k : ℕ, k ≤ nDofs / 10 ∧ (∀ j < k, control nDofs rhsNorm j (r j) = .iterate) ∧
      ((control nDofs rhsNorm k (r k) = .success ∧ r k ≤ 1e-12 * rhsNorm ∧ ∀ j < k, 1e-12 * rhsNorm < r j) ∨
       (control nDofs rhsNorm k (r k) = .failure ∧ k = nDofs / 10 ∧ ∀ j ≤ nDofs / 10, 1e-12 * rhsNorm < r j)) := by
  classical
  have hit : ∀ j, 1e-12 * rhsNorm < r j → j < nDofs / 10 → control nDofs rhsNorm j (r j) = .iterate := fun j h1 h2 => by
    unfold control
    rw [if_neg (not_le.2 h1), if_neg (by omega)]
  by_cases h : ∃ k : ℕ, k ≤ nDofs / 10 ∧ r k ≤ 1e-12 * rhsNorm
  · obtain ⟨h1, h2⟩ := Nat.find_spec h
    have hmin : ∀ j < Nat.find h, 1e-12 * rhsNorm < r j := fun j hj => by
      have := Nat.find_min h hj
      push Not at this
      exact this (by omega)
    refine ⟨Nat.find h, h1, fun j hj => hit j (hmin j hj) (by omega), Or.inl ⟨?_, h2, hmin⟩⟩
    unfold control
    rw [if_pos h2]
  · push Not at h
    refine ⟨nDofs / 10, le_refl _, fun j hj => hit j (h j hj.le) hj, Or.inr ⟨?_, rfl, h⟩⟩
    unfold control
    rw [if_neg (not_le.2 (h _ (le_refl _))), if_pos (le_refl _)]

/-! ### Gravity -/

/-- **C111**. The gravity load of a body without clamped nodes sums up to its weight in the direction of the last axis
and to zero in the others: for every mesh, also with hanging nodes (`hw`: moving all nodes along the axis is allowed),
other cells than the solid ones have no weight. -/
theorem C111_weight (k : ℕ) (h : Hanging ι) (cells : List (SolidCell (k + 1) ι)) (compOf : ι → Fin (k + 1)) (a : Fin (k + 1))
    (hc : ∀ c ∈ cells, ∀ i, compOf (c.dof i) = c.geo.comp i)
    (hu : ∀ c ∈ cells, ∀ q, ∑ i, (if c.geo.comp i = a then c.shape q i else 0) = 1)
    (hw : Compatible h fun g => if compOf g = a then 1 else 0) :
    ∑ g, (if compOf g = a then systemRhs h false [gravity k] cells g else 0) =
      if a = Fin.last k then -(9.80665 * ((cells.filter fun c => c.fe = 0).map fun c => c.density * c.volume).sum) else 0 := by
  have h1 := rhs_work h false [gravity k] cells (fun g => if compOf g = a then 1 else 0)
  rw [compatible_resolve h _ hw] at h1
  simp only [Bool.false_eq_true, if_false, zero_add, ite_mul, one_mul, zero_mul] at h1
  rw [h1]
  unfold forceWork
  have hcell : ∀ c ∈ solidCells cells, ∑ q, (∑ b, ([gravity k].map fun f => f c b).sum *
      c.valueOf (fun g => if compOf g = a then 1 else 0) q b) * c.geo.JxW q =
      if a = Fin.last k then -(9.80665 * (c.density * c.volume)) else 0 := by
    intro c hcs
    have hc' : c ∈ cells := (List.mem_filter.1 hcs).1
    have hv : ∀ q b, c.valueOf (fun g => if compOf g = a then 1 else 0) q b = if b = a then 1 else 0 := by
      intro q b
      unfold SolidCell.valueOf
      by_cases hb : b = a
      · subst hb
        rw [if_pos rfl]
        refine Eq.trans ?_ (hu c hc' q)
        refine Finset.sum_congr rfl fun i _ => ?_
        dsimp only
        rw [hc c hc' i]
        split_ifs <;> simp
      · rw [if_neg hb]
        refine Finset.sum_eq_zero fun i _ => ?_
        dsimp only
        rw [hc c hc' i]
        by_cases hi : c.geo.comp i = b
        · rw [if_pos hi, if_neg (fun h => hb (hi.symm.trans h)), mul_zero]
        · rw [if_neg hi]
    simp only [hv, List.map_cons, List.map_nil, List.sum_cons, List.sum_nil, add_zero, mul_ite, mul_one, mul_zero,
      Finset.sum_ite_eq', Finset.mem_univ, if_true, gravity]
    by_cases ha : a = Fin.last k
    · simp only [if_pos ha]
      unfold SolidCell.volume
      rw [← Finset.mul_sum]
      ring
    · simp only [if_neg ha, zero_mul, Finset.sum_const_zero]
  rw [List.map_congr_left hcell]
  by_cases ha : a = Fin.last k
  · simp only [if_pos ha]
    unfold solidCells
    generalize (cells.filter fun c => c.fe = 0) = l
    induction l with
    | nil => simp
    | cons c l ih => simp only [List.map_cons, List.sum_cons, ih]; ring
  · simp [if_neg ha]

/-- **C111**. Several body forces add up, none means no load. -/
theorem C111_superposition (h : Hanging ι) (thermal : Bool) (f₁ f₂ : List (Force d ι)) (cells : List (SolidCell d ι)) (g : ι) :
    systemRhs h thermal (f₁ ++ f₂) cells g =
        systemRhs h thermal f₁ cells g + systemRhs h false f₂ cells g ∧
      systemRhs h false [] cells g = 0 := by
  have key : ∀ (t : Bool) (f : List (Force d ι)), systemRhs h t f cells g =
      (if t then thermalWork cells (h.resolve fun g' => if g' = g then 1 else 0) else 0) +
        forceWork f cells (h.resolve fun g' => if g' = g then 1 else 0) := by
    intro t f
    have := rhs_work h t f cells (fun g' => if g' = g then 1 else 0)
    simpa using this
  have hadd : ∀ w, forceWork (f₁ ++ f₂) cells w = forceWork f₁ cells w + forceWork f₂ cells w := by
    intro w
    unfold forceWork
    rw [← List.sum_map_add]
    congr 1
    refine List.map_congr_left fun c _ => ?_
    rw [← Finset.sum_add_distrib]
    refine Finset.sum_congr rfl fun q _ => ?_
    rw [← add_mul]
    congr 1
    rw [← Finset.sum_add_distrib]
    refine Finset.sum_congr rfl fun a _ => ?_
    rw [List.map_append, List.sum_append]
    ring
  refine ⟨?_, by simp [systemRhs]⟩
  rw [key, key, key, hadd]
  simp only [Bool.false_eq_true, if_false]
  ring

end Verif.Mechanics
