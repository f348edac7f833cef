import Verif.Thermal.AssemblyProps
import Mathlib.Tactic.Positivity
import Mathlib.Algebra.Order.BigOperators.Group.List

/-!
# C94, C95, C97, C98, C99: equilibrium, conservation, hanging nodes, printed heat input and lumped mass
-/

namespace Verif.Assembly

open Verif.Material Verif.Input
open Verif.Thermal (Operator evolve steps rhs Method stages rungeKutta C40_forward_euler C40_rk3 C40_rk4)

variable {ι : Type*} [Fintype ι] [DecidableEq ι]

/-! ## Consistency of the discretisation -/

/-- The properties of a finite-element mesh used below: hanging nodes are interpolated with weights that sum to one, shape functions
sum to one and their gradients to zero. -/
structure Consistent (m : Mesh ι) : Prop where
  weights : ∀ g', ∑ g, m.hanging.coef g' g = 1
  shape : ∀ c ∈ m.cells, c.fe = 0 → ∀ q, ∑ i, c.shape i q = 1
  grad : ∀ c ∈ m.cells, c.fe = 0 → ∀ q d, ∑ i, c.grad i q d = 0
  mshape : ∀ c ∈ m.cells, c.fe = 0 → ∀ q, ∑ i, c.mshape i q = 1
  face : ∀ f ∈ m.faces, f.Exposed → ∀ q, ∑ i, f.material.shape i q = 1

/-- The basis function of `g` at the points of the Gauss-Lobatto rule of the mass matrix. -/
def Cell.mphi (c : Cell ι) (h : Hanging ι) (g : ι) (q : Fin c.mq) : ℝ := ∑ i, h.coef (c.dof i) g * c.mshape i q

/-- The cells with material. -/
def Mesh.material (m : Mesh ι) : List (Cell ι) := m.cells.filter fun c => decide (c.fe = 0)

/-- The faces with material on exactly one side. -/
def Mesh.surface (m : Mesh ι) : List (Face ι) := m.faces.filter fun f => decide f.Exposed

/-- The integral of the temperature over the cells with material, by the Gauss-Lobatto rule. -/
def Mesh.integral (m : Mesh ι) (y : ι → ℝ) : ℝ :=
  (m.material.map fun c => ∑ q, c.mjxw q * ∑ g, y g * c.mphi m.hanging g q).sum

/-- The volume of the cells with material. -/
def Mesh.volume (m : Mesh ι) : ℝ := (m.material.map fun c => ∑ q, c.mjxw q).sum

theorem mem_material (m : Mesh ι) (c : Cell ι) : c ∈ m.material ↔ c ∈ m.cells ∧ c.fe = 0 := by simp [Mesh.material]

theorem mem_surface (m : Mesh ι) (f : Face ι) : f ∈ m.surface ↔ f ∈ m.faces ∧ f.Exposed := by simp [Mesh.surface]

theorem sum_coef_mul {n : ℕ} (h : Hanging ι) (hw : ∀ g', ∑ g, h.coef g' g = 1) (dof : Fin n → ι) (s : Fin n → ℝ) :
    ∑ g, ∑ i, h.coef (dof i) g * s i = ∑ i, s i := by
  rw [Finset.sum_comm]
  refine Finset.sum_congr rfl fun i _ => ?_
  rw [← Finset.sum_mul, hw, one_mul]

theorem sum_list {α : Type*} (l : List α) (φ : α → ι → ℝ) : ∑ g, (l.map fun a => φ a g).sum = (l.map fun a => ∑ g, φ a g).sum := by
  induction l with
  | nil => simp
  | cons a l ih => simp only [List.map_cons, List.sum_cons, Finset.sum_add_distrib, ih]

theorem sum_list_mul {α : Type*} (l : List α) (w : ι → ℝ) (φ : α → ι → ℝ) :
    ∑ g, w g * (l.map fun a => φ a g).sum = (l.map fun a => ∑ g, w g * φ a g).sum := by
  rw [← sum_list]
  refine Finset.sum_congr rfl fun g _ => ?_
  induction l with
  | nil => simp
  | cons a l ih => simp only [List.map_cons, List.sum_cons, mul_add, ih]

theorem list_sum_congr {α : Type*} (l : List α) (φ ψ : α → ℝ) (h : ∀ a ∈ l, φ a = ψ a) : (l.map φ).sum = (l.map ψ).sum := by
  rw [List.map_congr_left h]

theorem list_nonpos (l : List ℝ) (h : ∀ x ∈ l, x ≤ 0) : l.sum ≤ 0 := by
  induction l with
  | nil => simp
  | cons a l ih =>
    rw [List.sum_cons]
    have := h a (by simp)
    have := ih fun x hx => h x (by simp [hx])
    linarith

/-! ## C99: the lumped mass -/

theorem massApply_eq (h : Hanging ι) (src dst : ι → ℝ) (c : Cell ι) (g : ι) :
    massApply h src dst c g = dst g + (if c.fe = 0 then ∑ i, h.coef (c.dof i) g *
      (∑ q, (∑ j, c.mshape j q * h.resolve src (c.dof j)) * c.mshape i q * c.mjxw q) else 0) := by
  unfold massApply
  split_ifs <;> simp [Hanging.distribute]

theorem mass_sum (m : Mesh ι) (hm : Consistent m) (g : ι) :
    m.cells.foldl (massApply m.hanging fun _ => 1) (fun _ => 0) g =
      (m.material.map fun c => ∑ q, c.mjxw q * c.mphi m.hanging g q).sum := by
  rw [foldl_add _ _ (massApply_eq m.hanging fun _ => 1), sum_filter_ite, zero_add]
  refine list_sum_congr _ _ _ fun c hc => ?_
  have hc' := (mem_material m c).1 hc
  have h1 : ∀ q, (∑ j, c.mshape j q * m.hanging.resolve (fun _ => 1) (c.dof j)) = 1 := by
    intro q
    refine Eq.trans (Finset.sum_congr rfl fun j _ => ?_) (hm.mshape c hc'.1 hc'.2 q)
    simp [Hanging.resolve, hm.weights]
  simp only [h1, one_mul, Cell.mphi, Finset.mul_sum]
  rw [Finset.sum_comm]
  exact Finset.sum_congr rfl fun q _ => Finset.sum_congr rfl fun i _ => by ring

theorem mphi_constrained (c : Cell ι) (h : Hanging ι) (g : ι) (hg : h.constrained g = true) (q : Fin c.mq) : c.mphi h g q = 0 := by
  unfold Cell.mphi
  exact Finset.sum_eq_zero fun i _ => by rw [coef_constrained h _ g hg, zero_mul]

/-- **C99.**  The lumped mass of an unconstrained degree of freedom is the integral of its basis function over the cells with
material; the masses of the unconstrained degrees of freedom add up to the volume of the material and weight a temperature vector to
the integral of the temperature; the mass of a constrained degree of freedom is one; multiplying by the inverse undoes
multiplying by the mass wherever the mass is not zero. -/
theorem C99_lumped_mass (m : Mesh ι) (hm : Consistent m) :
    (∀ g, m.hanging.constrained g = false →
      m.mass g = (m.material.map fun c => ∑ q, c.mjxw q * c.mphi m.hanging g q).sum) ∧
    (∀ g, m.hanging.constrained g = true → m.mass g = 1 ∧ m.invMass g = 1) ∧
    (∑ g, if m.hanging.constrained g then 0 else m.mass g) = m.volume ∧
    (∀ y : ι → ℝ, (∑ g, if m.hanging.constrained g then 0 else m.mass g * y g) = m.integral y) ∧
    (∀ g, m.mass g ≠ 0 → m.invMass g * m.mass g = 1) := by
  have h1 : ∀ g, m.hanging.constrained g = false →
      m.mass g = (m.material.map fun c => ∑ q, c.mjxw q * c.mphi m.hanging g q).sum := by
    intro g hg
    unfold Mesh.mass
    simp only [hg]
    rw [if_neg (by simp), mass_sum m hm]
  have h2 : ∀ g, m.hanging.constrained g = true → m.mass g = 1 := by
    intro g hg
    unfold Mesh.mass
    simp only [hg, if_true]
    rw [mass_sum m hm]
    have : (m.material.map fun c => ∑ q, c.mjxw q * c.mphi m.hanging g q).sum = 0 := by
      apply List.sum_eq_zero
      intro x hx
      obtain ⟨c, _, rfl⟩ := List.mem_map.1 hx
      exact Finset.sum_eq_zero fun q _ => by rw [mphi_constrained c _ g hg, mul_zero]
    rw [this, zero_add]
  have h4 : ∀ y : ι → ℝ, (∑ g, if m.hanging.constrained g then 0 else m.mass g * y g) = m.integral y := by
    intro y
    have : ∀ g, (if m.hanging.constrained g then 0 else m.mass g * y g) =
        y g * (m.material.map fun c => ∑ q, c.mjxw q * c.mphi m.hanging g q).sum := by
      intro g
      by_cases hg : m.hanging.constrained g = true
      · rw [if_pos hg]
        have : (m.material.map fun c => ∑ q, c.mjxw q * c.mphi m.hanging g q).sum = 0 := by
          apply List.sum_eq_zero
          intro x hx
          obtain ⟨c, _, rfl⟩ := List.mem_map.1 hx
          exact Finset.sum_eq_zero fun q _ => by rw [mphi_constrained c _ g hg, mul_zero]
        rw [this, mul_zero]
      · rw [if_neg hg, h1 g (by simpa using hg), mul_comm]
    simp only [this]
    rw [sum_list_mul]
    unfold Mesh.integral
    refine list_sum_congr _ _ _ fun c _ => ?_
    simp only [Finset.mul_sum]
    rw [Finset.sum_comm]
    exact Finset.sum_congr rfl fun q _ => Finset.sum_congr rfl fun g _ => by ring
  refine ⟨h1, fun g hg => ⟨h2 g hg, ?_⟩, ?_, h4, ?_⟩
  · rw [Mesh.invMass, h2 g hg, div_one]
  · have := h4 fun _ => 1
    simp only [mul_one] at this
    rw [this]
    unfold Mesh.integral Mesh.volume
    refine list_sum_congr _ _ _ fun c hc => ?_
    have hc' := (mem_material m c).1 hc
    refine Finset.sum_congr rfl fun q _ => ?_
    simp only [one_mul, Cell.mphi]
    rw [sum_coef_mul m.hanging hm.weights c.dof fun i => c.mshape i q, hm.mshape c hc'.1 hc'.2, mul_one]
  · intro g hg
    rw [Mesh.invMass, one_div, inv_mul_cancel₀ hg]

/-! ## Time stepping in closed form -/

/-- One step of a method for `y' = f(t, y)` (C40). -/
noncomputable def stepOf (f : ℝ → (ι → ℝ) → ι → ℝ) (t dt : ℝ) (y : ι → ℝ) : Method → ι → ℝ
  | .forwardEuler => fun i => y i + dt * f t y i
  | .rk3 =>
    let k1 := f t y
    let k2 := f (t + dt / 2) (fun i => y i + dt / 2 * k1 i)
    let k3 := f (t + dt) (fun i => y i + dt * (2 * k2 i - k1 i))
    fun i => y i + dt * (k1 i + 4 * k2 i + k3 i) / 6
  | .rk4 =>
    let k1 := f t y
    let k2 := f (t + dt / 2) (fun i => y i + dt / 2 * k1 i)
    let k3 := f (t + dt / 2) (fun i => y i + dt / 2 * k2 i)
    let k4 := f (t + dt) (fun i => y i + dt * k3 i)
    fun i => y i + dt * (k1 i + 2 * k2 i + 2 * k3 i + k4 i) / 6

/-- `k` steps. -/
noncomputable def runOf (f : ℝ → (ι → ℝ) → ι → ℝ) (meth : Method) (dt : ℝ) : ℕ → ℝ → (ι → ℝ) → ι → ℝ
  | 0, _, y => y
  | k + 1, t, y => runOf f meth dt k (t + dt) (stepOf f t dt y meth)

omit [Fintype ι] [DecidableEq ι] in
theorem stages_keep (dt t : ℝ) (y : ι → ℝ) (rows : List (ℝ × List ℝ)) (ks : List (ι → ℝ)) (op : Operator ι) :
    (stages dt t y rows ks op).2.apply = op.apply ∧ (stages dt t y rows ks op).2.heat = op.heat ∧
    (stages dt t y rows ks op).2.invMass = op.invMass := by
  induction rows generalizing ks op with
  | nil => exact ⟨rfl, rfl, rfl⟩
  | cons r rows ih =>
    obtain ⟨c, a⟩ := r
    simp only [stages]
    exact ih _ _

omit [Fintype ι] [DecidableEq ι] in
theorem evolve_eq (meth : Method) (op : Operator ι) (t dt : ℝ) (y : ι → ℝ) :
    ∃ op', rhs op' = rhs op ∧ evolve (some meth) op t dt y = some (t + dt, stepOf (rhs op) t dt y meth, op') := by
  have key : ∀ op', (evolve (some meth) op t dt y).map (fun r => r.2.2) = some op' → rhs op' = rhs op := by
    intro op' h
    have : op'.apply = op.apply ∧ op'.heat = op.heat ∧ op'.invMass = op.invMass := by
      cases meth with
      | forwardEuler =>
        simp only [evolve, Option.map_some, Option.some.injEq] at h
        subst h; exact ⟨rfl, rfl, rfl⟩
      | rk3 =>
        simp only [evolve, rungeKutta, Option.map_some, Option.some.injEq] at h
        subst h; exact stages_keep _ _ _ _ _ _
      | rk4 =>
        simp only [evolve, rungeKutta, Option.map_some, Option.some.injEq] at h
        subst h; exact stages_keep _ _ _ _ _ _
    funext t y i
    simp only [rhs, this.1, this.2.1, this.2.2]
  cases meth with
  | forwardEuler =>
    obtain ⟨op', h⟩ := C40_forward_euler op t dt y
    exact ⟨op', key op' (by rw [h]; rfl), h⟩
  | rk3 =>
    obtain ⟨op', h⟩ := C40_rk3 op t dt y
    exact ⟨op', key op' (by rw [h]; rfl), h⟩
  | rk4 =>
    obtain ⟨op', h⟩ := C40_rk4 op t dt y
    exact ⟨op', key op' (by rw [h]; rfl), h⟩

omit [Fintype ι] [DecidableEq ι] in
theorem steps_eq (meth : Method) (dt : ℝ) (k : ℕ) (t : ℝ) (y : ι → ℝ) (op : Operator ι) :
    ∃ op', steps (some meth) dt k (t, y, op) = some (t + k * dt, runOf (rhs op) meth dt k t y, op') := by
  induction k generalizing t y op with
  | zero => exact ⟨op, by simp [steps, runOf]⟩
  | succ k ih =>
    obtain ⟨op1, h0, h1⟩ := evolve_eq meth op t dt y
    obtain ⟨op2, h2⟩ := ih (t + dt) (stepOf (rhs op) t dt y meth) op1
    refine ⟨op2, ?_⟩
    simp only [steps, h1, Option.bind_some, h2, runOf, h0]
    congr 2
    push_cast
    ring

theorem rhs_operator (m : Mesh ι) (beams : ℝ → List Beam) (t0 t : ℝ) (y : ι → ℝ) (g : ι) :
    rhs (m.operator beams t0) t y g = m.invMass g * m.vmult (beams t) y g := by
  simp [rhs, Mesh.operator]

/-- The operator handed to the time stepper is what `evaluate_thermal_physics` computes. -/
theorem evaluate_operator (m : Mesh ι) (beams : ℝ → List Beam) (t0 t : ℝ) (y : ι → ℝ) (g : ι) :
    rhs (m.operator beams t0) t y g = m.evaluate beams t y g := by
  rw [rhs_operator, Mesh.evaluate, mul_comm]; rfl

/-- **C93**, the right-hand side of the time stepper: what `evaluate_thermal_physics` returns for an unconstrained degree of freedom,
times its mass, is the weak form with the sources at the requested time `t`, and this is the right-hand side of C40. -/
theorem C93_right_hand_side (m : Mesh ι) (hp : PureAdiabatic m.types) (beams : ℝ → List Beam) (t0 t : ℝ)
    (hoff : OffIsZero (beams t)) (y : ι → ℝ) (g : ι) (hg : m.hanging.constrained g = false) (hmass : m.mass g ≠ 0) :
    m.evaluate beams t y g * m.mass g =
      ((m.cells.filter fun c => decide (c.fe = 0)).map fun c => c.weak m.hanging (power (beams t)) y g).sum +
      ((m.faces.filter fun f => decide f.Exposed).map fun f => f.weak m.types m.hanging y g).sum ∧
    rhs (m.operator beams t0) t y g = m.evaluate beams t y g := by
  refine ⟨?_, evaluate_operator m beams t0 t y g⟩
  rw [Mesh.evaluate, C93_weak_form m (beams t) hoff hp _ _ g hg, Mesh.invMass, zero_add, mul_assoc, one_div,
    inv_mul_cancel₀ hmass, mul_one]

/-! ## Sources that are off -/

theorem entry_off (c : Cell ι) (h : Hanging ι) (beams : List Beam) (hs : sourcesOn beams = false) (y : ι → ℝ) (i : Fin c.n) :
    c.entry h beams y i = c.entry h [] y i := by
  unfold Cell.entry
  rw [hs, show sourcesOn [] = false from rfl]
  simp

theorem vmultAdd_off (m : Mesh ι) (beams : List Beam) (hs : sourcesOn beams = false) (dst y : ι → ℝ) :
    m.vmultAdd beams dst y = m.vmultAdd [] dst y := by
  have : cellApply m.hanging beams y = cellApply m.hanging [] y := by
    funext d c g
    rw [cellApply_add, cellApply_add]
    simp only [entry_off c m.hanging beams hs]
  funext g
  unfold Mesh.vmultAdd
  rw [this]

theorem offNil : OffIsZero [] := by intro b hb; simp at hb

theorem all_off (beams : List Beam) (h : ∀ b ∈ beams, b.on = false) : sourcesOn beams = false := by
  rw [sourcesOn_eq, List.any_eq_false]
  intro b hb
  simp [h b hb]

/-! ## Sums over the basis -/

theorem phi_constrained (c : Cell ι) (h : Hanging ι) (g : ι) (hg : h.constrained g = true) (q : Fin c.nq) : c.phi h g q = 0 := by
  unfold Cell.phi
  exact Finset.sum_eq_zero fun i _ => by rw [coef_constrained h _ g hg, zero_mul]

theorem dphi_constrained (c : Cell ι) (h : Hanging ι) (g : ι) (hg : h.constrained g = true) (q : Fin c.nq) (d : Fin 3) :
    c.dphi h g q d = 0 := by
  unfold Cell.dphi
  exact Finset.sum_eq_zero fun i _ => by rw [coef_constrained h _ g hg, zero_mul]

theorem fphi_constrained (f : Face ι) (h : Hanging ι) (g : ι) (hg : h.constrained g = true) (q : Fin f.nq) : f.phi h g q = 0 := by
  unfold Face.phi
  exact Finset.sum_eq_zero fun i _ => by rw [coef_constrained h _ g hg, zero_mul]

theorem bulk_constrained (m : Mesh ι) (beams : List Beam) (y : ι → ℝ) (g : ι) (hg : m.hanging.constrained g = true) :
    m.bulkTerm beams y g = 0 := by
  unfold Mesh.bulkTerm
  apply List.sum_eq_zero
  intro x hx
  obtain ⟨c, _, rfl⟩ := List.mem_map.1 hx
  unfold Cell.weak
  refine Finset.sum_eq_zero fun q _ => ?_
  simp [phi_constrained c m.hanging g hg, dphi_constrained c m.hanging g hg]

theorem boundary_constrained (m : Mesh ι) (y : ι → ℝ) (g : ι) (hg : m.hanging.constrained g = true) :
    m.boundaryTerm y g = 0 := by
  unfold Mesh.boundaryTerm
  apply List.sum_eq_zero
  intro x hx
  obtain ⟨f, _, rfl⟩ := List.mem_map.1 hx
  unfold Face.weak
  exact Finset.sum_eq_zero fun q _ => by rw [fphi_constrained f m.hanging g hg]; ring

theorem vmult_constrained (m : Mesh ι) (beams : List Beam) (y : ι → ℝ) (g : ι) (hg : m.hanging.constrained g = true) :
    m.vmult beams y g = y g := by
  have hcell : ∀ dst : ι → ℝ, m.cells.foldl (cellApply m.hanging beams y) dst g = dst g := by
    intro dst
    rw [foldl_add _ _ (cellApply_add m.hanging beams y)]
    have : (m.cells.map fun c => if c.fe = 0 then ∑ i, m.hanging.coef (c.dof i) g * c.entry m.hanging beams y i else 0).sum = 0 := by
      apply List.sum_eq_zero
      intro x hx
      obtain ⟨c, _, rfl⟩ := List.mem_map.1 hx
      simp [coef_constrained m.hanging _ g hg]
    rw [this, add_zero]
  have hface : ∀ dst : ι → ℝ, m.faces.foldl (faceApply m.types m.hanging y) dst g = dst g := by
    intro dst
    rw [foldl_add _ _ (faceApply_eq m.types m.hanging y)]
    have : (m.faces.map fun f => if f.Exposed then f.weak m.types m.hanging y g else 0).sum = 0 := by
      apply List.sum_eq_zero
      intro x hx
      obtain ⟨f, _, rfl⟩ := List.mem_map.1 hx
      unfold Face.weak
      simp [fphi_constrained f m.hanging g hg]
    rw [this, add_zero]
  unfold Mesh.vmult Mesh.vmultAdd
  simp only [hg, if_true, one_mul]
  by_cases ha : adiabaticOnly m.types = true
  · rw [if_pos ha, hcell, zero_add]
  · rw [if_neg ha, hface, hcell, zero_add]

theorem vmult_free (m : Mesh ι) (beams : List Beam) (hoff : OffIsZero beams) (hp : PureAdiabatic m.types) (y : ι → ℝ) (g : ι)
    (hg : m.hanging.constrained g = false) : m.vmult beams y g = m.bulkTerm beams y g + m.boundaryTerm y g := by
  rw [Mesh.vmult, vmultAdd_eq m beams hoff hp, hg]; simp

/-! ### Dependence on the unconstrained values only -/

/-- Two temperature vectors with the same unconstrained values. -/
def SameMasters (h : Hanging ι) (y y' : ι → ℝ) : Prop := ∀ g, h.constrained g = false → y g = y' g

omit [Fintype ι] in
theorem mul_same (h : Hanging ι) (y y' : ι → ℝ) (hs : SameMasters h y y') (c : ι → ℝ) (hc : ∀ g, h.constrained g = true → c g = 0)
    (g : ι) : y g * c g = y' g * c g := by
  by_cases hg : h.constrained g = true
  · rw [hc g hg, mul_zero, mul_zero]
  · rw [hs g (by simpa using hg)]

theorem resolve_same (h : Hanging ι) (y y' : ι → ℝ) (hs : SameMasters h y y') : h.resolve y = h.resolve y' := by
  funext g'
  unfold Hanging.resolve
  refine Finset.sum_congr rfl fun g _ => ?_
  rw [mul_comm, mul_comm (h.coef g' g)]
  exact mul_same h y y' hs (fun g => h.coef g' g) (fun g hg => coef_constrained h g' g hg) g

theorem vmult_same (m : Mesh ι) (beams : List Beam) (y y' : ι → ℝ) (hs : SameMasters m.hanging y y') (g : ι)
    (hg : m.hanging.constrained g = false) : m.vmult beams y g = m.vmult beams y' g := by
  have hr := resolve_same m.hanging y y' hs
  have hv : ∀ (c : Cell ι) (q : Fin c.nq), c.value m.hanging y q = c.value m.hanging y' q := by
    intro c q; unfold Cell.value; rw [hr]
  have hgr : ∀ (c : Cell ι) (q : Fin c.nq), c.gradient m.hanging y q = c.gradient m.hanging y' q := by
    intro c q; funext d; unfold Cell.gradient; rw [hr]
  have hfv : ∀ (f : Face ι) (q : Fin f.nq), f.value m.hanging y q = f.value m.hanging y' q := by
    intro f q; unfold Face.value; rw [hr]
  have h1 : cellApply m.hanging beams y = cellApply m.hanging beams y' := by
    funext d c g
    simp only [cellApply_add, Cell.entry, Cell.source, Cell.flux, hv, hgr]
  have h2 : faceApply m.types m.hanging y = faceApply m.types m.hanging y' := by
    funext d f g
    simp only [faceApply, Face.submitted, hfv]
  unfold Mesh.vmult Mesh.vmultAdd
  rw [h1, h2]
  simp [hg]

omit [Fintype ι] [DecidableEq ι] in
theorem add_same (h : Hanging ι) (y y' w w' : ι → ℝ) (s : ℝ) (hy : SameMasters h y y') (hw : SameMasters h w w') :
    SameMasters h (fun i => y i + s * w i) (fun i => y' i + s * w' i) := by
  intro g hg
  show y g + s * w g = y' g + s * w' g
  rw [hy g hg, hw g hg]

omit [Fintype ι] [DecidableEq ι] in
theorem sub_same (h : Hanging ι) (y y' w w' : ι → ℝ) (hy : SameMasters h y y') (hw : SameMasters h w w') :
    SameMasters h (fun i => 2 * y i - w i) (fun i => 2 * y' i - w' i) := by
  intro g hg
  show 2 * y g - w g = 2 * y' g - w' g
  rw [hy g hg, hw g hg]

theorem step_same (m : Mesh ι) (beams : ℝ → List Beam) (t0 t dt : ℝ) (meth : Method) (y y' : ι → ℝ)
    (hs : SameMasters m.hanging y y') :
    SameMasters m.hanging (stepOf (rhs (m.operator beams t0)) t dt y meth)
      (stepOf (rhs (m.operator beams t0)) t dt y' meth) := by
  have hf : ∀ t y y', SameMasters m.hanging y y' →
      SameMasters m.hanging (rhs (m.operator beams t0) t y) (rhs (m.operator beams t0) t y') := by
    intro t y y' hs g hg
    rw [rhs_operator, rhs_operator, vmult_same m _ y y' hs g hg]
  cases meth with
  | forwardEuler =>
    intro g hg
    simp only [stepOf]
    rw [hs g hg, hf t y y' hs g hg]
  | rk3 =>
    have k1 := hf t y y' hs
    have k2 := hf (t + dt / 2) _ _ (add_same _ _ _ _ _ (dt / 2) hs k1)
    have k3 := hf (t + dt) _ _ (add_same _ _ _ _ _ dt hs (sub_same _ _ _ _ _ k2 k1))
    intro g hg
    simp only [stepOf]
    rw [hs g hg, k1 g hg, k2 g hg, k3 g hg]
  | rk4 =>
    have k1 := hf t y y' hs
    have k2 := hf (t + dt / 2) _ _ (add_same _ _ _ _ _ (dt / 2) hs k1)
    have k3 := hf (t + dt / 2) _ _ (add_same _ _ _ _ _ (dt / 2) hs k2)
    have k4 := hf (t + dt) _ _ (add_same _ _ _ _ _ dt hs k3)
    intro g hg
    simp only [stepOf]
    rw [hs g hg, k1 g hg, k2 g hg, k3 g hg, k4 g hg]

/-! ## C97: hanging nodes -/

/-- **C97** (partial: the temperature field, not the stored entries of hanging nodes).  For every mesh, time stepping method, number
of steps and heat sources, the temperatures of the unconstrained degrees of freedom and the temperature field they define (hanging
nodes interpolated) do not depend on the values stored at the hanging nodes. -/
theorem C97_field_partial (m : Mesh ι) (beams : ℝ → List Beam) (t0 t dt : ℝ) (meth : Method) (k : ℕ) (y y' : ι → ℝ)
    (hs : SameMasters m.hanging y y') :
    ∃ z z' op op', steps (some meth) dt k (t, y, m.operator beams t0) = some (t + k * dt, z, op) ∧
      steps (some meth) dt k (t, y', m.operator beams t0) = some (t + k * dt, z', op') ∧
      SameMasters m.hanging z z' ∧ m.hanging.resolve z = m.hanging.resolve z' := by
  obtain ⟨op, h1⟩ := steps_eq meth dt k t y (m.operator beams t0)
  obtain ⟨op', h2⟩ := steps_eq meth dt k t y' (m.operator beams t0)
  refine ⟨_, _, op, op', h1, h2, ?_⟩
  have : SameMasters m.hanging (runOf (rhs (m.operator beams t0)) meth dt k t y)
      (runOf (rhs (m.operator beams t0)) meth dt k t y') := by
    clear h1 h2
    induction k generalizing t y y' with
    | zero => exact hs
    | succ k ih => exact ih (t + dt) _ _ (step_same m beams t0 t dt meth y y' hs)
  exact ⟨this, resolve_same _ _ _ this⟩

/-- The factor by which one step multiplies the entry of a hanging node: the Taylor polynomial of the exponential. -/
noncomputable def growth (dt : ℝ) : Method → ℝ
  | .forwardEuler => 1 + dt
  | .rk3 => 1 + dt + dt ^ 2 / 2 + dt ^ 3 / 6
  | .rk4 => 1 + dt + dt ^ 2 / 2 + dt ^ 3 / 6 + dt ^ 4 / 24

theorem hanging_growth (m : Mesh ι) (hm : Consistent m) (beams : ℝ → List Beam) (t0 t dt : ℝ) (meth : Method) (k : ℕ) (y : ι → ℝ)
    (g : ι) (hg : m.hanging.constrained g = true) :
    runOf (rhs (m.operator beams t0)) meth dt k t y g = y g * growth dt meth ^ k := by
  have hf : ∀ t y, rhs (m.operator beams t0) t y g = y g := by
    intro t y
    rw [rhs_operator, ((C99_lumped_mass m hm).2.1 g hg).2, vmult_constrained m _ y g hg, one_mul]
  induction k generalizing t y with
  | zero => simp [runOf]
  | succ k ih =>
    rw [runOf, ih]
    have : stepOf (rhs (m.operator beams t0)) t dt y meth g = y g * growth dt meth := by
      cases meth
      · simp only [stepOf, hf, growth]; ring
      · simp only [stepOf, hf, growth]; ring
      · simp only [stepOf, hf, growth]; ring
    rw [this, pow_succ]
    ring

/-! ## C94: equilibrium -/

theorem temperature_const (c : Cell ι) (h : Hanging ι) (y : ι → ℝ) (T : ℝ) (hy : ∀ g, h.constrained g = false → y g = T)
    (hw : ∀ g', ∑ g, h.coef g' g = 1) (hs : ∀ q, ∑ i, c.shape i q = 1) (q : Fin c.nq) : c.temperature h y q = T := by
  have : c.temperature h y q = ∑ g, T * c.phi h g q := by
    unfold Cell.temperature
    exact Finset.sum_congr rfl fun g _ => mul_same h y (fun _ => T) hy (fun g => c.phi h g q)
      (fun g hg => phi_constrained c h g hg q) g
  rw [this, ← Finset.mul_sum]
  unfold Cell.phi
  rw [sum_coef_mul h hw c.dof fun i => c.shape i q, hs, mul_one]

theorem gradT_const (c : Cell ι) (h : Hanging ι) (y : ι → ℝ) (T : ℝ) (hy : ∀ g, h.constrained g = false → y g = T)
    (hw : ∀ g', ∑ g, h.coef g' g = 1) (hs : ∀ q d, ∑ i, c.grad i q d = 0) (q : Fin c.nq) (d : Fin 3) : c.gradT h y q d = 0 := by
  have : c.gradT h y q d = ∑ g, T * c.dphi h g q d := by
    unfold Cell.gradT
    exact Finset.sum_congr rfl fun g _ => mul_same h y (fun _ => T) hy (fun g => c.dphi h g q d)
      (fun g hg => dphi_constrained c h g hg q d) g
  rw [this, ← Finset.mul_sum]
  unfold Cell.dphi
  rw [sum_coef_mul h hw c.dof fun i => c.grad i q d, hs, mul_zero]

theorem surface_const (f : Face ι) (h : Hanging ι) (y : ι → ℝ) (T : ℝ) (hy : ∀ g, h.constrained g = false → y g = T)
    (hw : ∀ g', ∑ g, h.coef g' g = 1) (hs : ∀ q, ∑ i, f.material.shape i q = 1) (q : Fin f.nq) : f.temperature h y q = T := by
  have : f.temperature h y q = ∑ g, T * f.phi h g q := by
    unfold Face.temperature
    exact Finset.sum_congr rfl fun g _ => mul_same h y (fun _ => T) hy (fun g => f.phi h g q)
      (fun g hg => fphi_constrained f h g hg q) g
  rw [this, ← Finset.mul_sum]
  unfold Face.phi
  rw [sum_coef_mul h hw f.material.dof fun i => f.material.shape i q, hs, mul_one]

/-- The surroundings of every exposed face are at temperature `T`, where the face exchanges heat with them. -/
def AmbientAt (m : Mesh ι) (T : ℝ) : Prop :=
  ∀ f ∈ m.faces, f.Exposed → ∀ q,
    (Has (getType m.types f.id) .convective → (f.coef q T).convTinf = T) ∧
    (Has (getType m.types f.id) .radiative → (f.coef q T).radTinf = T)

theorem vmult_const (m : Mesh ι) (hm : Consistent m) (hp : PureAdiabatic m.types) (T : ℝ) (hT : AmbientAt m T) (beams : List Beam)
    (hoff : ∀ b ∈ beams, b.on = false) (y : ι → ℝ) (hy : ∀ g, m.hanging.constrained g = false → y g = T) (g : ι)
    (hg : m.hanging.constrained g = false) : m.vmult beams y g = 0 := by
  rw [Mesh.vmult, vmultAdd_off m beams (all_off beams hoff)]
  have := vmult_free m [] offNil hp y g hg
  rw [Mesh.vmult] at this
  rw [this]
  have h1 : m.bulkTerm [] y g = 0 := by
    unfold Mesh.bulkTerm
    apply List.sum_eq_zero
    intro x hx
    obtain ⟨c, hc, rfl⟩ := List.mem_map.1 hx
    have hc' := (mem_material m c).1 hc
    unfold Cell.weak
    refine Finset.sum_eq_zero fun q _ => ?_
    simp [gradT_const c m.hanging y T hy hm.weights (hm.grad c hc'.1 hc'.2), power]
  have h2 : m.boundaryTerm y g = 0 := by
    unfold Mesh.boundaryTerm
    apply List.sum_eq_zero
    intro x hx
    obtain ⟨f, hf, rfl⟩ := List.mem_map.1 hx
    have hf' := (mem_surface m f).1 hf
    unfold Face.weak
    refine Finset.sum_eq_zero fun q _ => ?_
    rw [surface_const f m.hanging y T hy hm.weights (hm.face f hf'.1 hf'.2)]
    have h0 : f.outflow m.types T q = 0 := by
      unfold Face.outflow
      obtain ⟨a, b⟩ := hT f hf'.1 hf'.2 q
      by_cases hc : Has (getType m.types f.id) .convective <;> by_cases hr : Has (getType m.types f.id) .radiative <;>
        simp [hc, hr, a, b]
    rw [h0]; ring
  rw [h1, h2, add_zero]

/-- **C94.**  Thermal equilibrium is preserved: when all sources are off, the surroundings of every exposed face that exchanges heat
are at temperature `T` and the unconstrained degrees of freedom are at `T`, then after any number of steps of any size with any of
the methods the field (hanging nodes interpolated) is still `T` everywhere, for any temperature-dependent material coefficients. -/
theorem C94_equilibrium (m : Mesh ι) (hm : Consistent m) (hp : PureAdiabatic m.types) (T : ℝ) (hT : AmbientAt m T)
    (beams : ℝ → List Beam) (hoff : ∀ t, ∀ b ∈ beams t, b.on = false) (t0 t dt : ℝ) (meth : Method) (k : ℕ) (y : ι → ℝ)
    (hy : ∀ g, m.hanging.constrained g = false → y g = T) :
    ∃ z op, steps (some meth) dt k (t, y, m.operator beams t0) = some (t + k * dt, z, op) ∧
      (∀ g, m.hanging.constrained g = false → z g = T) ∧ ∀ g, m.hanging.resolve z g = T := by
  obtain ⟨op, h1⟩ := steps_eq meth dt k t y (m.operator beams t0)
  refine ⟨_, op, h1, ?_⟩
  have hz : ∀ t y, (∀ g, m.hanging.constrained g = false → y g = T) → ∀ g, m.hanging.constrained g = false →
      rhs (m.operator beams t0) t y g = 0 := by
    intro t y hy g hg
    rw [rhs_operator, vmult_const m hm hp T hT (beams t) (hoff t) y hy g hg, mul_zero]
  have hmain : ∀ g, m.hanging.constrained g = false → runOf (rhs (m.operator beams t0)) meth dt k t y g = T := by
    clear h1
    induction k generalizing t y with
    | zero => exact hy
    | succ k ih =>
      refine ih (t + dt) _ ?_
      intro g hg
      have hs : ∀ (s : ℝ) (w : ι → ℝ), (∀ g, m.hanging.constrained g = false → w g = 0) →
          ∀ g, m.hanging.constrained g = false → y g + s * w g = T := by
        intro s w hw g hg; rw [hw g hg, hy g hg]; ring
      cases meth with
      | forwardEuler =>
        simp only [stepOf]
        exact hs dt _ (hz t y hy) g hg
      | rk3 =>
        have k1 := hz t y hy
        have k2 := hz (t + dt / 2) _ (hs (dt / 2) _ k1)
        have k3 := hz (t + dt) _ (hs dt (fun i => 2 * rhs (m.operator beams t0) (t + dt / 2)
          (fun i => y i + dt / 2 * rhs (m.operator beams t0) t y i) i - rhs (m.operator beams t0) t y i)
          (fun g hg => by rw [k1 g hg, k2 g hg]; ring))
        simp only [stepOf]
        rw [k1 g hg, k2 g hg, k3 g hg, hy g hg]; ring
      | rk4 =>
        have k1 := hz t y hy
        have k2 := hz (t + dt / 2) _ (hs (dt / 2) _ k1)
        have k3 := hz (t + dt / 2) _ (hs (dt / 2) _ k2)
        have k4 := hz (t + dt) _ (hs dt _ k3)
        simp only [stepOf]
        rw [k1 g hg, k2 g hg, k3 g hg, k4 g hg, hy g hg]; ring
  refine ⟨hmain, fun g' => ?_⟩
  have : m.hanging.resolve (runOf (rhs (m.operator beams t0)) meth dt k t y) = m.hanging.resolve fun _ => T :=
    resolve_same _ _ _ hmain
  rw [this]
  simp only [Hanging.resolve]
  rw [← Finset.sum_mul, hm.weights, one_mul]

/-- **C97 fails for the stored vector.**  In equilibrium at `T > 0` (all sources off, surroundings at `T`) the field stays at `T`, but
the entry stored for a hanging node is multiplied by `1 + dt` (forward Euler; the Taylor polynomial of `e^dt` for the
Runge-Kutta methods) in every step, and is not `T` after any positive number of steps.  It is reset only when
`distribute` is called (output, refinement), while the melt history, the checkpoints and the mechanical problem read the stored
vector in between. -/
theorem C97_stored_refuted (m : Mesh ι) (hm : Consistent m) (hp : PureAdiabatic m.types) (T : ℝ) (hT0 : 0 < T)
    (hT : AmbientAt m T) (beams : ℝ → List Beam) (hoff : ∀ t, ∀ b ∈ beams t, b.on = false) (t0 t dt : ℝ) (hdt : 0 < dt)
    (meth : Method) (k : ℕ) (hk : 0 < k) (g : ι) (hg : m.hanging.constrained g = true) :
    ∃ z op, steps (some meth) dt k (t, fun _ => T, m.operator beams t0) = some (t + k * dt, z, op) ∧
      m.hanging.resolve z g = T ∧ z g = T * growth dt meth ^ k ∧ T < z g := by
  obtain ⟨z, op, h1, _, h3⟩ := C94_equilibrium m hm hp T hT beams hoff t0 t dt meth k (fun _ => T) (fun _ _ => rfl)
  obtain ⟨op', h4⟩ := steps_eq meth dt k t (fun _ => T) (m.operator beams t0)
  have hz : z = runOf (rhs (m.operator beams t0)) meth dt k t (fun _ => T) := by
    rw [h1] at h4
    simp only [Option.some.injEq, Prod.mk.injEq] at h4
    exact h4.2.1
  have hzg : z g = T * growth dt meth ^ k := by rw [hz]; exact hanging_growth m hm beams t0 t dt meth k _ g hg
  refine ⟨z, op, h1, h3 g, hzg, ?_⟩
  have hgr : 1 < growth dt meth := by
    cases meth <;> simp only [growth] <;> nlinarith [sq_nonneg dt, pow_pos hdt 3, pow_pos hdt 4, pow_pos hdt 2]
  rw [hzg]
  have := one_lt_pow₀ hgr hk.ne'
  nlinarith

/-! ### Dissipation -/

/-- The second law for the material data: no negative conductivities, heat capacities, exchange coefficients or quadrature
weights. -/
structure Passive (m : Mesh ι) : Prop where
  cell : ∀ c ∈ m.cells, c.fe = 0 → ∀ q, 0 ≤ c.jxw q ∧ c.cos q ^ 2 + c.sin q ^ 2 = 1 ∧ ∀ T,
    0 ≤ (c.coef q T).invRhoCp ∧ 0 ≤ (c.coef q T).kx ∧ 0 ≤ (c.coef q T).ky ∧ 0 ≤ (c.coef q T).kz
  face : ∀ f ∈ m.faces, f.Exposed → ∀ q, 0 ≤ f.jxw q ∧ ∀ T,
    0 ≤ (f.coef q T).invRhoCp ∧ 0 ≤ (f.coef q T).conv ∧ 0 ≤ (f.coef q T).emissivity

theorem outflow_sign (f : Face ι) (types : List ℕ) (q : Fin f.nq) (T A : ℝ) (hT : 0 ≤ T) (hA : 0 ≤ A)
    (h : 0 ≤ (f.coef q T).conv ∧ 0 ≤ (f.coef q T).emissivity) (hc : Has (getType types f.id) .convective → (f.coef q T).convTinf = A)
    (hr : Has (getType types f.id) .radiative → (f.coef q T).radTinf = A) : 0 ≤ (T - A) * f.outflow types T q := by
  have h4 : 0 ≤ (T - A) * (T ^ 4 - A ^ 4) := by
    have : (T - A) * (T ^ 4 - A ^ 4) = (T - A) ^ 2 * ((T + A) * (T ^ 2 + A ^ 2)) := by ring
    rw [this]; positivity
  unfold Face.outflow
  dsimp only
  rw [mul_add]
  refine add_nonneg ?_ ?_
  · by_cases hc' : Has (getType types f.id) .convective
    · rw [if_pos hc', hc hc']
      have : (T - A) * ((f.coef q T).conv * (T - A)) = (f.coef q T).conv * (T - A) ^ 2 := by ring
      rw [this]; exact mul_nonneg h.1 (sq_nonneg _)
    · simp [hc']
  · by_cases hr' : Has (getType types f.id) .radiative
    · rw [if_pos hr', hr hr']
      have : (T - A) * ((f.coef q T).emissivity * 5.670374419e-8 * (T ^ 4 - A ^ 4)) =
          (f.coef q T).emissivity * 5.670374419e-8 * ((T - A) * (T ^ 4 - A ^ 4)) := by ring
      rw [this]; exact mul_nonneg (mul_nonneg h.2 (by norm_num)) h4
    · simp [hr']

/-- **C94**, dissipation: with all sources off and surroundings at one temperature `A ≥ 0`, and non-negative material coefficients and
surface temperatures, the distance to equilibrium `½ ∑ M (y - A)²` never increases: its rate of change is not positive for any
temperature vector. -/
theorem C94_dissipation (m : Mesh ι) (hm : Consistent m) (hp : PureAdiabatic m.types) (hpas : Passive m) (beams : ℝ → List Beam)
    (t0 t : ℝ) (hoff : ∀ b ∈ beams t, b.on = false) (A : ℝ) (hA : 0 ≤ A) (y : ι → ℝ)
    (hamb : ∀ f ∈ m.faces, f.Exposed → ∀ q, 0 ≤ f.temperature m.hanging y q ∧ ∀ T,
      (Has (getType m.types f.id) .convective → (f.coef q T).convTinf = A) ∧
      (Has (getType m.types f.id) .radiative → (f.coef q T).radTinf = A))
    (hmass : ∀ g, m.hanging.constrained g = false → m.mass g ≠ 0) :
    (∑ g, if m.hanging.constrained g then 0 else m.mass g * (y g - A) * rhs (m.operator beams t0) t y g) ≤ 0 := by
  have h1 : ∀ g, (if m.hanging.constrained g then 0 else m.mass g * (y g - A) * rhs (m.operator beams t0) t y g) =
      (y g - A) * (m.bulkTerm [] y g) + (y g - A) * (m.boundaryTerm y g) := by
    intro g
    by_cases hg : m.hanging.constrained g = true
    · rw [if_pos hg, bulk_constrained m [] y g hg, boundary_constrained m y g hg]; ring
    · have hg' : m.hanging.constrained g = false := by simpa using hg
      rw [if_neg hg, rhs_operator, Mesh.vmult, vmultAdd_off m _ (all_off _ hoff)]
      have := vmult_free m [] offNil hp y g hg'
      rw [Mesh.vmult] at this
      rw [this]
      have hinv := (C99_lumped_mass m hm).2.2.2.2 g (hmass g hg')
      linear_combination (y g - A) * (m.bulkTerm [] y g + m.boundaryTerm y g) * hinv
  simp only [h1, Finset.sum_add_distrib]
  unfold Mesh.bulkTerm Mesh.boundaryTerm
  rw [sum_list_mul, sum_list_mul]
  have hb : (((m.cells.filter fun c => decide (c.fe = 0))).map fun c =>
      ∑ g, (y g - A) * c.weak m.hanging (power []) y g).sum ≤ 0 := by
    apply list_nonpos
    intro x hx
    obtain ⟨c, hc, rfl⟩ := List.mem_map.1 hx
    have hc' := (mem_material m c).1 hc
    unfold Cell.weak
    simp only [Finset.mul_sum]
    rw [Finset.sum_comm]
    refine Finset.sum_nonpos fun q _ => ?_
    obtain ⟨hj, hcs, hk⟩ := hpas.cell c hc'.1 hc'.2 q
    set k := c.coef q (c.temperature m.hanging y q) with hkdef
    have hsum : ∀ d, ∑ g, (y g - A) * c.dphi m.hanging g q d = c.gradT m.hanging y q d := by
      intro d
      simp only [sub_mul, Finset.sum_sub_distrib, ← Finset.mul_sum]
      have : ∑ g, c.dphi m.hanging g q d = 0 := by
        unfold Cell.dphi
        rw [sum_coef_mul m.hanging hm.weights c.dof fun i => c.grad i q d, hm.grad c hc'.1 hc'.2]
      rw [this, mul_zero, sub_zero]; rfl
    have hform : (∑ g, (y g - A) * (c.jxw q * (k.invRhoCp * (power [] (c.point q) * c.phi m.hanging g q -
        ∑ d, ∑ e, c.dphi m.hanging g q d * conductivityTensor k.kx k.ky k.kz (c.cos q) (c.sin q) d e * c.gradT m.hanging y q e)))) =
        -(c.jxw q * k.invRhoCp * ∑ d, c.gradT m.hanging y q d *
          conductivityGrad k.kx k.ky k.kz (c.cos q) (c.sin q) (c.gradT m.hanging y q) d) := by
      have hpow : power [] (c.point q) = 0 := rfl
      simp only [hpow, zero_mul, zero_sub, grad_tensor]
      have : ∀ g, (y g - A) * (c.jxw q * (k.invRhoCp * -∑ d, ∑ e, c.dphi m.hanging g q d *
          conductivityTensor k.kx k.ky k.kz (c.cos q) (c.sin q) d e * c.gradT m.hanging y q e)) =
          -(c.jxw q * k.invRhoCp * ∑ d, ((y g - A) * c.dphi m.hanging g q d) *
            ∑ e, conductivityTensor k.kx k.ky k.kz (c.cos q) (c.sin q) d e * c.gradT m.hanging y q e) := by
        intro g
        have e1 : ∑ d, ((y g - A) * c.dphi m.hanging g q d) *
            ∑ e, conductivityTensor k.kx k.ky k.kz (c.cos q) (c.sin q) d e * c.gradT m.hanging y q e =
            (y g - A) * ∑ d, ∑ e, c.dphi m.hanging g q d * conductivityTensor k.kx k.ky k.kz (c.cos q) (c.sin q) d e *
              c.gradT m.hanging y q e := by
          rw [Finset.mul_sum]
          refine Finset.sum_congr rfl fun d _ => ?_
          rw [Finset.mul_sum, Finset.mul_sum]
          exact Finset.sum_congr rfl fun e _ => by ring
        rw [e1]; ring
      simp only [this]
      rw [Finset.sum_neg_distrib, ← Finset.mul_sum, Finset.sum_comm]
      congr 2
      refine Finset.sum_congr rfl fun d _ => ?_
      rw [← Finset.sum_mul, hsum]
    have hgoal : (∑ g, (y g - A) * (c.jxw q * (k.invRhoCp * (power [] (c.point q) * c.phi m.hanging g q -
        ∑ d, ∑ e, c.dphi m.hanging g q d * conductivityTensor k.kx k.ky k.kz (c.cos q) (c.sin q) d e * c.gradT m.hanging y q e)))) ≤ 0 := by
      rw [hform]
      have hpsd := (C39_conductivity k.kx k.ky k.kz (c.cos q) (c.sin q) hcs).2.2.1 0 (hk _).2.1 (hk _).2.2.1 (hk _).2.2.2
        (c.gradT m.hanging y q)
      rw [zero_mul] at hpsd
      have := mul_nonneg (mul_nonneg hj (hk (c.temperature m.hanging y q)).1) hpsd
      rw [← hkdef] at this
      linarith
    refine le_of_eq_of_le ?_ hgoal
    refine Finset.sum_congr rfl fun g _ => ?_
    simp only [Finset.mul_sum]
  have hs : ((m.faces.filter fun f => decide f.Exposed).map fun f =>
      ∑ g, (y g - A) * f.weak m.types m.hanging y g).sum ≤ 0 := by
    apply list_nonpos
    intro x hx
    obtain ⟨f, hf, rfl⟩ := List.mem_map.1 hx
    have hf' := (mem_surface m f).1 hf
    unfold Face.weak
    simp only [Finset.mul_sum]
    rw [Finset.sum_comm]
    refine Finset.sum_nonpos fun q _ => ?_
    obtain ⟨hj, hk⟩ := hpas.face f hf'.1 hf'.2 q
    obtain ⟨hT, ha⟩ := hamb f hf'.1 hf'.2 q
    set T := f.temperature m.hanging y q with hTdef
    have hsum : ∑ g, (y g - A) * f.phi m.hanging g q = T - A := by
      simp only [sub_mul, Finset.sum_sub_distrib, ← Finset.mul_sum]
      have : ∑ g, f.phi m.hanging g q = 1 := by
        unfold Face.phi
        rw [sum_coef_mul m.hanging hm.weights f.material.dof fun i => f.material.shape i q, hm.face f hf'.1 hf'.2]
      rw [this, mul_one]; rfl
    have : (∑ g, (y g - A) * (f.jxw q * (-(f.coef q T).invRhoCp * f.outflow m.types T q * f.phi m.hanging g q))) =
        -(f.jxw q * (f.coef q T).invRhoCp * ((T - A) * f.outflow m.types T q)) := by
      rw [← hsum, Finset.sum_mul, Finset.mul_sum, ← Finset.sum_neg_distrib]
      exact Finset.sum_congr rfl fun g _ => by ring
    rw [this]
    have h2 := outflow_sign f m.types q T A hT hA ⟨(hk T).2.1, (hk T).2.2⟩ (ha T).1 (ha T).2
    have := mul_nonneg (mul_nonneg hj (hk T).1) h2
    linarith
  linarith

end Verif.Assembly
