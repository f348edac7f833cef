import Verif.Thermal.Assembly
import Mathlib.Data.List.Perm.Basic
import Mathlib.Algebra.BigOperators.Group.List.Basic
import Mathlib.Tactic.NormNum
import Mathlib.Tactic.FinCases

/-!
# C93, C96, C99: the assembled equations are the weak form of the heat equation
-/

namespace Verif.Assembly

open Verif.Material Verif.Input
open Verif.Thermal (Operator evolve steps rhs Method)

variable {ι : Type*} [Fintype ι] [DecidableEq ι]

/-! ## Specification -/

/-- The conforming basis function of degree of freedom `g` at a quadrature point: the local shape functions, a hanging node
following its masters. -/
def Cell.phi (c : Cell ι) (h : Hanging ι) (g : ι) (q : Fin c.nq) : ℝ := ∑ i, h.coef (c.dof i) g * c.shape i q

/-- Its gradient. -/
def Cell.dphi (c : Cell ι) (h : Hanging ι) (g : ι) (q : Fin c.nq) (d : Fin 3) : ℝ := ∑ i, h.coef (c.dof i) g * c.grad i q d

/-- The finite-element temperature `∑ y_g φ_g` at a quadrature point. -/
def Cell.temperature (c : Cell ι) (h : Hanging ι) (y : ι → ℝ) (q : Fin c.nq) : ℝ := ∑ g, y g * c.phi h g q

/-- Its gradient. -/
def Cell.gradT (c : Cell ι) (h : Hanging ι) (y : ι → ℝ) (q : Fin c.nq) (d : Fin 3) : ℝ := ∑ g, y g * c.dphi h g q d

/-- The power density of all heat sources. -/
def power (beams : List Beam) (p : Fin 3 → ℝ) : ℝ := (beams.map fun b => b.lanes p).sum

/-- The weak form of `∂T/∂t = (1/ρc) (∇·(K ∇T) + Q)` tested with `φ_g` on one cell, by quadrature, `K` being the conductivity tensor
turned to the deposition direction. -/
noncomputable def Cell.weak (c : Cell ι) (h : Hanging ι) (Q : (Fin 3 → ℝ) → ℝ) (y : ι → ℝ) (g : ι) : ℝ :=
  ∑ q, c.jxw q *
    let k := c.coef q (c.temperature h y q)
    k.invRhoCp * (Q (c.point q) * c.phi h g q -
      ∑ d, ∑ e, c.dphi h g q d * conductivityTensor k.kx k.ky k.kz (c.cos q) (c.sin q) d e * c.gradT h y q e)

/-- Exactly one of the two sides of the face has material. -/
def Face.Exposed (f : Face ι) : Prop := (f.fe1 = 0 ∧ f.fe2 ≠ some 0) ∨ (f.fe1 ≠ 0 ∧ f.fe2 = some 0)

instance (f : Face ι) : Decidable f.Exposed := inferInstanceAs (Decidable (_ ∨ _))

/-- The side of an exposed face that has material. -/
def Face.material (f : Face ι) : Side ι f.nq := if f.fe2 = some 0 then f.side2 else f.side1

/-- The basis function of `g` on the face, seen from the side with material. -/
def Face.phi (f : Face ι) (h : Hanging ι) (g : ι) (q : Fin f.nq) : ℝ := ∑ i, h.coef (f.material.dof i) g * f.material.shape i q

/-- The surface temperature. -/
def Face.temperature (f : Face ι) (h : Hanging ι) (y : ι → ℝ) (q : Fin f.nq) : ℝ := ∑ g, y g * f.phi h g q

/-- The heat flux out of the body at a point of the face: Newton's law where the boundary is convective, the Stefan-Boltzmann law
where it is radiative. -/
noncomputable def Face.outflow (f : Face ι) (types : List ℕ) (T : ℝ) (q : Fin f.nq) : ℝ :=
  let k := f.coef q T;
  (if Has (getType types f.id) .convective then k.conv * (T - k.convTinf) else 0) +
    (if Has (getType types f.id) .radiative then k.emissivity * 5.670374419e-8 * (T ^ 4 - k.radTinf ^ 4) else 0)

/-- The boundary term of the weak form tested with `φ_g`. -/
noncomputable def Face.weak (f : Face ι) (types : List ℕ) (h : Hanging ι) (y : ι → ℝ) (g : ι) : ℝ :=
  ∑ q, f.jxw q * (-(f.coef q (f.temperature h y q)).invRhoCp * f.outflow types (f.temperature h y q) q * f.phi h g q)

/-- No boundary is at once adiabatic and convective or radiative. -/
def PureAdiabatic (types : List ℕ) : Prop := ∀ t ∈ types, Has t .adiabatic → ¬ Has t .convective ∧ ¬ Has t .radiative

/-- A source that is off delivers nothing (C65). -/
def OffIsZero (beams : List Beam) : Prop := ∀ b ∈ beams, b.on = false → ∀ p, b.lanes p = 0

/-! ## Lemmas -/

theorem foldl_add {α : Type*} (f : (ι → ℝ) → α → ι → ℝ) (φ : α → ι → ℝ) (hf : ∀ dst a g, f dst a g = dst g + φ a g)
    (l : List α) (dst : ι → ℝ) (g : ι) : l.foldl f dst g = dst g + (l.map fun a => φ a g).sum := by
  induction l generalizing dst with
  | nil => simp
  | cons a l ih => rw [List.foldl_cons, ih, hf, List.map_cons, List.sum_cons, add_assoc]

theorem sourcesOn_eq (beams : List Beam) : sourcesOn beams = beams.any (·.on) := by
  have : ∀ (l : List Beam) (on : Bool), l.foldl (fun on b => if b.on then true else on) on = (on || l.any (·.on)) := by
    intro l
    induction l with
    | nil => simp
    | cons b l ih =>
      intro on
      rw [List.foldl_cons, ih, List.any_cons]
      cases b.on <;> cases on <;> simp
  rw [sourcesOn, this]; simp

theorem foldl_sum {α : Type*} (f : α → ℝ) (l : List α) (a : ℝ) : l.foldl (fun s b => s + f b) a = a + (l.map f).sum := by
  induction l generalizing a with
  | nil => simp
  | cons b l ih => rw [List.foldl_cons, ih, List.map_cons, List.sum_cons, add_assoc]

theorem power_off (beams : List Beam) (hoff : OffIsZero beams) (h : sourcesOn beams = false) (p : Fin 3 → ℝ) :
    power beams p = 0 := by
  rw [sourcesOn_eq, List.any_eq_false] at h
  unfold power
  apply List.sum_eq_zero
  intro x hx
  obtain ⟨b, hb, rfl⟩ := List.mem_map.1 hx
  exact hoff b hb (by simpa using h b hb) p

theorem value_eq (c : Cell ι) (h : Hanging ι) (y : ι → ℝ) (q : Fin c.nq) : c.value h y q = c.temperature h y q := by
  unfold Cell.value Cell.temperature Cell.phi Hanging.resolve
  simp only [Finset.mul_sum]
  rw [Finset.sum_comm]
  exact Finset.sum_congr rfl fun g _ => Finset.sum_congr rfl fun i _ => by ring

theorem gradient_eq (c : Cell ι) (h : Hanging ι) (y : ι → ℝ) (q : Fin c.nq) (d : Fin 3) :
    c.gradient h y q d = c.gradT h y q d := by
  unfold Cell.gradient Cell.gradT Cell.dphi Hanging.resolve
  simp only [Finset.mul_sum]
  rw [Finset.sum_comm]
  exact Finset.sum_congr rfl fun g _ => Finset.sum_congr rfl fun i _ => by ring

theorem grad_tensor (kx ky kz cos sin : ℝ) (g : Fin 3 → ℝ) (d : Fin 3) :
    conductivityGrad kx ky kz cos sin g d = ∑ e, conductivityTensor kx ky kz cos sin d e * g e := by
  rw [conductivityTensor_eq]
  fin_cases d <;> simp [conductivityGrad, Fin.sum_univ_three]
  ring

theorem entry_eq (c : Cell ι) (h : Hanging ι) (beams : List Beam) (hoff : OffIsZero beams) (y : ι → ℝ) (i : Fin c.n) :
    c.entry h beams y i = ∑ q, c.jxw q *
      let k := c.coef q (c.temperature h y q)
      k.invRhoCp * (power beams (c.point q) * c.shape i q -
        ∑ d, ∑ e, c.grad i q d * conductivityTensor k.kx k.ky k.kz (c.cos q) (c.sin q) d e * c.gradT h y q e) := by
  have hflux : ∀ q, (∑ d, c.flux h y q d * c.grad i q d) =
      -((c.coef q (c.temperature h y q)).invRhoCp * ∑ d, ∑ e, c.grad i q d *
        conductivityTensor (c.coef q (c.temperature h y q)).kx (c.coef q (c.temperature h y q)).ky
          (c.coef q (c.temperature h y q)).kz (c.cos q) (c.sin q) d e * c.gradT h y q e) := by
    intro q
    rw [Finset.mul_sum, ← Finset.sum_neg_distrib]
    refine Finset.sum_congr rfl fun d _ => ?_
    simp only [Cell.flux, value_eq, grad_tensor, gradient_eq]
    rw [Finset.mul_sum, Finset.sum_mul, Finset.mul_sum, ← Finset.sum_neg_distrib]
    exact Finset.sum_congr rfl fun e _ => by ring
  unfold Cell.entry
  by_cases hs : sourcesOn beams = true
  · rw [if_pos hs]
    refine Finset.sum_congr rfl fun q _ => ?_
    rw [hflux]
    simp only [Cell.source, value_eq, foldl_sum, zero_add, power]
    ring
  · rw [if_neg hs]
    refine Finset.sum_congr rfl fun q _ => ?_
    rw [hflux, power_off beams hoff (by simpa using hs)]
    ring

theorem cell_term (c : Cell ι) (h : Hanging ι) (beams : List Beam) (hoff : OffIsZero beams) (y : ι → ℝ) (g : ι) :
    ∑ i, h.coef (c.dof i) g * c.entry h beams y i = c.weak h (power beams) y g := by
  simp only [entry_eq c h beams hoff, Finset.mul_sum, Cell.weak]
  rw [Finset.sum_comm]
  refine Finset.sum_congr rfl fun q _ => ?_
  simp only [Cell.phi, Cell.dphi, Finset.sum_mul, Finset.mul_sum, mul_sub, Finset.sum_sub_distrib]
  congr 1
  · exact Finset.sum_congr rfl fun i _ => by ring
  · rw [Finset.sum_comm]
    refine Finset.sum_congr rfl fun d _ => ?_
    rw [Finset.sum_comm]
    refine Finset.sum_congr rfl fun e _ => ?_
    exact Finset.sum_congr rfl fun i _ => by ring

theorem cellApply_eq (h : Hanging ι) (beams : List Beam) (hoff : OffIsZero beams) (y dst : ι → ℝ) (c : Cell ι) (g : ι) :
    cellApply h beams y dst c g = dst g + (if c.fe = 0 then c.weak h (power beams) y g else 0) := by
  unfold cellApply
  split_ifs with hc
  · rw [Hanging.distribute, cell_term c h beams hoff]
  · simp

theorem exposed_iff (f : Face ι) : f.Exposed ↔ ¬ (some f.fe1 = f.fe2) ∧ ¬ (f.fe1 ≠ 0 ∧ f.fe2 ≠ some 0) := by
  unfold Face.Exposed
  constructor
  · rintro (⟨h1, h2⟩ | ⟨h1, h2⟩)
    · exact ⟨fun h => h2 (by rw [← h, h1]), fun h => h.1 h1⟩
    · exact ⟨fun h => h1 (by rw [h2] at h; simpa using h), fun h => h.2 h2⟩
  · rintro ⟨h1, h2⟩
    by_cases h3 : f.fe1 = 0
    · exact Or.inl ⟨h3, fun h => h1 (by rw [h, h3])⟩
    · exact Or.inr ⟨h3, by by_contra h; exact h2 ⟨h3, h⟩⟩

theorem side_eq (f : Face ι) (hf : f.Exposed) : f.side = f.material := by
  unfold Face.side Face.material
  rcases hf with ⟨h1, h2⟩ | ⟨h1, h2⟩
  · rw [if_pos h1, if_neg h2]
  · rw [if_neg h1, if_pos h2]

theorem face_value_eq (f : Face ι) (hf : f.Exposed) (h : Hanging ι) (y : ι → ℝ) (q : Fin f.nq) :
    f.value h y q = f.temperature h y q := by
  unfold Face.value Face.temperature Face.phi Hanging.resolve
  rw [side_eq f hf]
  simp only [Finset.mul_sum]
  rw [Finset.sum_comm]
  exact Finset.sum_congr rfl fun g _ => Finset.sum_congr rfl fun i _ => by ring

theorem submitted_eq (f : Face ι) (hf : f.Exposed) (types : List ℕ) (h : Hanging ι) (y : ι → ℝ) (q : Fin f.nq) :
    f.submitted types h y q =
      -(f.coef q (f.temperature h y q)).invRhoCp * f.outflow types (f.temperature h y q) q := by
  unfold Face.submitted Face.outflow
  simp only [face_value_eq f hf]
  rw [(C36_boundary_value _ _ _ _ _ _ _ _).1]
  simp only [decide_eq_true_eq]

theorem face_term (f : Face ι) (hf : f.Exposed) (types : List ℕ) (h : Hanging ι) (y : ι → ℝ) (g : ι) :
    ∑ i, h.coef (f.side.dof i) g * (∑ q, f.submitted types h y q * f.side.shape i q * f.jxw q) = f.weak types h y g := by
  simp only [submitted_eq f hf, Finset.mul_sum, Face.weak, Face.phi]
  rw [Finset.sum_comm]
  refine Finset.sum_congr rfl fun q _ => ?_
  rw [side_eq f hf]
  exact Finset.sum_congr rfl fun i _ => by ring

theorem faceApply_eq (types : List ℕ) (h : Hanging ι) (y dst : ι → ℝ) (f : Face ι) (g : ι) :
    faceApply types h y dst f g = dst g + (if f.Exposed then f.weak types h y g else 0) := by
  unfold faceApply
  by_cases h1 : some f.fe1 = f.fe2
  · rw [if_pos h1, if_neg (fun hf => ((exposed_iff f).1 hf).1 h1), add_zero]
  · rw [if_neg h1]
    by_cases h2 : f.fe1 ≠ 0 ∧ f.fe2 ≠ some 0
    · rw [if_pos h2, if_neg (fun hf => ((exposed_iff f).1 hf).2 h2), add_zero]
    · rw [if_neg h2, if_pos ((exposed_iff f).2 ⟨h1, h2⟩), Hanging.distribute, face_term f ((exposed_iff f).2 ⟨h1, h2⟩)]

theorem getType_adiabatic (types : List ℕ) (ha : adiabaticOnly types = true) (hp : PureAdiabatic types) (id : ℕ) :
    ¬ Has (getType types id) .convective ∧ ¬ Has (getType types id) .radiative := by
  have hall : ∀ i < types.length, Has (types.getD i 0) .adiabatic := by
    unfold adiabaticOnly at ha
    have ha := of_decide_eq_true ha
    unfold getIds nIds at ha
    intro i hi
    have := List.length_filter_eq_length_iff.1 (ha.trans (List.length_range (n := types.length)).symm) i (List.mem_range.2 hi)
    simpa using this
  have key : ∀ i < types.length, ¬ Has (types.getD i 0) .convective ∧ ¬ Has (types.getD i 0) .radiative := by
    intro i hi
    refine hp _ ?_ (hall i hi)
    rw [List.getD_eq_getElem _ _ hi]
    exact List.getElem_mem hi
  unfold getType
  by_cases hn : types.length = 0
  · rw [List.length_eq_zero_iff] at hn
    subst hn
    simp [Has]
  · split_ifs with h
    · exact key id (by omega)
    · exact key _ (by omega)

theorem weak_adiabatic (f : Face ι) (types : List ℕ) (h : Hanging ι) (y : ι → ℝ) (g : ι)
    (ht : ¬ Has (getType types f.id) .convective ∧ ¬ Has (getType types f.id) .radiative) : f.weak types h y g = 0 := by
  unfold Face.weak Face.outflow
  simp [ht.1, ht.2]

/-- The sum over the faces that have material on exactly one side. -/
noncomputable def Mesh.boundaryTerm (m : Mesh ι) (y : ι → ℝ) (g : ι) : ℝ :=
  ((m.faces.filter fun f => decide f.Exposed).map fun f => f.weak m.types m.hanging y g).sum

/-- The sum over the cells with material. -/
noncomputable def Mesh.bulkTerm (m : Mesh ι) (beams : List Beam) (y : ι → ℝ) (g : ι) : ℝ :=
  ((m.cells.filter fun c => decide (c.fe = 0)).map fun c => c.weak m.hanging (power beams) y g).sum

theorem sum_filter_ite {α : Type*} (p : α → Prop) [DecidablePred p] (φ : α → ℝ) (l : List α) :
    (l.map fun a => if p a then φ a else 0).sum = ((l.filter fun a => decide (p a)).map φ).sum := by
  induction l with
  | nil => simp
  | cons a l ih => by_cases h : p a <;> simp [h, ih]

theorem vmultAdd_eq (m : Mesh ι) (beams : List Beam) (hoff : OffIsZero beams) (hp : PureAdiabatic m.types) (dst y : ι → ℝ) (g : ι) :
    m.vmultAdd beams dst y g =
      dst g + m.bulkTerm beams y g + m.boundaryTerm y g + (if m.hanging.constrained g then y g else 0) := by
  have hc := foldl_add (cellApply m.hanging beams y) (fun c g => if c.fe = 0 then c.weak m.hanging (power beams) y g else 0)
    (cellApply_eq m.hanging beams hoff y) m.cells
  have hf := foldl_add (faceApply m.types m.hanging y) (fun f g => if f.Exposed then f.weak m.types m.hanging y g else 0)
    (faceApply_eq m.types m.hanging y) m.faces
  simp only [sum_filter_ite] at hc hf
  have h2 : (if adiabaticOnly m.types then m.cells.foldl (cellApply m.hanging beams y) dst
      else m.faces.foldl (faceApply m.types m.hanging y) (m.cells.foldl (cellApply m.hanging beams y) dst)) g =
      dst g + m.bulkTerm beams y g + m.boundaryTerm y g := by
    by_cases ha : adiabaticOnly m.types = true
    · rw [if_pos ha, hc]
      have : m.boundaryTerm y g = 0 := by
        unfold Mesh.boundaryTerm
        apply List.sum_eq_zero
        intro x hx
        obtain ⟨f, _, rfl⟩ := List.mem_map.1 hx
        exact weak_adiabatic f m.types m.hanging y g (getType_adiabatic m.types ha hp f.id)
      rw [this, add_zero]; rfl
    · rw [if_neg ha, hf, hc]; rfl
  unfold Mesh.vmultAdd
  simp only [h2]
  split_ifs <;> simp

theorem coef_constrained (h : Hanging ι) (g' g : ι) (hg : h.constrained g = true) : h.coef g' g = 0 := by
  unfold Hanging.coef
  by_cases h' : h.constrained g' = true
  · rw [if_pos h', if_pos hg]
  · rw [if_neg h', if_neg]
    rintro rfl
    exact h' hg

/-! ## C93 -/

/-- **C93.**  For every mesh (any hanging nodes, any set of cells with and without material), every temperature vector and any heat
sources (sources that are off deliver nothing), the operator adds to every unconstrained entry exactly the weak form of the heat
equation tested with the conforming basis function of that degree of freedom: the sum over the cells with material of
`(1/ρc) (Q φ - ∇φ · K ∇T)` and over the faces with material on exactly one side of `-(1/ρc) (outflow) φ`; cells without material
and all other faces do not contribute. -/
theorem C93_weak_form (m : Mesh ι) (beams : List Beam) (hoff : OffIsZero beams) (hp : PureAdiabatic m.types) (dst y : ι → ℝ)
    (g : ι) (hg : m.hanging.constrained g = false) :
    m.vmultAdd beams dst y g = dst g +
      ((m.cells.filter fun c => decide (c.fe = 0)).map fun c => c.weak m.hanging (power beams) y g).sum +
      ((m.faces.filter fun f => decide f.Exposed).map fun f => f.weak m.types m.hanging y g).sum := by
  rw [vmultAdd_eq m beams hoff hp, hg]
  simp [Mesh.bulkTerm, Mesh.boundaryTerm]

theorem foldl_perm_right {α : Type*} (f : (ι → ℝ) → α → ι → ℝ) (φ : α → ι → ℝ) (hf : ∀ dst a g, f dst a g = dst g + φ a g)
    (l l' : List α) (h : l.Perm l') (dst : ι → ℝ) : l.foldl f dst = l'.foldl f dst := by
  funext g
  rw [foldl_add f φ hf, foldl_add f φ hf, (h.map _).sum_eq]

theorem cellApply_add (h : Hanging ι) (beams : List Beam) (y dst : ι → ℝ) (c : Cell ι) (g : ι) :
    cellApply h beams y dst c g = dst g + (if c.fe = 0 then ∑ i, h.coef (c.dof i) g * c.entry h beams y i else 0) := by
  unfold cellApply
  split_ifs <;> simp [Hanging.distribute]

/-- **C93**, independence of the order: the result does not depend on the order in which the cells and faces are visited. -/
theorem C93_order (m m' : Mesh ι) (hh : m'.hanging = m.hanging) (ht : m'.types = m.types) (hc : m'.cells.Perm m.cells)
    (hf : m'.faces.Perm m.faces) (beams : List Beam) (dst y : ι → ℝ) : m'.vmultAdd beams dst y = m.vmultAdd beams dst y := by
  have h1 := foldl_perm_right _ _ (cellApply_add m.hanging beams y) _ _ hc dst
  have h2 := fun d => foldl_perm_right _ _ (faceApply_eq m.types m.hanging y) _ _ hf d
  funext g
  unfold Mesh.vmultAdd
  rw [hh, ht, h1]
  simp only [h2]

/-- **C93**, independence of the partition: when the cells and faces are distributed over any number of processes, the sum of what
the processes compute for an unconstrained degree of freedom is what one process computes for the whole mesh. -/
theorem C93_partition (h : Hanging ι) (types : List ℕ) (parts : List (List (Cell ι) × List (Face ι))) (beams : List Beam)
    (y : ι → ℝ) (g : ι) (hg : h.constrained g = false) :
    (parts.map fun p => (Mesh.mk h p.1 p.2 types).vmult beams y g).sum =
      (Mesh.mk h (parts.map Prod.fst).flatten (parts.map Prod.snd).flatten types).vmult beams y g := by
  have hc := foldl_add _ _ (cellApply_add h beams y)
  have hf := foldl_add _ _ (faceApply_eq types h y)
  have key : ∀ cs fs, (Mesh.mk h cs fs types).vmult beams y g =
      (cs.map fun c => if c.fe = 0 then ∑ i, h.coef (c.dof i) g * c.entry h beams y i else 0).sum +
      (if adiabaticOnly types then 0 else (fs.map fun f => if f.Exposed then f.weak types h y g else 0).sum) := by
    intro cs fs
    unfold Mesh.vmult Mesh.vmultAdd
    simp only [hg]
    by_cases ha : adiabaticOnly types = true
    · simp only [if_pos ha, hc]; simp
    · simp only [if_neg ha, hf, hc]; simp
  simp only [key]
  induction parts with
  | nil => simp
  | cons p ps ih =>
    simp only [List.map_cons, List.sum_cons, List.flatten_cons, List.map_append, List.sum_append, ih]
    split_ifs <;> ring

/-! ## C96 -/

/-- **C96** (partial: boundaries that are adiabatic and something else are excluded).  The shortcut taken when all boundaries are
adiabatic changes nothing: the result is that of the loop over all faces. -/
theorem C96_shortcut_partial (m : Mesh ι) (hp : PureAdiabatic m.types) (beams : List Beam) (dst y : ι → ℝ) (g : ι) :
    m.vmultAdd beams dst y g =
      (m.faces.foldl (faceApply m.types m.hanging y) (m.cells.foldl (cellApply m.hanging beams y) dst)) g +
        (if m.hanging.constrained g then y g else 0) := by
  have hf := foldl_add _ _ (faceApply_eq m.types m.hanging y)
  have h2 : ∀ d : ι → ℝ, (if adiabaticOnly m.types then d else m.faces.foldl (faceApply m.types m.hanging y) d) g =
      m.faces.foldl (faceApply m.types m.hanging y) d g := by
    intro d
    by_cases ha : adiabaticOnly m.types = true
    · rw [if_pos ha, hf]
      have : (m.faces.map fun f => if f.Exposed then f.weak m.types m.hanging y g else 0).sum = 0 := by
        apply List.sum_eq_zero
        intro x hx
        obtain ⟨f, _, rfl⟩ := List.mem_map.1 hx
        rw [weak_adiabatic f m.types m.hanging y g (getType_adiabatic m.types ha hp f.id)]
        simp
      rw [this, add_zero]
    · rw [if_neg ha]
  unfold Mesh.vmultAdd
  simp only [h2]
  split_ifs <;> simp

/-- **C96**, which faces exchange heat: adding any faces that are not exposed (between two cells with material, between two cells
without material, on the boundary of the mesh next to a cell without material) changes nothing, and an adiabatic face exchanges
nothing. -/
theorem C96_only_exposed (m : Mesh ι) (fs : List (Face ι)) (hfs : ∀ f ∈ fs, ¬ f.Exposed ∨
      (¬ Has (getType m.types f.id) .convective ∧ ¬ Has (getType m.types f.id) .radiative)) (beams : List Beam) (dst y : ι → ℝ) :
    ({ m with faces := fs ++ m.faces }).vmultAdd beams dst y = m.vmultAdd beams dst y := by
  have hf := foldl_add _ _ (faceApply_eq m.types m.hanging y)
  have h0 : ∀ d : ι → ℝ, fs.foldl (faceApply m.types m.hanging y) d = d := by
    intro d
    funext g
    rw [hf]
    have : (fs.map fun f => if f.Exposed then f.weak m.types m.hanging y g else 0).sum = 0 := by
      apply List.sum_eq_zero
      intro x hx
      obtain ⟨f, hfm, rfl⟩ := List.mem_map.1 hx
      rcases hfs f hfm with h | h
      · simp [h]
      · rw [weak_adiabatic f m.types m.hanging y g h]; simp
    rw [this, add_zero]
  funext g
  unfold Mesh.vmultAdd
  simp only [List.foldl_append, h0]

/-- One face of a body at temperature `T = y 0`, one degree of freedom. -/
noncomputable def oneFace (id : ℕ) : Face (Fin 1) where
  fe1 := 0
  fe2 := none
  id := id
  nq := 1
  jxw := fun _ => 1
  side1 := ⟨1, fun _ => 0, fun _ _ => 1⟩
  side2 := ⟨0, Fin.elim0, fun i => i.elim0⟩
  coef := fun _ _ => ⟨1, 1, 300, 1, 300⟩

/-- **C96 fails for a boundary declared both adiabatic and radiative.**  When it is the only kind of boundary, the radiation is
silently dropped; as soon as another boundary of the mesh is not adiabatic, the same face radiates. -/
theorem C96_mixed_refuted :
    (Mesh.mk (ι := Fin 1) ⟨fun _ => false, fun _ _ => 0⟩ [] [oneFace 0] [3, 3]).vmult [] (fun _ => 1000) 0 = 0 ∧
    (Mesh.mk (ι := Fin 1) ⟨fun _ => false, fun _ _ => 0⟩ [] [oneFace 0] [3, 2]).vmult [] (fun _ => 1000) 0 < 0 := by
  constructor
  · have ha : adiabaticOnly [3, 3] = true := by decide
    simp [Mesh.vmult, Mesh.vmultAdd, ha]
  · have ha : adiabaticOnly [3, 2] = false := by decide
    have hh : Has (getType [3, 2] 0) .radiative := by decide
    have hc : ¬ Has (getType [3, 2] 0) .convective := by decide
    simp only [Mesh.vmult, Mesh.vmultAdd, ha]
    rw [if_neg (by simp), if_neg (by simp)]
    simp only [List.foldl_cons, List.foldl_nil]
    rw [faceApply_eq, if_pos (show (oneFace 0).Exposed from Or.inl ⟨rfl, by simp [oneFace]⟩)]
    have hside : (oneFace 0).material = (oneFace 0).side1 := if_neg (by simp [oneFace])
    have hphi : ∀ q, (oneFace 0).phi ⟨fun _ => false, fun _ _ => 0⟩ 0 q = 1 := by
      intro q
      unfold Face.phi
      rw [hside]
      change (∑ i : Fin 1, Hanging.coef ⟨fun _ => false, fun _ _ => 0⟩ (0 : Fin 1) 0 * 1) = (1 : ℝ)
      simp [Hanging.coef]
    have ht : ∀ q, (oneFace 0).temperature ⟨fun _ => false, fun _ _ => 0⟩ (fun _ => 1000) q = 1000 := by
      intro q
      unfold Face.temperature
      rw [Fin.sum_univ_one, hphi, mul_one]
    have hout : ∀ q, (oneFace 0).outflow [3, 2] 1000 q = 1 * 5.670374419e-8 * (1000 ^ 4 - 300 ^ 4) := by
      intro q
      unfold Face.outflow
      dsimp only
      rw [show (oneFace 0).id = 0 from rfl, if_neg hc, if_pos hh, zero_add]
      rfl
    rw [zero_add]
    unfold Face.weak
    simp only [ht, hphi, hout]
    change (∑ _q : Fin 1, (1 : ℝ) * (-1 * _ * 1)) < 0
    rw [Fin.sum_univ_one]
    norm_num

/-- The material side of a pair of cells. -/
def materialCell (c1 : FaceCell) (c2 : Option FaceCell) : Option FaceCell :=
  if c1.fe = 0 then some c1 else c2.filter fun c => decide (c.fe = 0)

/-- **C96**, state of the face (partial: processes that own the material side).  The coefficients of an exposed face are those of the
material and powder ratio of the cell with material. -/
theorem C96_face_state_partial (rank : ℕ) (c1 : FaceCell) (c2 : Option FaceCell) (c : FaceCell)
    (hfe : c1.fe ≤ 1 ∧ ∀ c' ∈ c2, c'.fe ≤ 1)
    (hexp : (c1.fe = 0 ∧ ∀ c' ∈ c2, c'.fe ≠ 0) ∨ (c1.fe ≠ 0 ∧ ∃ c' ∈ c2, c'.fe = 0))
    (hc : materialCell c1 c2 = some c) (hown : c.owner = rank) :
    faceState rank c1 c2 = (c.materialId, c.powder) := by
  cases c2 with
  | none =>
    rcases hexp with ⟨h1, _⟩ | ⟨_, c', h, _⟩
    · rw [materialCell, if_pos h1, Option.some.injEq] at hc
      subst hc
      simp [faceState, h1, hown]
    · simp at h
  | some c2 =>
    rcases hexp with ⟨h1, h2⟩ | ⟨h1, c', h, h2⟩
    · rw [materialCell, if_pos h1, Option.some.injEq] at hc
      subst hc
      have : ¬ (c1.fe = c2.fe) := by rw [h1]; exact fun h => h2 c2 rfl h.symm
      simp only [faceState]
      rw [if_neg this, if_pos h1, if_pos hown]
    · rw [Option.mem_some_iff] at h
      subst h
      rw [materialCell, if_neg h1] at hc
      simp only [Option.filter_some, h2, decide_true, if_true, Option.some.injEq] at hc
      subst hc
      have : ¬ (c1.fe = c2.fe) := by rw [h2]; exact h1
      simp only [faceState]
      rw [if_neg this, if_neg h1, if_pos hown]

/-- **C96**, faces without material: a face none of whose cells has material, and a face between two cells with material, stores nothing. -/
theorem C96_face_state_inner (rank : ℕ) (c1 : FaceCell) (c2 : Option FaceCell) (hfe : c1.fe ≤ 1 ∧ ∀ c' ∈ c2, c'.fe ≤ 1)
    (h : (c1.fe ≠ 0 ∧ ∀ c' ∈ c2, c'.fe ≠ 0) ∨ (c1.fe = 0 ∧ ∃ c' ∈ c2, c'.fe = 0)) : faceState rank c1 c2 = (0, 0) := by
  cases c2 with
  | none =>
    rcases h with ⟨h1, -⟩ | ⟨-, c', h, -⟩
    · have : c1.fe = 1 := by omega
      simp [faceState, this]
    · simp at h
  | some c2 =>
    have e : c1.fe = c2.fe := by
      have h2 := hfe.2 c2 rfl
      rcases h with ⟨h1, h3⟩ | ⟨h1, c', h3, h4⟩
      · have := h3 c2 rfl
        omega
      · rw [Option.mem_some_iff] at h3
        subst h3
        omega
    simp [faceState, e]

/-- **C96 fails across processes.**  A face that is processed by the process that owns only the cell without material uses the
properties of material 0 without powder, whatever the material of the body is. -/
theorem C96_face_state_refuted (rank owner id : ℕ) (p : ℝ) (h : owner ≠ rank) :
    faceState rank ⟨0, owner, id, p⟩ (some ⟨1, rank, 0, 0⟩) = (0, 0) ∧
    faceState rank ⟨1, rank, 0, 0⟩ (some ⟨0, owner, id, p⟩) = (0, 0) := by
  constructor <;> simp [faceState, h]

example : materialCell ⟨1, 0, 0, 0⟩ (some ⟨0, 0, 2, 1⟩) = some ⟨0, 0, 2, 1⟩ ∧
    faceState 0 ⟨1, 0, 0, 0⟩ (some ⟨0, 0, 2, 1⟩) = (2, 1) := by
  constructor <;> simp [materialCell, faceState]

end Verif.Assembly
