import Verif.Thermal.Balance

/-!
# C95, C98: conservation and the printed heat input; concrete meshes
-/

namespace Verif.Assembly

open Verif.Material Verif.Input
open Verif.Thermal (Operator evolve steps rhs Method)

variable {ι : Type*} [Fintype ι] [DecidableEq ι]

/-! ## Totals -/

/-- The heat input per unit time divided by `ρ c_p`, by the quadrature of the operator. -/
noncomputable def Mesh.input (m : Mesh ι) (beams : List Beam) (y : ι → ℝ) : ℝ :=
  (m.material.map fun c => ∑ q, c.jxw q *
    ((c.coef q (c.temperature m.hanging y q)).invRhoCp * power beams (c.point q))).sum

/-- The heat lost through the surface per unit time divided by `ρ c_p`. -/
noncomputable def Mesh.loss (m : Mesh ι) (y : ι → ℝ) : ℝ :=
  (m.surface.map fun f => ∑ q, f.jxw q * ((f.coef q (f.temperature m.hanging y q)).invRhoCp *
    f.outflow m.types (f.temperature m.hanging y q) q)).sum

theorem bulk_total (m : Mesh ι) (hm : Consistent m) (beams : List Beam) (y : ι → ℝ) :
    ∑ g, m.bulkTerm beams y g = m.input beams y := by
  unfold Mesh.bulkTerm Mesh.input
  rw [sum_list]
  refine list_sum_congr _ _ _ fun c hc => ?_
  have hc' := (mem_material m c).1 hc
  unfold Cell.weak
  rw [Finset.sum_comm]
  refine Finset.sum_congr rfl fun q _ => ?_
  rw [← Finset.mul_sum, ← Finset.mul_sum, Finset.sum_sub_distrib, ← Finset.mul_sum]
  have h1 : ∑ g, c.phi m.hanging g q = 1 := by
    unfold Cell.phi
    rw [sum_coef_mul m.hanging hm.weights c.dof fun i => c.shape i q, hm.shape c hc'.1 hc'.2]
  have h2 : ∀ d, ∑ g, c.dphi m.hanging g q d = 0 := by
    intro d
    unfold Cell.dphi
    rw [sum_coef_mul m.hanging hm.weights c.dof fun i => c.grad i q d, hm.grad c hc'.1 hc'.2]
  have h3 : ∀ K : Matrix (Fin 3) (Fin 3) ℝ, (∑ g, ∑ d, ∑ e, c.dphi m.hanging g q d * K d e * c.gradT m.hanging y q e) = 0 := by
    intro K
    rw [Finset.sum_comm]
    refine Finset.sum_eq_zero fun d _ => ?_
    rw [Finset.sum_comm]
    refine Finset.sum_eq_zero fun e _ => ?_
    rw [← Finset.sum_mul, ← Finset.sum_mul, h2]; ring
  rw [h3, h1, mul_one, sub_zero]

theorem boundary_total (m : Mesh ι) (hm : Consistent m) (y : ι → ℝ) : ∑ g, m.boundaryTerm y g = -m.loss y := by
  unfold Mesh.boundaryTerm Mesh.loss
  rw [sum_list]
  have : ∀ l : List (Face ι), (∀ f ∈ l, f ∈ m.surface) → (l.map fun f => ∑ g, f.weak m.types m.hanging y g).sum =
      -(l.map fun f => ∑ q, f.jxw q * ((f.coef q (f.temperature m.hanging y q)).invRhoCp *
        f.outflow m.types (f.temperature m.hanging y q) q)).sum := by
    intro l hl
    induction l with
    | nil => simp
    | cons f l ih =>
      simp only [List.map_cons, List.sum_cons, neg_add]
      rw [ih fun f hf => hl f (by simp [hf])]
      congr 1
      have hf' := (mem_surface m f).1 (hl f (by simp))
      unfold Face.weak
      rw [Finset.sum_comm, ← Finset.sum_neg_distrib]
      refine Finset.sum_congr rfl fun q _ => ?_
      have h1 : ∑ g, f.phi m.hanging g q = 1 := by
        unfold Face.phi
        rw [sum_coef_mul m.hanging hm.weights f.material.dof fun i => f.material.shape i q, hm.face f hf'.1 hf'.2]
      rw [← Finset.mul_sum, ← Finset.mul_sum, h1]; ring
  exact this _ fun f hf => hf

/-- The mass-weighted sum of the right-hand side over the unconstrained degrees of freedom. -/
theorem total_rate (m : Mesh ι) (hm : Consistent m) (hp : PureAdiabatic m.types) (beams : ℝ → List Beam)
    (t0 t : ℝ) (hoff : OffIsZero (beams t)) (hmass : ∀ g, m.hanging.constrained g = false → m.mass g ≠ 0) (y : ι → ℝ) :
    m.integral (rhs (m.operator beams t0) t y) = m.input (beams t) y - m.loss y := by
  rw [← (C99_lumped_mass m hm).2.2.2.1]
  have : ∀ g, (if m.hanging.constrained g then 0 else m.mass g * rhs (m.operator beams t0) t y g) =
      m.bulkTerm (beams t) y g + m.boundaryTerm y g := by
    intro g
    by_cases hg : m.hanging.constrained g = true
    · rw [if_pos hg, bulk_constrained m _ y g hg, boundary_constrained m y g hg, add_zero]
    · have hg' : m.hanging.constrained g = false := by simpa using hg
      rw [if_neg hg, rhs_operator, vmult_free m _ hoff hp y g hg']
      have hinv := (C99_lumped_mass m hm).2.2.2.2 g (hmass g hg')
      linear_combination (m.bulkTerm (beams t) y g + m.boundaryTerm y g) * hinv
  simp only [this, Finset.sum_add_distrib]
  rw [bulk_total m hm, boundary_total m hm]; ring

theorem list_sum_add {α : Type*} (l : List α) (φ ψ : α → ℝ) : (l.map fun a => φ a + ψ a).sum = (l.map φ).sum + (l.map ψ).sum := by
  induction l with
  | nil => simp
  | cons a l ih => simp only [List.map_cons, List.sum_cons, ih]; ring

theorem list_sum_smul {α : Type*} (l : List α) (s : ℝ) (φ : α → ℝ) : (l.map fun a => s * φ a).sum = s * (l.map φ).sum := by
  induction l with
  | nil => simp
  | cons a l ih => simp only [List.map_cons, List.sum_cons, ih]; ring

theorem integral_add (m : Mesh ι) (y w : ι → ℝ) (s : ℝ) :
    m.integral (fun g => y g + s * w g) = m.integral y + s * m.integral w := by
  unfold Mesh.integral
  rw [← list_sum_smul, ← list_sum_add]
  refine list_sum_congr _ _ _ fun c _ => ?_
  rw [Finset.mul_sum, ← Finset.sum_add_distrib]
  refine Finset.sum_congr rfl fun q _ => ?_
  simp only [add_mul, Finset.sum_add_distrib, mul_add]
  congr 1
  simp only [Finset.mul_sum]
  exact Finset.sum_congr rfl fun g _ => by ring

/-! ## C95: conservation -/

/-- **C95**, the mean temperature: when all sources are off and no exposed face exchanges heat, conduction only redistributes: the
integral of the temperature over the material is the same after any number of steps of any size with any of the methods, for
any temperature-dependent material coefficients, any deposition orientation and any hanging nodes. -/
theorem C95_mean_temperature (m : Mesh ι) (hm : Consistent m) (hp : PureAdiabatic m.types) (beams : ℝ → List Beam)
    (hoff : ∀ t, ∀ b ∈ beams t, b.on = false)
    (hadi : ∀ f ∈ m.faces, f.Exposed → ¬ Has (getType m.types f.id) .convective ∧ ¬ Has (getType m.types f.id) .radiative)
    (hmass : ∀ g, m.hanging.constrained g = false → m.mass g ≠ 0) (t0 t dt : ℝ) (meth : Method) (k : ℕ) (y : ι → ℝ) :
    ∃ z op, steps (some meth) dt k (t, y, m.operator beams t0) = some (t + k * dt, z, op) ∧ m.integral z = m.integral y := by
  obtain ⟨op, h1⟩ := steps_eq meth dt k t y (m.operator beams t0)
  refine ⟨_, op, h1, ?_⟩
  have hz : ∀ t y, m.integral (rhs (m.operator beams t0) t y) = 0 := by
    intro t y
    have e : rhs (m.operator beams t0) t y = rhs (m.operator (fun _ => []) t0) t y := by
      funext g
      rw [rhs_operator, rhs_operator, Mesh.vmult, vmultAdd_off m _ (all_off _ (hoff t))]; rfl
    rw [e, total_rate m hm hp _ t0 t offNil hmass]
    have h2 : m.input [] y = 0 := by
      unfold Mesh.input
      apply List.sum_eq_zero
      intro x hx
      obtain ⟨c, _, rfl⟩ := List.mem_map.1 hx
      exact Finset.sum_eq_zero fun q _ => by rw [show power [] (c.point q) = 0 from rfl]; ring
    have h3 : m.loss y = 0 := by
      unfold Mesh.loss
      apply List.sum_eq_zero
      intro x hx
      obtain ⟨f, hf, rfl⟩ := List.mem_map.1 hx
      have hf' := (mem_surface m f).1 hf
      obtain ⟨a, b⟩ := hadi f hf'.1 hf'.2
      exact Finset.sum_eq_zero fun q _ => by simp [Face.outflow, a, b]
    rw [h2, h3, sub_zero]
  clear h1
  induction k generalizing t y with
  | zero => rfl
  | succ k ih =>
    rw [runOf, ih]
    cases meth with
    | forwardEuler =>
      simp only [stepOf]
      rw [integral_add, hz]; ring
    | rk3 =>
      have e : stepOf (rhs (m.operator beams t0)) t dt y .rk3 = fun g => (fun g => (fun g => y g +
          dt / 6 * rhs (m.operator beams t0) t y g) g + (4 * dt / 6) * rhs (m.operator beams t0) (t + dt / 2)
            (fun i => y i + dt / 2 * rhs (m.operator beams t0) t y i) g) g +
          dt / 6 * rhs (m.operator beams t0) (t + dt) (fun i => y i + dt * (2 * rhs (m.operator beams t0) (t + dt / 2)
            (fun i => y i + dt / 2 * rhs (m.operator beams t0) t y i) i - rhs (m.operator beams t0) t y i)) g := by
        funext g; simp only [stepOf]; ring
      rw [e, integral_add, integral_add, integral_add, hz, hz, hz]; ring
    | rk4 =>
      have e : ∃ k2 k3 k4 : ι → ℝ, (m.integral k2 = 0 ∧ m.integral k3 = 0 ∧ m.integral k4 = 0) ∧
          stepOf (rhs (m.operator beams t0)) t dt y .rk4 = fun g => (fun g => (fun g => (fun g => y g +
          dt / 6 * rhs (m.operator beams t0) t y g) g + (2 * dt / 6) * k2 g) g + (2 * dt / 6) * k3 g) g + dt / 6 * k4 g := by
        let f := rhs (m.operator beams t0)
        let k2 := f (t + dt / 2) (fun i => y i + dt / 2 * f t y i)
        let k3 := f (t + dt / 2) (fun i => y i + dt / 2 * k2 i)
        let k4 := f (t + dt) (fun i => y i + dt * k3 i)
        refine ⟨k2, k3, k4, ⟨hz _ _, hz _ _, hz _ _⟩, ?_⟩
        funext g
        simp only [k4, k3, k2, f]
        simp only [stepOf]
        ring
      obtain ⟨k2, k3, k4, ⟨a, b, c⟩, e⟩ := e
      rw [e, integral_add, integral_add, integral_add, integral_add, hz, a, b, c]; ring

/-- Heat capacity per volume of a cell with constant coefficients. -/
noncomputable def Cell.rhoCp (c : Cell ι) : ℝ := if h : 0 < c.nq then 1 / (c.coef ⟨0, h⟩ 0).invRhoCp else 0

/-- The thermal energy `∫ ρ c_p T` of the cells with material. -/
noncomputable def Mesh.energy (m : Mesh ι) (y : ι → ℝ) : ℝ :=
  (m.material.map fun c => c.rhoCp * ∑ q, c.mjxw q * ∑ g, y g * c.mphi m.hanging g q).sum

/-- The power delivered by the sources to the material, by the quadrature of the operator. -/
noncomputable def Mesh.powerIn (m : Mesh ι) (beams : List Beam) : ℝ :=
  (m.material.map fun c => ∑ q, c.jxw q * power beams (c.point q)).sum

/-- The power lost through the surface. -/
noncomputable def Mesh.powerOut (m : Mesh ι) (y : ι → ℝ) : ℝ :=
  (m.surface.map fun f => ∑ q, f.jxw q * f.outflow m.types (f.temperature m.hanging y q) q).sum

/-- All cells and faces with material have the heat capacity `R` per volume. -/
structure UniformCapacity (m : Mesh ι) (R : ℝ) : Prop where
  ne : R ≠ 0
  cell : ∀ c ∈ m.material, 0 < c.nq ∧ ∀ q T, (c.coef q T).invRhoCp = 1 / R
  face : ∀ f ∈ m.surface, ∀ q T, (f.coef q T).invRhoCp = 1 / R

theorem energy_eq (m : Mesh ι) (R : ℝ) (hR : UniformCapacity m R) (y : ι → ℝ) : m.energy y = R * m.integral y := by
  unfold Mesh.energy Mesh.integral
  rw [← list_sum_smul]
  refine list_sum_congr _ _ _ fun c hc => ?_
  obtain ⟨h1, h2⟩ := hR.cell c hc
  rw [Cell.rhoCp, dif_pos h1, h2, one_div_one_div]

/-- **C95** (partial: uniform heat capacity).  Energy balance over any history of forward Euler steps of any sizes: the change of the
thermal energy is the sum over the steps of the step size times the power delivered by the sources minus the power lost through the
surface. -/
theorem C95_energy_partial (m : Mesh ι) (hm : Consistent m) (hp : PureAdiabatic m.types) (R : ℝ) (hR : UniformCapacity m R)
    (beams : ℝ → List Beam) (hoff : ∀ t, OffIsZero (beams t)) (hmass : ∀ g, m.hanging.constrained g = false → m.mass g ≠ 0)
    (t0 : ℝ) (T D : ℕ → ℝ) (Y : ℕ → ι → ℝ) (op : ℕ → Operator ι) (h0 : op 0 = m.operator beams t0)
    (hstep : ∀ j, evolve (some .forwardEuler) (op j) (T j) (D j) (Y j) = some (T (j + 1), Y (j + 1), op (j + 1))) (k : ℕ) :
    m.energy (Y k) - m.energy (Y 0) = ∑ j ∈ Finset.range k, D j * (m.powerIn (beams (T j)) - m.powerOut (Y j)) := by
  have hrhs : ∀ j, rhs (op j) = rhs (m.operator beams t0) := by
    intro j
    induction j with
    | zero => rw [h0]
    | succ j ih =>
      obtain ⟨op', h1, h2⟩ := evolve_eq .forwardEuler (op j) (T j) (D j) (Y j)
      rw [hstep j] at h2
      simp only [Option.some.injEq, Prod.mk.injEq] at h2
      rw [h2.2.2, h1, ih]
  have hY : ∀ j, Y (j + 1) = fun g => Y j g + D j * rhs (m.operator beams t0) (T j) (Y j) g := by
    intro j
    obtain ⟨op', h1, h2⟩ := evolve_eq .forwardEuler (op j) (T j) (D j) (Y j)
    rw [hstep j] at h2
    simp only [Option.some.injEq, Prod.mk.injEq] at h2
    rw [h2.2.1, hrhs j]; rfl
  have hin : ∀ b y, R * m.input b y = m.powerIn b := by
    intro b y
    unfold Mesh.input Mesh.powerIn
    rw [← list_sum_smul]
    refine list_sum_congr _ _ _ fun c hc => ?_
    rw [Finset.mul_sum]
    refine Finset.sum_congr rfl fun q _ => ?_
    rw [(hR.cell c hc).2]
    have := hR.ne
    field_simp
  have hout : ∀ y, R * m.loss y = m.powerOut y := by
    intro y
    unfold Mesh.loss Mesh.powerOut
    rw [← list_sum_smul]
    refine list_sum_congr _ _ _ fun f hf => ?_
    rw [Finset.mul_sum]
    refine Finset.sum_congr rfl fun q _ => ?_
    rw [hR.face f hf]
    have := hR.ne
    field_simp
  induction k with
  | zero => simp
  | succ k ih =>
    rw [Finset.sum_range_succ, ← ih]
    rw [energy_eq m R hR, energy_eq m R hR, energy_eq m R hR, hY k, integral_add,
      total_rate m hm hp beams t0 (T k) (hoff _) hmass]
    rw [← hin (beams (T k)) (Y k), ← hout (Y k)]
    ring

/-! ## Concrete meshes -/

/-- No hanging nodes. -/
def noHanging (ι : Type*) : Hanging ι := ⟨fun _ => false, fun _ _ => 0⟩

/-- A linear cell of length `len` between the degrees of freedom `a` and `b`, midpoint rule for the operator, `1/(ρ c_p) = r`, unit
conductivity; the mass matrix uses the end points. -/
noncomputable def lineCell {n : ℕ} (a b : Fin n) (len r : ℝ) (at' : Fin 3 → ℝ) : Cell (Fin n) where
  fe := 0
  n := 2
  nq := 1
  dof := ![a, b]
  shape := fun _ _ => 1 / 2
  grad := fun i _ d => if d = 0 then (if i = 0 then -1 / len else 1 / len) else 0
  jxw := fun _ => len
  point := fun _ => at'
  cos := fun _ => 1
  sin := fun _ => 0
  coef := fun _ _ => ⟨r, 1, 1, 1⟩
  mq := 2
  mshape := fun i q => if i = q then 1 else 0
  mjxw := fun _ => len / 2

/-- A uniform source that is on. -/
noncomputable def cubeBeam0 : Beam := ⟨true, fun _ => 1, fun _ => 1⟩

/-- Two unit cells with `1/(ρ c_p)` equal to `a` and `b`, insulated. -/
noncomputable def bar (a b : ℝ) : Mesh (Fin 3) := ⟨noHanging _, [lineCell 0 1 1 a 0, lineCell 1 2 1 b 0], [], [1, 1]⟩

/-- A mesh with a hanging node: degree of freedom 2 is the mean of 0 and 1; a cell without material; a radiating face of the body at
degree of freedom 0. -/
noncomputable def hangingMesh : Mesh (Fin 3) where
  hanging := ⟨fun g => decide (g = 2), fun _ _ => 1 / 2⟩
  cells := [lineCell 0 1 1 1 0, lineCell 0 2 (1 / 2) 1 0, { lineCell 1 2 1 1 0 with fe := 1 }]
  faces := [⟨0, none, 0, 1, fun _ => 1, ⟨1, fun _ => 0, fun _ _ => 1⟩, ⟨0, Fin.elim0, fun i => i.elim0⟩,
    fun _ _ => ⟨1, 1, 300, 1, 300⟩⟩]
  types := [2, 2]

theorem lineCell_shape {n : ℕ} (a b : Fin n) (len r : ℝ) (p : Fin 3 → ℝ) :
    (∀ q, ∑ i, (lineCell a b len r p).shape i q = 1) ∧ (∀ q d, ∑ i, (lineCell a b len r p).grad i q d = 0) ∧
    (∀ q, ∑ i, (lineCell a b len r p).mshape i q = 1) := by
  refine ⟨fun q => ?_, fun q d => ?_, fun q => ?_⟩
  · change (∑ _i : Fin 2, (1 / 2 : ℝ)) = 1
    norm_num
  · change (∑ i : Fin 2, if d = 0 then (if i = 0 then -1 / len else 1 / len) else 0) = 0
    rw [Fin.sum_univ_two]
    by_cases h : d = 0
    · simp [h]; ring
    · simp [h]
  · change Fin 2 at q
    change (∑ i : Fin 2, if i = q then (1 : ℝ) else 0) = 1
    rw [Finset.sum_ite_eq']
    exact if_pos (Finset.mem_univ _)

theorem bar_consistent (a b : ℝ) : Consistent (bar a b) := by
  have hc : ∀ c ∈ (bar a b).cells, ∃ x y r, c = lineCell x y 1 r 0 := by
    intro c hc
    simp only [bar, List.mem_cons, List.not_mem_nil, or_false] at hc
    rcases hc with rfl | rfl
    · exact ⟨_, _, _, rfl⟩
    · exact ⟨_, _, _, rfl⟩
  refine ⟨?_, ?_, ?_, ?_, ?_⟩
  · intro g'
    simp [bar, noHanging, Hanging.coef]
  · intro c h _
    obtain ⟨x, y, r, rfl⟩ := hc c h
    exact (lineCell_shape _ _ _ _ _).1
  · intro c h _
    obtain ⟨x, y, r, rfl⟩ := hc c h
    exact (lineCell_shape _ _ _ _ _).2.1
  · intro c h _
    obtain ⟨x, y, r, rfl⟩ := hc c h
    exact (lineCell_shape _ _ _ _ _).2.2
  · intro f hf
    simp [bar] at hf

/-- The hypotheses of C94, C95, C97, C99 hold for a mesh with a hanging node, a cell without material and a radiating surface at
300 K. -/
theorem hangingMesh_consistent : Consistent hangingMesh ∧ PureAdiabatic hangingMesh.types ∧ AmbientAt hangingMesh 300 ∧
    hangingMesh.hanging.constrained 2 = true := by
  refine ⟨⟨?_, ?_, ?_, ?_, ?_⟩, ?_, ?_, rfl⟩
  · intro g'
    fin_cases g' <;> simp [hangingMesh, Hanging.coef, Fin.sum_univ_three]
    norm_num
  · intro c h h0
    simp only [hangingMesh, List.mem_cons, List.not_mem_nil, or_false] at h
    rcases h with rfl | rfl | rfl
    · exact (lineCell_shape _ _ _ _ _).1
    · exact (lineCell_shape _ _ _ _ _).1
    · simp at h0
  · intro c h h0
    simp only [hangingMesh, List.mem_cons, List.not_mem_nil, or_false] at h
    rcases h with rfl | rfl | rfl
    · exact (lineCell_shape _ _ _ _ _).2.1
    · exact (lineCell_shape _ _ _ _ _).2.1
    · simp at h0
  · intro c h h0
    simp only [hangingMesh, List.mem_cons, List.not_mem_nil, or_false] at h
    rcases h with rfl | rfl | rfl
    · exact (lineCell_shape _ _ _ _ _).2.2
    · exact (lineCell_shape _ _ _ _ _).2.2
    · simp at h0
  · intro f hf _ q
    simp only [hangingMesh, List.mem_cons, List.not_mem_nil, or_false] at hf
    subst hf
    change (∑ i : Fin 1, (1 : ℝ)) = 1
    simp
  · intro t ht
    simp only [hangingMesh, List.mem_cons, List.not_mem_nil, or_false, or_self] at ht
    subst ht
    decide
  · intro f hf _ q
    simp only [hangingMesh, List.mem_cons, List.not_mem_nil, or_false] at hf
    subst hf
    exact ⟨fun _ => rfl, fun _ => rfl⟩

theorem bar_mass (a b : ℝ) (g : Fin 3) : (bar a b).mass g = ![1 / 2, 1, 1 / 2] g := by
  rw [(C99_lumped_mass _ (bar_consistent a b)).1 g rfl]
  have hmat : (bar a b).material = [lineCell 0 1 1 a 0, lineCell 1 2 1 b 0] := rfl
  have hphi : ∀ (x y : Fin 3) (r : ℝ), (∑ q, (lineCell x y 1 r 0).mjxw q * (lineCell x y 1 r 0).mphi (noHanging _) g q) =
      (if x = g then 1 / 2 else 0) + (if y = g then 1 / 2 else 0) := by
    intro x y r
    change (∑ q : Fin 2, (1 / 2 : ℝ) * ∑ i : Fin 2, (noHanging (Fin 3)).coef (![x, y] i) g * (if i = q then 1 else 0)) = _
    simp only [Fin.sum_univ_two, noHanging, Hanging.coef]
    by_cases h1 : x = g <;> by_cases h2 : y = g <;> simp [h1, h2]
  rw [hmat]
  simp only [List.map_cons, List.map_nil, List.sum_cons, List.sum_nil, add_zero]
  rw [show (bar a b).hanging = noHanging (Fin 3) from rfl, hphi, hphi]
  fin_cases g <;> simp
  norm_num

/-- The hypotheses of C95 and C98 hold for the bar with uniform heat capacity, and the step relation of C95 is that of
`evolve_one_time_step`, which never fails. -/
example : Consistent (bar 2 2) ∧ UniformCapacity (bar 2 2) (1 / 2) ∧ (∀ g, (bar 2 2).mass g ≠ 0) ∧
    ∀ (t dt : ℝ) (y : Fin 3 → ℝ), ∃ z op, evolve (some .forwardEuler) ((bar 2 2).operator (fun _ => [cubeBeam0]) 0) t dt y =
      some (t + dt, z, op) := by
  refine ⟨bar_consistent _ _, ⟨by norm_num, ?_, ?_⟩, ?_, ?_⟩
  · intro c hc
    have hmat : (bar 2 2).material = [lineCell 0 1 1 2 0, lineCell 1 2 1 2 0] := rfl
    rw [hmat] at hc
    simp only [List.mem_cons, List.not_mem_nil, or_false] at hc
    rcases hc with rfl | rfl <;> exact ⟨Nat.one_pos, fun _ _ => by simp [lineCell]⟩
  · intro f hf
    have : (bar 2 2).surface = [] := rfl
    rw [this] at hf
    simp at hf
  · intro g
    rw [bar_mass]
    fin_cases g <;> simp
  · intro t dt y
    obtain ⟨op, _, h⟩ := evolve_eq .forwardEuler ((bar 2 2).operator (fun _ => [cubeBeam0]) 0) t dt y
    exact ⟨_, op, h⟩

theorem bar_rate (a b : ℝ) (t0 t : ℝ) :
    rhs ((bar a b).operator (fun _ => []) t0) t ![0, 1, 0] = ![2 * a, -(a + b), 2 * b] := by
  have hp : PureAdiabatic (bar a b).types := by
    intro t ht
    simp only [bar, List.mem_cons, List.not_mem_nil, or_false, or_self] at ht
    subst ht
    decide
  funext g
  rw [rhs_operator, vmult_free _ _ offNil hp _ g rfl]
  have hb : (bar a b).boundaryTerm ![0, 1, 0] g = 0 := rfl
  have hcell : ∀ (x y : Fin 3) (r : ℝ), (lineCell x y 1 r 0).weak (noHanging _) (power []) ![0, 1, 0] g =
      -(r * (![0, 1, 0] y - ![0, 1, 0] x) * ((if y = g then 1 else 0) - (if x = g then 1 else 0))) := by
    intro x y r
    have hd : ∀ (g : Fin 3) (q : Fin 1) (d : Fin 3), (lineCell x y 1 r 0).dphi (noHanging _) g q d =
        if d = 0 then (if y = g then 1 else 0) - (if x = g then 1 else 0) else 0 := by
      intro g q d
      change (∑ i : Fin 2, (noHanging (Fin 3)).coef (![x, y] i) g *
        (if d = 0 then (if i = 0 then -1 / 1 else 1 / 1) else 0)) = _
      simp only [Fin.sum_univ_two, noHanging, Hanging.coef]
      by_cases h0 : d = 0 <;> by_cases h1 : x = g <;> by_cases h2 : y = g <;> simp [h0, h1, h2]
    have hg : ∀ (q : Fin 1) (d : Fin 3), (lineCell x y 1 r 0).gradT (noHanging _) ![0, 1, 0] q d =
        if d = 0 then (![0, 1, 0] : Fin 3 → ℝ) y - (![0, 1, 0] : Fin 3 → ℝ) x else 0 := by
      intro q d
      unfold Cell.gradT
      simp only [hd]
      by_cases h0 : d = 0
      · simp only [h0, if_true, mul_sub, Finset.sum_sub_distrib, mul_ite, mul_one, mul_zero, Finset.sum_ite_eq,
          Finset.mem_univ]
      · simp [h0]
    unfold Cell.weak
    change (∑ q : Fin 1, (1 : ℝ) * (r * (power [] 0 * (lineCell x y 1 r 0).phi (noHanging _) g q - ∑ d, ∑ e,
      (lineCell x y 1 r 0).dphi (noHanging _) g q d * conductivityTensor 1 1 1 1 0 d e *
        (lineCell x y 1 r 0).gradT (noHanging _) ![0, 1, 0] q e))) = _
    rw [Fin.sum_univ_one, conductivityTensor_eq]
    simp only [hd, hg, Fin.sum_univ_three]
    simp [power]
    ring
  have hbulk : (bar a b).bulkTerm [] ![0, 1, 0] g = ![a, -(a + b), b] g := by
    have : (bar a b).bulkTerm [] ![0, 1, 0] g = (lineCell 0 1 1 a 0).weak (noHanging _) (power []) ![0, 1, 0] g +
        ((lineCell 1 2 1 b 0).weak (noHanging _) (power []) ![0, 1, 0] g + 0) := rfl
    rw [this, hcell, hcell]
    fin_cases g <;> simp
    ring
  rw [hb, hbulk, Mesh.invMass, bar_mass]
  fin_cases g <;> simp

/-- The material data of the mesh with a hanging node satisfy the hypotheses of the dissipation theorem. -/
example : Passive hangingMesh := by
  have hl : ∀ (x y : Fin 3) (l : ℝ), 0 ≤ l → ∀ q, 0 ≤ (lineCell x y l 1 0).jxw q ∧
      (lineCell x y l 1 0).cos q ^ 2 + (lineCell x y l 1 0).sin q ^ 2 = 1 ∧ ∀ T,
      0 ≤ ((lineCell x y l 1 0).coef q T).invRhoCp ∧ 0 ≤ ((lineCell x y l 1 0).coef q T).kx ∧
      0 ≤ ((lineCell x y l 1 0).coef q T).ky ∧ 0 ≤ ((lineCell x y l 1 0).coef q T).kz := by
    intro x y l h q
    refine ⟨h, by simp [lineCell], fun T => ?_⟩
    simp [lineCell]
  refine ⟨?_, ?_⟩
  · intro c h h0
    simp only [hangingMesh, List.mem_cons, List.not_mem_nil, or_false] at h
    rcases h with rfl | rfl | rfl
    · exact hl _ _ _ (by norm_num)
    · exact hl _ _ _ (by norm_num)
    · simp at h0
  · intro f hf _ q
    simp only [hangingMesh, List.mem_cons, List.not_mem_nil, or_false] at hf
    subst hf
    refine ⟨?_, fun T => ?_⟩ <;> simp

/-- **C95 fails for the energy when materials differ.**  Two insulated unit cells of the same conductivity and heat capacities `1/a`
and `1/b` per volume: one step of size `dt` from the temperatures 0, 1, 0 changes the thermal energy by
`-(a - b)² / (2 a b) dt`, although nothing is heated and no heat leaves. -/
theorem C95_energy_refuted (a b : ℝ) (ha : 0 < a) (hb : 0 < b) (hab : a ≠ b) (t dt : ℝ) (hdt : 0 < dt) :
    ∃ z op, steps (some .forwardEuler) dt 1 (t, ![0, 1, 0], (bar a b).operator (fun _ => []) t) = some (t + dt, z, op) ∧
      (bar a b).energy z - (bar a b).energy ![0, 1, 0] = -((a - b) ^ 2 / (2 * a * b)) * dt ∧
      (bar a b).energy z < (bar a b).energy ![0, 1, 0] := by
  obtain ⟨op, h⟩ := steps_eq .forwardEuler dt 1 t ![0, 1, 0] ((bar a b).operator (fun _ => []) t)
  rw [show ((1 : ℕ) : ℝ) * dt = dt by norm_num] at h
  refine ⟨_, op, h, ?_⟩
  have hE : ∀ y : Fin 3 → ℝ, (bar a b).energy y = 1 / a * ((y 0 + y 1) / 2) + 1 / b * ((y 1 + y 2) / 2) := by
    intro y
    have hcell : ∀ (x z : Fin 3) (r : ℝ), (lineCell x z 1 r 0).rhoCp * ∑ q, (lineCell x z 1 r 0).mjxw q *
        ∑ g, y g * (lineCell x z 1 r 0).mphi (noHanging _) g q = 1 / r * ((y x + y z) / 2) := by
      intro x z r
      have h1 : (lineCell x z 1 r 0).rhoCp = 1 / r := by
        unfold Cell.rhoCp
        rw [dif_pos (show 0 < (lineCell x z 1 r 0).nq by exact Nat.one_pos)]
        rfl
      rw [h1]
      congr 1
      change (∑ q : Fin 2, (1 / 2 : ℝ) * ∑ g, y g * ∑ i : Fin 2, (noHanging (Fin 3)).coef (![x, z] i) g *
        (if i = q then 1 else 0)) = _
      simp only [Fin.sum_univ_two, noHanging, Hanging.coef]
      fin_cases x <;> fin_cases z <;> simp [Fin.sum_univ_three] <;> ring
    have : (bar a b).energy y = (lineCell 0 1 1 a 0).rhoCp * (∑ q, (lineCell 0 1 1 a 0).mjxw q *
        ∑ g, y g * (lineCell 0 1 1 a 0).mphi (noHanging _) g q) +
        ((lineCell 1 2 1 b 0).rhoCp * (∑ q, (lineCell 1 2 1 b 0).mjxw q *
        ∑ g, y g * (lineCell 1 2 1 b 0).mphi (noHanging _) g q) + 0) := rfl
    rw [this, hcell, hcell, add_zero]
  have hrun : runOf (rhs ((bar a b).operator (fun _ => []) t)) .forwardEuler dt 1 t ![0, 1, 0] =
      ![dt * (2 * a), 1 - dt * (a + b), dt * (2 * b)] := by
    funext g
    simp only [runOf, stepOf, bar_rate]
    fin_cases g <;> simp
    ring
  have hchange : (bar a b).energy (runOf (rhs ((bar a b).operator (fun _ => []) t)) .forwardEuler dt 1 t ![0, 1, 0]) -
      (bar a b).energy ![0, 1, 0] = -((a - b) ^ 2 / (2 * a * b)) * dt := by
    rw [hrun, hE, hE]
    simp
    field_simp
    ring
  refine ⟨hchange, ?_⟩
  have : 0 < (a - b) ^ 2 / (2 * a * b) := by
    have : a - b ≠ 0 := sub_ne_zero.2 hab
    positivity
  nlinarith

/-! ## C98: the printed heat input -/

/-- The printing quadrature of a cell, when it is the quadrature of the operator. -/
def Cell.print (c : Cell ι) : PrintQuad := ⟨c.n, c.nq, c.shape, c.jxw, c.point⟩

/-- **C98**, what is printed: the sum over the cells with material and their quadrature points of the power density of all sources
times the weight, independent of the shape functions. -/
theorem C98_printed_value (beams : List Beam) (cells : List PrintQuad) (hpu : ∀ c ∈ cells, ∀ q, ∑ i, c.shape i q = 1) :
    printedHeat beams cells = (cells.map fun c => ∑ q, (beams.map fun b => b.scalar (c.point q)).sum * c.jxw q).sum := by
  unfold printedHeat
  rw [foldl_sum, zero_add]
  refine list_sum_congr _ _ _ fun c hc => ?_
  rw [Finset.sum_comm]
  refine Finset.sum_congr rfl fun q _ => ?_
  simp only [foldl_sum, zero_add]
  rw [← Finset.sum_mul, ← Finset.mul_sum, hpu c hc, mul_one]

/-- **C98** (partial: the operator uses the printing quadrature, the vectorised and scalar values agree (C87), uniform heat
capacity).  The printed heat input is the power that the time step puts into the material: the difference that the sources make to
the rate of change of the thermal energy. -/
theorem C98_printed_is_delivered_partial (m : Mesh ι) (hm : Consistent m) (hp : PureAdiabatic m.types) (R : ℝ)
    (hR : UniformCapacity m R) (beams : ℝ → List Beam) (t0 t : ℝ) (hoff : OffIsZero (beams t))
    (hmass : ∀ g, m.hanging.constrained g = false → m.mass g ≠ 0) (hval : ∀ b ∈ beams t, ∀ p, b.scalar p = b.lanes p)
    (y : ι → ℝ) :
    printedHeat (beams t) (m.material.map Cell.print) =
      m.energy (rhs (m.operator beams t0) t y) - m.energy (rhs (m.operator (fun _ => []) t0) t y) := by
  rw [C98_printed_value]
  · rw [energy_eq m R hR, energy_eq m R hR, total_rate m hm hp beams t0 t hoff hmass,
      total_rate m hm hp (fun _ => []) t0 t offNil hmass]
    have h0 : m.input [] y = 0 := by
      unfold Mesh.input
      apply List.sum_eq_zero
      intro x hx
      obtain ⟨c, _, rfl⟩ := List.mem_map.1 hx
      exact Finset.sum_eq_zero fun q _ => by rw [show power [] (c.point q) = 0 from rfl]; ring
    rw [h0]
    have h1 : R * m.input (beams t) y = m.powerIn (beams t) := by
      unfold Mesh.input Mesh.powerIn
      rw [← list_sum_smul]
      refine list_sum_congr _ _ _ fun c hc => ?_
      rw [Finset.mul_sum]
      refine Finset.sum_congr rfl fun q _ => ?_
      rw [(hR.cell c hc).2]
      have := hR.ne
      field_simp
    have h2 : (List.map (fun c : PrintQuad => ∑ q, (List.map (fun b => b.scalar (c.point q)) (beams t)).sum * c.jxw q)
        (m.material.map Cell.print)).sum = m.powerIn (beams t) := by
      rw [List.map_map]
      unfold Mesh.powerIn
      refine list_sum_congr _ _ _ fun c _ => ?_
      simp only [Function.comp]
      refine Finset.sum_congr rfl fun q _ => ?_
      rw [mul_comm]
      congr 1
      unfold power
      exact congrArg List.sum (List.map_congr_left fun b hb => hval b hb _)
    rw [h2, ← h1]; ring
  · intro c hc q
    obtain ⟨c', hc', rfl⟩ := List.mem_map.1 hc
    have h := (mem_material m c').1 hc'
    exact hm.shape c' h.1 h.2 q

/-- A source of power density 1 for `x < 1/10` (a `CubeHeatSource`). -/
noncomputable def cubeBeam : Beam where
  on := true
  lanes p := if p 0 < 1 / 10 then 1 else 0
  scalar p := if p 0 < 1 / 10 then 1 else 0

/-- The unit cell with the two-point Gauss-Lobatto quadrature (input `quadrature lobatto`). -/
noncomputable def lobattoCell : Cell (Fin 2) where
  fe := 0
  n := 2
  nq := 2
  dof := ![0, 1]
  shape := fun i q => if i = q then 1 else 0
  grad := fun i _ d => if d = 0 then (if i = 0 then -1 else 1) else 0
  jxw := fun _ => 1 / 2
  point := fun q _ => if q = 0 then 0 else 1
  cos := fun _ => 1
  sin := fun _ => 0
  coef := fun _ _ => ⟨1, 1, 1, 1⟩
  mq := 2
  mshape := fun i q => if i = q then 1 else 0
  mjxw := fun _ => 1 / 2

/-- The same cell with the two-point Gauss quadrature of the printed value; the points are `1/2 ± s` with `s² = 1/12`. -/
noncomputable def gaussPrint (s : ℝ) : PrintQuad where
  n := 2
  nq := 2
  shape := fun i q => if i = 0 then 1 - (if q = 0 then 1 / 2 - s else 1 / 2 + s) else (if q = 0 then 1 / 2 - s else 1 / 2 + s)
  jxw := fun _ => 1 / 2
  point := fun q _ => if q = 0 then 1 / 2 - s else 1 / 2 + s

/-- **C98 fails with the Lobatto quadrature.**  The printed heat input always uses a Gauss quadrature: with the Lobatto quadrature for
the operator, a source next to the end of a cell delivers power 1/2 to the material while 0 is printed. -/
theorem C98_lobatto_refuted (s : ℝ) (hs : s ^ 2 = 1 / 12) (hs0 : 0 < s) :
    (Mesh.mk (noHanging (Fin 2)) [lobattoCell] [] [1, 1]).powerIn [cubeBeam] = 1 / 2 ∧
    printedHeat [cubeBeam] [gaussPrint s] = 0 := by
  have h1 : s < 4 / 10 := by nlinarith
  constructor
  · change (∑ q : Fin 2, (1 / 2 : ℝ) * power [cubeBeam] (fun _ => if q = 0 then 0 else 1)) + 0 = 1 / 2
    simp only [Fin.sum_univ_two, power, cubeBeam, List.map_cons, List.map_nil, List.sum_cons, List.sum_nil]
    norm_num
  · rw [C98_printed_value]
    · change (∑ q : Fin 2, ((if (if q = 0 then 1 / 2 - s else 1 / 2 + s) < 1 / 10 then (1 : ℝ) else 0) + 0) * (1 / 2)) + 0 = 0
      rw [Fin.sum_univ_two]
      have a : ¬ (1 / 2 - s < 1 / 10) := by linarith
      have b : ¬ (1 / 2 + s < 1 / 10) := by linarith
      simp only [if_true, if_neg a, Fin.one_eq_zero_iff, OfNat.ofNat_ne_one, if_false, if_neg b]
      norm_num
    · intro c hc q
      simp only [List.mem_singleton] at hc
      subst hc
      change Fin 2 at q
      change (∑ i : Fin 2, if i = 0 then 1 - (if q = (0 : Fin 2) then 1 / 2 - s else 1 / 2 + s) else
        (if q = (0 : Fin 2) then 1 / 2 - s else 1 / 2 + s)) = 1
      rw [Fin.sum_univ_two]
      simp

end Verif.Assembly
