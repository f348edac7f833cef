import Verif.Thermal.Energy

/-!
# C95: the energy balance of every time-stepping method

`Energy.lean` proves the balance of the thermal energy for histories of forward Euler steps.  Here the steps may be of any of the
three methods, even mixed (source/ThermalPhysics.templates.hh:859-888 with the methods chosen in 449-471).
-/

namespace Verif.Assembly

open Verif.Material Verif.Input
open Verif.Thermal (Operator evolve steps rhs Method)

variable {ι : Type*} [Fintype ι] [DecidableEq ι]

/-! ## Specification -/

/-- The evaluations of one step: weight, time and temperatures (the Butcher tableaux of the three methods). -/
noncomputable def evaluations (f : ℝ → (ι → ℝ) → ι → ℝ) (t dt : ℝ) (y : ι → ℝ) : Method → List (ℝ × ℝ × (ι → ℝ))
  | .forwardEuler => [(1, t, y)]
  | .rk3 =>
    let k1 := f t y
    let k2 := f (t + dt / 2) (fun i => y i + dt / 2 * k1 i)
    [(1 / 6, t, y), (2 / 3, t + dt / 2, fun i => y i + dt / 2 * k1 i), (1 / 6, t + dt, fun i => y i + dt * (2 * k2 i - k1 i))]
  | .rk4 =>
    let k1 := f t y
    let k2 := f (t + dt / 2) (fun i => y i + dt / 2 * k1 i)
    let k3 := f (t + dt / 2) (fun i => y i + dt / 2 * k2 i)
    [(1 / 6, t, y), (1 / 3, t + dt / 2, fun i => y i + dt / 2 * k1 i), (1 / 3, t + dt / 2, fun i => y i + dt / 2 * k2 i),
      (1 / 6, t + dt, fun i => y i + dt * k3 i)]

/-- The mean of a quantity over one step as seen by the method: the value at the start for forward Euler, Simpson's rule for the
Runge-Kutta methods. -/
noncomputable def seen (P : ℝ → ℝ) (t dt : ℝ) : Method → ℝ
  | .forwardEuler => P t
  | .rk3 => (P t + 4 * P (t + dt / 2) + P (t + dt)) / 6
  | .rk4 => (P t + 4 * P (t + dt / 2) + P (t + dt)) / 6

omit [Fintype ι] [DecidableEq ι] in
/-- The evaluations are a mean: positive weights with sum one, at times of the step. -/
theorem evaluations_mean (f : ℝ → (ι → ℝ) → ι → ℝ) (t dt : ℝ) (hdt : 0 ≤ dt) (y : ι → ℝ) (meth : Method) :
    (∀ e ∈ evaluations f t dt y meth, 0 < e.1 ∧ t ≤ e.2.1 ∧ e.2.1 ≤ t + dt) ∧
    ((evaluations f t dt y meth).map fun e => e.1).sum = 1 ∧
    (0 < dt → (t, y) ∈ (evaluations f t dt y meth).map fun e => e.2) := by
  cases meth with
  | forwardEuler =>
    refine ⟨?_, by simp [evaluations], fun _ => by simp [evaluations]⟩
    intro e he
    simp only [evaluations, List.mem_cons, List.not_mem_nil, or_false] at he
    subst he
    exact ⟨by norm_num, le_refl _, by simp; linarith⟩
  | rk3 =>
    refine ⟨?_, by simp [evaluations]; norm_num, fun _ => by simp [evaluations]⟩
    intro e he
    simp only [evaluations, List.mem_cons, List.not_mem_nil, or_false] at he
    rcases he with rfl | rfl | rfl
    · exact ⟨by norm_num, le_refl _, by simp; linarith⟩
    · exact ⟨by norm_num, by simp; linarith, by simp; linarith⟩
    · exact ⟨by norm_num, by simp; linarith, le_refl _⟩
  | rk4 =>
    refine ⟨?_, by simp [evaluations]; norm_num, fun _ => by simp [evaluations]⟩
    intro e he
    simp only [evaluations, List.mem_cons, List.not_mem_nil, or_false] at he
    rcases he with rfl | rfl | rfl | rfl
    · exact ⟨by norm_num, le_refl _, by simp; linarith⟩
    · exact ⟨by norm_num, by simp; linarith, by simp; linarith⟩
    · exact ⟨by norm_num, by simp; linarith, by simp; linarith⟩
    · exact ⟨by norm_num, by simp; linarith, le_refl _⟩

/-- One step adds `dt` times the weighted right-hand sides. -/
theorem integral_step (m : Mesh ι) (f : ℝ → (ι → ℝ) → ι → ℝ) (t dt : ℝ) (y : ι → ℝ) (meth : Method) :
    m.integral (stepOf f t dt y meth) = m.integral y +
      dt * ((evaluations f t dt y meth).map fun e => e.1 * m.integral (f e.2.1 e.2.2)).sum := by
  cases meth with
  | forwardEuler =>
    simp only [stepOf, evaluations, List.map_cons, List.map_nil, List.sum_cons, List.sum_nil]
    rw [integral_add]; ring
  | rk3 =>
    simp only [evaluations, List.map_cons, List.map_nil, List.sum_cons, List.sum_nil]
    generalize hk1 : f t y = k1
    generalize hk2 : f (t + dt / 2) (fun i => y i + dt / 2 * k1 i) = k2
    generalize hk3 : f (t + dt) (fun i => y i + dt * (2 * k2 i - k1 i)) = k3
    have e : stepOf f t dt y .rk3 = fun g => (fun g => (fun g => y g + dt / 6 * k1 g) g + (2 * dt / 3) * k2 g) g + dt / 6 * k3 g := by
      funext g
      simp only [stepOf, hk1, hk2, hk3]; ring
    rw [e, integral_add, integral_add, integral_add]; ring
  | rk4 =>
    simp only [evaluations, List.map_cons, List.map_nil, List.sum_cons, List.sum_nil]
    generalize hk1 : f t y = k1
    generalize hk2 : f (t + dt / 2) (fun i => y i + dt / 2 * k1 i) = k2
    generalize hk3 : f (t + dt / 2) (fun i => y i + dt / 2 * k2 i) = k3
    generalize hk4 : f (t + dt) (fun i => y i + dt * k3 i) = k4
    have e : stepOf f t dt y .rk4 = fun g => (fun g => (fun g => (fun g => y g + dt / 6 * k1 g) g + (dt / 3) * k2 g) g +
        (dt / 3) * k3 g) g + dt / 6 * k4 g := by
      funext g
      simp only [stepOf, hk1, hk2, hk3, hk4]; ring
    rw [e, integral_add, integral_add, integral_add, integral_add]; ring

theorem power_input (m : Mesh ι) (R : ℝ) (hR : UniformCapacity m R) (b : List Beam) (y : ι → ℝ) :
    R * m.input b y = m.powerIn b := by
  unfold Mesh.input Mesh.powerIn
  rw [← list_sum_smul]
  refine list_sum_congr _ _ _ fun c hc => ?_
  rw [Finset.mul_sum]
  refine Finset.sum_congr rfl fun q _ => ?_
  rw [(hR.cell c hc).2]
  have := hR.ne
  field_simp

theorem power_loss (m : Mesh ι) (R : ℝ) (hR : UniformCapacity m R) (y : ι → ℝ) : R * m.loss y = m.powerOut y := by
  unfold Mesh.loss Mesh.powerOut
  rw [← list_sum_smul]
  refine list_sum_congr _ _ _ fun f hf => ?_
  rw [Finset.mul_sum]
  refine Finset.sum_congr rfl fun q _ => ?_
  rw [hR.face f hf]
  have := hR.ne
  field_simp

/-- A history of steps: the right-hand side never changes. -/
theorem history_step (m : Mesh ι) (beams : ℝ → List Beam) (t0 : ℝ) (M : ℕ → Method) (T D : ℕ → ℝ) (Y : ℕ → ι → ℝ)
    (op : ℕ → Operator ι) (h0 : op 0 = m.operator beams t0)
    (hstep : ∀ j, evolve (some (M j)) (op j) (T j) (D j) (Y j) = some (T (j + 1), Y (j + 1), op (j + 1))) (j : ℕ) :
    T (j + 1) = T j + D j ∧ Y (j + 1) = stepOf (rhs (m.operator beams t0)) (T j) (D j) (Y j) (M j) := by
  have hrhs : ∀ j, rhs (op j) = rhs (m.operator beams t0) := by
    intro j
    induction j with
    | zero => rw [h0]
    | succ j ih =>
      obtain ⟨op', h1, h2⟩ := evolve_eq (M j) (op j) (T j) (D j) (Y j)
      rw [hstep j] at h2
      simp only [Option.some.injEq, Prod.mk.injEq] at h2
      rw [h2.2.2, h1, ih]
  obtain ⟨op', h1, h2⟩ := evolve_eq (M j) (op j) (T j) (D j) (Y j)
  rw [hstep j] at h2
  simp only [Option.some.injEq, Prod.mk.injEq] at h2
  rw [h2.1, h2.2.1, hrhs j]
  exact ⟨rfl, rfl⟩

/-- **C95** (partial: uniform heat capacity), every method.  Over any history of steps of any sizes and any of the three methods the
change of the thermal energy is the sum over the steps of the step size times the mean, over the evaluations of the step, of the power
delivered by the sources at the time of the evaluation minus the power lost through the surface at its temperatures. -/
theorem C95_energy_methods_partial (m : Mesh ι) (hm : Consistent m) (hp : PureAdiabatic m.types) (R : ℝ) (hR : UniformCapacity m R)
    (beams : ℝ → List Beam) (hoff : ∀ t, OffIsZero (beams t)) (hmass : ∀ g, m.hanging.constrained g = false → m.mass g ≠ 0)
    (t0 : ℝ) (M : ℕ → Method) (T D : ℕ → ℝ) (Y : ℕ → ι → ℝ) (op : ℕ → Operator ι) (h0 : op 0 = m.operator beams t0)
    (hstep : ∀ j, evolve (some (M j)) (op j) (T j) (D j) (Y j) = some (T (j + 1), Y (j + 1), op (j + 1))) (k : ℕ) :
    m.energy (Y k) - m.energy (Y 0) = ∑ j ∈ Finset.range k, D j *
      ((evaluations (rhs (m.operator beams t0)) (T j) (D j) (Y j) (M j)).map fun e =>
        e.1 * (m.powerIn (beams e.2.1) - m.powerOut e.2.2)).sum := by
  induction k with
  | zero => simp
  | succ k ih =>
    rw [Finset.sum_range_succ, ← ih, energy_eq m R hR, energy_eq m R hR, energy_eq m R hR,
      (history_step m beams t0 M T D Y op h0 hstep k).2, integral_step]
    have e : ((evaluations (rhs (m.operator beams t0)) (T k) (D k) (Y k) (M k)).map fun e =>
        e.1 * (m.powerIn (beams e.2.1) - m.powerOut e.2.2)).sum =
        R * ((evaluations (rhs (m.operator beams t0)) (T k) (D k) (Y k) (M k)).map fun e =>
          e.1 * m.integral (rhs (m.operator beams t0) e.2.1 e.2.2)).sum := by
      rw [← list_sum_smul]
      refine list_sum_congr _ _ _ fun e _ => ?_
      rw [total_rate m hm hp beams t0 e.2.1 (hoff _) hmass, ← power_input m R hR (beams e.2.1) e.2.2, ← power_loss m R hR]
      ring
    rw [e]; ring

/-- **C95** (partial: uniform heat capacity), insulated bodies: the energy gained over any history of steps is the sum over the steps of
the step size times the power of the sources at the start (forward Euler) or the Simpson mean of the power over the step (Runge-Kutta),
whatever the temperatures. -/
theorem C95_delivered_partial (m : Mesh ι) (hm : Consistent m) (hp : PureAdiabatic m.types) (R : ℝ) (hR : UniformCapacity m R)
    (beams : ℝ → List Beam) (hoff : ∀ t, OffIsZero (beams t)) (hmass : ∀ g, m.hanging.constrained g = false → m.mass g ≠ 0)
    (hadi : ∀ f ∈ m.faces, f.Exposed → ¬ Has (getType m.types f.id) .convective ∧ ¬ Has (getType m.types f.id) .radiative)
    (t0 : ℝ) (M : ℕ → Method) (T D : ℕ → ℝ) (Y : ℕ → ι → ℝ) (op : ℕ → Operator ι) (h0 : op 0 = m.operator beams t0)
    (hstep : ∀ j, evolve (some (M j)) (op j) (T j) (D j) (Y j) = some (T (j + 1), Y (j + 1), op (j + 1))) (k : ℕ) :
    m.energy (Y k) - m.energy (Y 0) = ∑ j ∈ Finset.range k, D j * seen (fun s => m.powerIn (beams s)) (T j) (D j) (M j) := by
  rw [C95_energy_methods_partial m hm hp R hR beams hoff hmass t0 M T D Y op h0 hstep k]
  have hout : ∀ y, m.powerOut y = 0 := by
    intro y
    unfold Mesh.powerOut
    apply List.sum_eq_zero
    intro x hx
    obtain ⟨f, hf, rfl⟩ := List.mem_map.1 hx
    have hf' := (mem_surface m f).1 hf
    obtain ⟨a, b⟩ := hadi f hf'.1 hf'.2
    exact Finset.sum_eq_zero fun q _ => by simp [Face.outflow, a, b]
  refine Finset.sum_congr rfl fun j _ => ?_
  congr 1
  cases M j <;>
    simp only [evaluations, seen, hout, sub_zero, List.map_cons, List.map_nil, List.sum_cons, List.sum_nil] <;> ring

/-- **C95** (partial: uniform heat capacity), steady sources: an insulated body heated with the constant power `P` gains exactly `P`
times the elapsed time, with every method and any step sizes. -/
theorem C95_steady_partial (m : Mesh ι) (hm : Consistent m) (hp : PureAdiabatic m.types) (R : ℝ) (hR : UniformCapacity m R)
    (beams : ℝ → List Beam) (hoff : ∀ t, OffIsZero (beams t)) (hmass : ∀ g, m.hanging.constrained g = false → m.mass g ≠ 0)
    (hadi : ∀ f ∈ m.faces, f.Exposed → ¬ Has (getType m.types f.id) .convective ∧ ¬ Has (getType m.types f.id) .radiative)
    (P : ℝ) (hP : ∀ s, m.powerIn (beams s) = P)
    (t0 : ℝ) (M : ℕ → Method) (T D : ℕ → ℝ) (Y : ℕ → ι → ℝ) (op : ℕ → Operator ι) (h0 : op 0 = m.operator beams t0)
    (hstep : ∀ j, evolve (some (M j)) (op j) (T j) (D j) (Y j) = some (T (j + 1), Y (j + 1), op (j + 1))) (k : ℕ) :
    m.energy (Y k) - m.energy (Y 0) = P * (T k - T 0) := by
  rw [C95_delivered_partial m hm hp R hR beams hoff hmass hadi t0 M T D Y op h0 hstep k]
  have hs : ∀ j, seen (fun s => m.powerIn (beams s)) (T j) (D j) (M j) = P := by
    intro j
    cases M j <;> simp only [seen, hP] <;> ring
  simp only [hs]
  have ht : ∀ k, ∑ j ∈ Finset.range k, D j = T k - T 0 := by
    intro k
    induction k with
    | zero => simp
    | succ k ih =>
      rw [Finset.sum_range_succ, ih, (history_step m beams t0 M T D Y op h0 hstep k).1]; ring
  rw [← Finset.sum_mul, ht]; ring

/-- A concrete history: the insulated bar under the uniform source, one step of each method in turn, in which the energy grows by the
power 2 times the time. -/
example (y : Fin 3 → ℝ) : ∃ (M : ℕ → Method) (T D : ℕ → ℝ) (Y : ℕ → Fin 3 → ℝ) (op : ℕ → Operator (Fin 3)),
    op 0 = (bar 2 2).operator (fun _ => [cubeBeam0]) 0 ∧ Y 0 = y ∧ T 0 = 0 ∧
    (∀ j, evolve (some (M j)) (op j) (T j) (D j) (Y j) = some (T (j + 1), Y (j + 1), op (j + 1))) ∧
    M 0 = .rk3 ∧ M 1 = .rk4 ∧ M 2 = .forwardEuler ∧ (bar 2 2).energy (Y 3) - (bar 2 2).energy (Y 0) = 2 * T 3 := by
  let M : ℕ → Method := fun j => if j = 0 then .rk3 else if j = 1 then .rk4 else .forwardEuler
  have hex : ∀ (j : ℕ) (s : ℝ × (Fin 3 → ℝ) × Operator (Fin 3)), ∃ s' : ℝ × (Fin 3 → ℝ) × Operator (Fin 3),
      evolve (some (M j)) s.2.2 s.1 (1 / 10) s.2.1 = some s' := by
    intro j s
    obtain ⟨op', -, h⟩ := evolve_eq (M j) s.2.2 s.1 (1 / 10) s.2.1
    exact ⟨_, h⟩
  choose F hF using hex
  let S : ℕ → ℝ × (Fin 3 → ℝ) × Operator (Fin 3) := fun j =>
    Nat.rec (0, y, (bar 2 2).operator (fun _ => [cubeBeam0]) 0) (fun j s => F j s) j
  refine ⟨M, fun j => (S j).1, fun _ => 1 / 10, fun j => (S j).2.1, fun j => (S j).2.2, rfl, rfl, rfl, fun j => hF j (S j),
    rfl, rfl, rfl, ?_⟩
  have hR : UniformCapacity (bar 2 2) (1 / 2) := by
    refine ⟨by norm_num, ?_, ?_⟩
    · intro c hc
      have hmat : (bar 2 2).material = [lineCell 0 1 1 2 0, lineCell 1 2 1 2 0] := rfl
      rw [hmat] at hc
      simp only [List.mem_cons, List.not_mem_nil, or_false] at hc
      rcases hc with rfl | rfl <;> exact ⟨Nat.one_pos, fun _ _ => by simp [lineCell]⟩
    · intro f hf
      have : (bar 2 2).surface = [] := rfl
      rw [this] at hf
      simp at hf
  have hp : PureAdiabatic (bar 2 2).types := by
    intro t ht
    simp only [bar, List.mem_cons, List.not_mem_nil, or_false, or_self] at ht
    subst ht
    decide
  have h := C95_steady_partial (bar 2 2) (bar_consistent 2 2) hp (1 / 2) hR (fun _ => [cubeBeam0])
    (by intro t b hb hon; simp only [List.mem_singleton] at hb; subst hb; cases hon)
    (by intro g _; rw [bar_mass]; fin_cases g <;> simp)
    (by intro f hf; simp [bar] at hf) 2
    (by
      intro s
      change (∑ _q : Fin 1, (1 : ℝ) * power [cubeBeam0] 0) + ((∑ _q : Fin 1, (1 : ℝ) * power [cubeBeam0] 0) + 0) = 2
      simp [power, cubeBeam0]; norm_num)
    0 M (fun j => (S j).1) (fun _ => 1 / 10) (fun j => (S j).2.1) (fun j => (S j).2.2) rfl (fun j => hF j (S j)) 3
  rw [h]
  change 2 * ((S 3).1 - 0) = 2 * (S 3).1
  rw [sub_zero]

end Verif.Assembly
