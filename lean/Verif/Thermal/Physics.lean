import Verif.Refinement.Transfer
import Verif.Material.Phase
import Verif.Thermal.AddMaterialProps
import Mathlib.Algebra.BigOperators.Fin
import Mathlib.Algebra.BigOperators.Field
import Mathlib.Algebra.BigOperators.Ring.Finset
import Mathlib.Algebra.Order.Floor.Semiring
import Mathlib.Data.Real.Archimedean
import Mathlib.Tactic.Linarith
import Mathlib.Tactic.Ring
import Mathlib.Tactic.FieldSimp

/-!
# C40, C42, C43: time stepping, melt history and checkpoints of `ThermalPhysics`
-/

namespace Verif.Thermal

open Verif.Refinement

/-! ## C40: `evolve_one_time_step` -/

section Evolve

variable {ι : Type*}

/-- The thermal operator on a fixed mesh: `apply` is what `vmult_add` adds for a temperature vector (conduction and boundary
terms), `heat t` the heat-source contribution when the beams have been set to time `t`, `invMass` the inverse of the lumped mass
matrix.  `time` is the time the beams were last set to (`HeatSource::update_time`). -/
structure Operator (ι : Type*) where
  apply : (ι → ℝ) → ι → ℝ
  heat : ℝ → (ι → ℝ) → ι → ℝ
  invMass : ι → ℝ
  time : ℝ

/-- `evaluate_thermal_physics_impl` on the host, `source/ThermalPhysics.templates.hh:48-124` (`set_time`:
`source/ThermalOperator.hh:299-308`): set the beams to `t`, apply the operator, scale by the inverse mass.  Also returns the operator
with its new beam time. -/
def evaluate (op : Operator ι) (t : ℝ) (y : ι → ℝ) : (ι → ℝ) × Operator ι :=
  let op' := { op with time := t };
  (fun i => op.invMass i * (op'.apply y i + op'.heat op'.time y i), op')

/-- The methods of `time_stepping.method`, lines 449-471: `none` leaves `_time_stepping` null. -/
inductive Method where
  | forwardEuler
  | rk3
  | rk4
  deriving DecidableEq

/-- Reading the method, lines 453-471 (the name is converted to lower case first). -/
def readMethod (name : String) : Option Method :=
  if name.toLower = "forward_euler" then some .forwardEuler
  else if name.toLower = "rk_third_order" then some .rk3
  else if name.toLower = "rk_fourth_order" then some .rk4
  else none

/-- Stage values of an explicit Runge-Kutta method: `rows` are pairs of `c_i` and the coefficients `a_ij`; the operator is
threaded through the evaluations. -/
def stages (dt t : ℝ) (y : ι → ℝ) : List (ℝ × List ℝ) → List (ι → ℝ) → Operator ι → List (ι → ℝ) × Operator ι
  | [], ks, op => (ks, op)
  | (c, a) :: rows, ks, op =>
    let r := evaluate op (t + c * dt) (fun i => y i + dt * ((a.zip ks).map fun p => p.1 * p.2 i).sum);
    stages dt t y rows (ks ++ [r.1]) r.2

/-- `dealii::TimeStepping::ExplicitRungeKutta::evolve_one_time_step`: `y + dt Σ b_i k_i` and the time `t + dt`. -/
def rungeKutta (rows : List (ℝ × List ℝ)) (b : List ℝ) (op : Operator ι) (t dt : ℝ) (y : ι → ℝ) : ℝ × (ι → ℝ) × Operator ι :=
  let r := stages dt t y rows [] op;
  (t + dt, fun i => y i + dt * ((b.zip r.1).map fun p => p.1 * p.2 i).sum, r.2)

/-- Coefficients of deal.II's `RK_THIRD_ORDER`. -/
noncomputable def rk3Rows : List (ℝ × List ℝ) := [(0, []), (1 / 2, [1 / 2]), (1, [-1, 2])]
/-- Weights of deal.II's `RK_THIRD_ORDER`. -/
noncomputable def rk3Weights : List ℝ := [1 / 6, 2 / 3, 1 / 6]
/-- Coefficients of deal.II's `RK_CLASSIC_FOURTH_ORDER`. -/
noncomputable def rk4Rows : List (ℝ × List ℝ) := [(0, []), (1 / 2, [1 / 2]), (1 / 2, [0, 1 / 2]), (1, [0, 0, 1])]
/-- Weights of deal.II's `RK_CLASSIC_FOURTH_ORDER`. -/
noncomputable def rk4Weights : List ℝ := [1 / 6, 1 / 3, 1 / 3, 1 / 6]

/-- `evolve_one_time_step`, lines 859-888; `none`: null `_time_stepping` is dereferenced. -/
noncomputable def evolve (m : Option Method) (op : Operator ι) (t dt : ℝ) (y : ι → ℝ) : Option (ℝ × (ι → ℝ) × Operator ι) :=
  match m with
  | some .forwardEuler =>
    let r := evaluate op t y;
    some (t + dt, fun i => 1 * y i + dt * r.1 i, r.2)     -- `solution.sadd(1., delta_t, …)`
  | some .rk3 => some (rungeKutta rk3Rows rk3Weights op t dt y)
  | some .rk4 => some (rungeKutta rk4Rows rk4Weights op t dt y)
  | none => none

/-- The right-hand side of the semi-discrete heat equation, independent of the state of the beams. -/
def rhs (op : Operator ι) (t : ℝ) (y : ι → ℝ) (i : ι) : ℝ := op.invMass i * (op.apply y i + op.heat t y i)

/-- **C40**: a forward Euler step returns exactly `t + dt` and `y + dt f(t, y)`, with the beams at the start time `t` whatever time
they were at before. -/
theorem C40_forward_euler (op : Operator ι) (t dt : ℝ) (y : ι → ℝ) :
    ∃ op', evolve (some .forwardEuler) op t dt y = some (t + dt, fun i => y i + dt * rhs op t y i, op') := by
  refine ⟨{ op with time := t }, ?_⟩
  simp only [evolve, evaluate, rhs, one_mul]

/-- `k` steps of forward Euler. -/
noncomputable def steps (m : Option Method) (dt : ℝ) : ℕ → ℝ × (ι → ℝ) × Operator ι → Option (ℝ × (ι → ℝ) × Operator ι)
  | 0, s => some s
  | k + 1, s => (evolve m s.2.2 s.1 dt s.2.1).bind (steps m dt k)

theorem evaluate_keeps (op : Operator ι) (t : ℝ) (y : ι → ℝ) :
    (evaluate op t y).2.apply = op.apply ∧ (evaluate op t y).2.heat = op.heat ∧ (evaluate op t y).2.invMass = op.invMass :=
  ⟨rfl, rfl, rfl⟩

/-- **C40** for all methods and any number of steps: the steps succeed for the three accepted methods and the time is
`t + k dt`. -/
theorem C40_time (m : Method) (dt : ℝ) (k : ℕ) (t : ℝ) (y : ι → ℝ) (op : Operator ι) :
    ∃ y' op', steps (some m) dt k (t, y, op) = some (t + k * dt, y', op') := by
  induction k generalizing t y op with
  | zero => exact ⟨y, op, by simp [steps]⟩
  | succ k ih =>
    have : ∃ y1 op1, evolve (some m) op t dt y = some (t + dt, y1, op1) := by
      cases m
      · exact ⟨_, _, rfl⟩
      · exact ⟨_, _, rfl⟩
      · exact ⟨_, _, rfl⟩
    obtain ⟨y1, op1, h1⟩ := this
    obtain ⟨y2, op2, h2⟩ := ih (t + dt) y1 op1
    refine ⟨y2, op2, ?_⟩
    simp only [steps, h1, Option.bind_some, h2]
    congr 2
    push_cast
    ring

/-- **C40** for the Runge-Kutta methods: the stages are evaluated with the beams at the stage times, in closed form. -/
theorem C40_rk3 (op : Operator ι) (t dt : ℝ) (y : ι → ℝ) :
    let k1 := rhs op t y
    let k2 := rhs op (t + dt / 2) (fun i => y i + dt / 2 * k1 i)
    let k3 := rhs op (t + dt) (fun i => y i + dt * (2 * k2 i - k1 i))
    ∃ op', evolve (some .rk3) op t dt y = some (t + dt, fun i => y i + dt * (k1 i + 4 * k2 i + k3 i) / 6, op') := by
  intro k1 k2 k3
  refine ⟨(rungeKutta rk3Rows rk3Weights op t dt y).2.2, ?_⟩
  simp only [evolve, Option.some.injEq]
  refine Prod.ext rfl (Prod.ext ?_ rfl)
  funext i
  have e1 : (fun i => y i + dt * 0) = y := by funext j; ring
  simp only [rungeKutta, rk3Rows, rk3Weights, stages, evaluate, List.zip_nil_left, List.map_nil, List.sum_nil, e1,
    List.nil_append, List.zip_cons_cons, List.map_cons, List.sum_cons, List.cons_append, List.zip_nil_right, zero_mul, add_zero,
    one_mul]
  have e2 : t + 1 / 2 * dt = t + dt / 2 := by ring
  have e3 : (fun j => y j + dt * (1 / 2 * (op.invMass j * (op.apply y j + op.heat t y j)))) = fun j => y j + dt / 2 * k1 j := by
    funext j; simp only [k1, rhs]; ring
  simp only [e2, e3]
  have e4 : (fun j => y j + dt * (-1 * (op.invMass j * (op.apply y j + op.heat t y j)) +
      2 * (op.invMass j * (op.apply (fun j => y j + dt / 2 * k1 j) j + op.heat (t + dt / 2) (fun j => y j + dt / 2 * k1 j) j)))) =
      fun j => y j + dt * (2 * k2 j - k1 j) := by
    funext j; simp only [k1, k2, rhs]; ring
  simp only [e4]
  simp only [k1, k2, k3, rhs]
  ring

/-- **C40** for the classical fourth-order method. -/
theorem C40_rk4 (op : Operator ι) (t dt : ℝ) (y : ι → ℝ) :
    let k1 := rhs op t y
    let k2 := rhs op (t + dt / 2) (fun i => y i + dt / 2 * k1 i)
    let k3 := rhs op (t + dt / 2) (fun i => y i + dt / 2 * k2 i)
    let k4 := rhs op (t + dt) (fun i => y i + dt * k3 i)
    ∃ op', evolve (some .rk4) op t dt y =
      some (t + dt, fun i => y i + dt * (k1 i + 2 * k2 i + 2 * k3 i + k4 i) / 6, op') := by
  intro k1 k2 k3 k4
  refine ⟨(rungeKutta rk4Rows rk4Weights op t dt y).2.2, ?_⟩
  simp only [evolve, Option.some.injEq]
  refine Prod.ext rfl (Prod.ext ?_ rfl)
  funext i
  have e1 : (fun i => y i + dt * 0) = y := by funext j; ring
  simp only [rungeKutta, rk4Rows, rk4Weights, stages, evaluate, List.zip_nil_left, List.map_nil, List.sum_nil, e1,
    List.nil_append, List.zip_cons_cons, List.map_cons, List.sum_cons, List.cons_append, List.zip_nil_right, zero_mul, add_zero,
    one_mul, zero_add]
  have e2 : t + 1 / 2 * dt = t + dt / 2 := by ring
  have e3 : (fun j => y j + dt * (1 / 2 * (op.invMass j * (op.apply y j + op.heat t y j)))) = fun j => y j + dt / 2 * k1 j := by
    funext j; simp only [k1, rhs]; ring
  simp only [e2, e3]
  have e4 : (fun j => y j + dt * (1 / 2 *
      (op.invMass j * (op.apply (fun j => y j + dt / 2 * k1 j) j + op.heat (t + dt / 2) (fun j => y j + dt / 2 * k1 j) j)))) =
      fun j => y j + dt / 2 * k2 j := by
    funext j; simp only [k2, rhs]; ring
  simp only [e4]
  have e5 : (fun j => y j + dt *
      (op.invMass j * (op.apply (fun j => y j + dt / 2 * k2 j) j + op.heat (t + dt / 2) (fun j => y j + dt / 2 * k2 j) j))) =
      fun j => y j + dt * k3 j := by
    funext j; simp only [k3, rhs]
  simp only [e5]
  simp only [k1, k2, k3, k4, rhs]
  ring

/-- A method that is none of the three names dereferences a null pointer; the validator (C60) rejects such names. -/
theorem C40_unknown_method (name : String) (op : Operator ι) (t dt : ℝ) (y : ι → ℝ) :
    evolve (readMethod name) op t dt y = none ↔
      name.toLower ≠ "forward_euler" ∧ name.toLower ≠ "rk_third_order" ∧ name.toLower ≠ "rk_fourth_order" := by
  unfold readMethod
  split_ifs with h1 h2 h3 <;> simp_all [evolve]

/-- **C40**, by the name in the input file: in any capitalisation, `forward_euler` takes the explicit Euler step,
`rk_third_order` and `rk_fourth_order` the steps with Simpson-type weights of their three and four stages, each evaluated at its
own time and temperature. -/
theorem C40_named_method (name : String) (op : Operator ι) (t dt : ℝ) (y : ι → ℝ) :
    (name.toLower = "forward_euler" → ∃ op', evolve (readMethod name) op t dt y =
      some (t + dt, fun i => y i + dt * rhs op t y i, op')) ∧
    (name.toLower = "rk_third_order" →
      let k1 := rhs op t y
      let k2 := rhs op (t + dt / 2) (fun i => y i + dt / 2 * k1 i)
      let k3 := rhs op (t + dt) (fun i => y i + dt * (2 * k2 i - k1 i))
      ∃ op', evolve (readMethod name) op t dt y = some (t + dt, fun i => y i + dt * (k1 i + 4 * k2 i + k3 i) / 6, op')) ∧
    (name.toLower = "rk_fourth_order" →
      let k1 := rhs op t y
      let k2 := rhs op (t + dt / 2) (fun i => y i + dt / 2 * k1 i)
      let k3 := rhs op (t + dt / 2) (fun i => y i + dt / 2 * k2 i)
      let k4 := rhs op (t + dt) (fun i => y i + dt * k3 i)
      ∃ op', evolve (readMethod name) op t dt y =
        some (t + dt, fun i => y i + dt * (k1 i + 2 * k2 i + 2 * k3 i + k4 i) / 6, op')) := by
  refine ⟨fun h => ?_, fun h => ?_, fun h => ?_⟩
  · have e : readMethod name = some .forwardEuler := by rw [readMethod, if_pos h]
    rw [e]; exact C40_forward_euler op t dt y
  · have e : readMethod name = some .rk3 := by
      rw [readMethod, if_neg (by rw [h]; decide), if_pos h]
    rw [e]; exact C40_rk3 op t dt y
  · have e : readMethod name = some .rk4 := by
      rw [readMethod, if_neg (by rw [h]; decide), if_neg (by rw [h]; decide), if_pos h]
    rw [e]; exact C40_rk4 op t dt y

example : "RK_Third_Order".toLower = "rk_third_order" := by decide +kernel

/-- Conduction in one cell with two nodes; the beam was at time 7 before. -/
example : (evolve (ι := Fin 2) (some .forwardEuler)
    ⟨fun y i => y (1 - i) - y i, fun t _ _ => t, fun _ => 2, 7⟩ 1 (1 / 10) ![300, 400]).map (fun r => (r.1, r.2.1 0)) =
    some (11 / 10, 300 + 1 / 10 * (2 * (100 + 1))) := by
  simp [evolve, evaluate]
  norm_num

end Evolve

/-! ## C42: melt history -/

/-- Integration data of a cell with material: shape functions and weights at the quadrature points. -/
structure CellQuad where
  nq : ℕ
  nd : ℕ
  shape : Fin nd → Fin nq → ℝ
  jxw : Fin nq → ℝ

/-- The average of `mark_has_melted`, `source/ThermalPhysics.templates.hh:571-583`. -/
noncomputable def cellAverage (c : CellQuad) (T : Fin c.nd → ℝ) : ℝ :=
  (∑ i, ∑ q, c.shape i q * T i * c.jxw q) / (∑ i, ∑ q, c.shape i q * c.jxw q)

open Classical in
/-- `mark_has_melted`, lines 542-593: the loop over the locally owned cells with material, `cell_id` being the position in
`_has_melted`.  `none`: `_has_melted` is too short. -/
noncomputable def markHasMelted (threshold : ℝ) : List ℝ → List Bool → Option (List Bool)
  | [], flags => some flags
  | _ :: _, [] => none
  | avg :: avgs, f :: fs =>
    (markHasMelted threshold avgs fs).map ((if f = false then (if avg > threshold then true else f) else f) :: ·)

/-- Specification: the mean over the cell, by quadrature, of the finite-element temperature. -/
noncomputable def meanTemperature (c : CellQuad) (T : Fin c.nd → ℝ) : ℝ :=
  (∑ q, c.jxw q * ∑ i, c.shape i q * T i) / ∑ q, c.jxw q

/-- The average that is compared with the threshold is the mean of the temperature over the cell (the shape functions sum to
one at each quadrature point). -/
theorem C42_average (c : CellQuad) (T : Fin c.nd → ℝ) (hpu : ∀ q, ∑ i, c.shape i q = 1) :
    cellAverage c T = meanTemperature c T := by
  unfold cellAverage meanTemperature
  rw [Finset.sum_comm]
  congr 1
  · refine Finset.sum_congr rfl fun q _ => ?_
    rw [Finset.mul_sum]
    exact Finset.sum_congr rfl fun i _ => by ring
  · rw [Finset.sum_comm]
    refine Finset.sum_congr rfl fun q _ => ?_
    rw [← Finset.sum_mul, hpu q, one_mul]

/-- A history of calls of `mark_has_melted` on a fixed set of `n` cells: for every call the threshold and the averages. -/
noncomputable def markAll : List (ℝ × List ℝ) → List Bool → Option (List Bool)
  | [], flags => some flags
  | (thr, avgs) :: h, flags => (markHasMelted thr avgs flags).bind (markAll h)

theorem markHasMelted_spec (thr : ℝ) (avgs : List ℝ) (flags : List Bool) (h : avgs.length = flags.length) :
    ∃ out, markHasMelted thr avgs flags = some out ∧ out.length = flags.length ∧
      ∀ (k : ℕ) (f : Bool) (a : ℝ), flags[k]? = some f → avgs[k]? = some a →
        ∃ f', out[k]? = some f' ∧ (f' = true ↔ f = true ∨ thr < a) := by
  induction avgs generalizing flags with
  | nil =>
    refine ⟨flags, rfl, rfl, ?_⟩
    intro k f a _ ha
    simp at ha
  | cons x xs ih =>
    cases flags with
    | nil => simp at h
    | cons f fs =>
      obtain ⟨out, h1, h2, h3⟩ := ih fs (by simpa using h)
      refine ⟨_, by rw [markHasMelted, h1]; rfl, by simp [h2], ?_⟩
      intro k f' a hf ha
      cases k with
      | zero =>
        simp only [List.getElem?_cons_zero, Option.some.injEq] at hf ha
        subst hf ha
        refine ⟨_, rfl, ?_⟩
        cases f <;> by_cases hx : x > thr <;> simp_all
      | succ k =>
        simp only [List.getElem?_cons_succ] at hf ha ⊢
        exact h3 k f' a hf ha

/-- **C42** between two changes of the mesh: after any sequence of calls, cell `k` is marked exactly when it was marked
before or in some call its average temperature exceeded the threshold of that call; no call fails. -/
theorem C42_history (h : List (ℝ × List ℝ)) (flags : List Bool) (hlen : ∀ p ∈ h, p.2.length = flags.length) :
    ∃ out, markAll h flags = some out ∧ out.length = flags.length ∧
      ∀ (k : ℕ) (f : Bool), flags[k]? = some f →
        ∃ f', out[k]? = some f' ∧ (f' = true ↔ f = true ∨ ∃ p ∈ h, ∃ a, p.2[k]? = some a ∧ p.1 < a) := by
  induction h generalizing flags with
  | nil => exact ⟨flags, rfl, rfl, fun k f hf => ⟨f, hf, by simp⟩⟩
  | cons p h ih =>
    obtain ⟨o1, h1, h2, h3⟩ := markHasMelted_spec p.1 p.2 flags (hlen p (by simp))
    obtain ⟨o2, g1, g2, g3⟩ := ih o1 (fun q hq => by rw [h2]; exact hlen q (by simp [hq]))
    refine ⟨o2, by rw [markAll, h1]; exact g1, by rw [g2, h2], ?_⟩
    intro k f hf
    have hk := (List.getElem?_eq_some_iff.1 hf).1
    have hkp : k < p.2.length := by rw [hlen p (by simp)]; exact hk
    obtain ⟨f1, e1, e2⟩ := h3 k f _ hf (List.getElem?_eq_getElem hkp)
    obtain ⟨f2, e3, e4⟩ := g3 k f1 e1
    refine ⟨f2, e3, ?_⟩
    rw [e4, e2]
    simp only [List.mem_cons, exists_eq_or_imp]
    rw [List.getElem?_eq_getElem hkp]
    simp only [Option.some.injEq, exists_eq_left', or_assoc]

example : markAll [(1600, [1500, 1700]), (1600, [1500, 300])] [false, false] = some [false, true] := by
  simp [markAll, markHasMelted]
  norm_num

/-! ### Histories that also add material -/

/-- Thermal history of cells named by numbers: material cells and their marks. -/
structure MeltState where
  material : ℕ → Prop
  melted : ℕ → Prop

/-- What happens to the cells: a call of `mark_has_melted` with the average temperature of each cell, or the addition of
material to the listed cells. -/
inductive MeltEvent where
  | mark (threshold : ℝ) (avg : ℕ → ℝ)
  | add (listed : ℕ → Prop)

open Classical in
/-- The arrays follow: if a rank's arrays hold the field `g`, after `mark_has_melted` they hold the field in which the marks of the
cells with material above the threshold are added (this justifies `meltStep` for `mark`; for `add` see
`C41_add_material_partial`). -/
theorem mark_holds (nStates : ℕ) (cells : List Cell) (a : Arrays) (g : ℕ → Material) (h : Holds nStates cells a g) (thr : ℝ)
    (avg : ℕ → ℝ) :
    ∃ m, markHasMelted thr ((cells.filter fun c => c.owned && c.feIndex == 0).map fun c => avg c.id) a.melted = some m ∧
      Holds nStates cells { a with melted := m } fun k => { g k with melted := (g k).melted || decide (thr < avg k) } := by
  obtain ⟨h1, h2, h3, h4, h5⟩ := h
  have key : ∀ l : List Cell, markHasMelted thr (l.map fun c => avg c.id) (l.map fun c => (g c.id).melted) =
      some (l.map fun c => (g c.id).melted || decide (thr < avg c.id)) := by
    intro l
    induction l with
    | nil => rfl
    | cons c l ih =>
      simp only [List.map_cons, markHasMelted, ih, Option.map_some, Option.some.injEq, List.cons.injEq, and_true]
      cases hm : (g c.id).melted <;> by_cases ht : thr < avg c.id <;> simp [ht]
  rw [h4]
  exact ⟨_, key _, h1, h2, h3, rfl, h5⟩

/-- Effect on the marks, as established for the arrays by `mark_holds` and `C41_add_material_partial`. -/
def meltStep (s : MeltState) : MeltEvent → MeltState
  | .mark thr avg => { s with melted := fun k => s.melted k ∨ (s.material k ∧ thr < avg k) }
  | .add listed => ⟨fun k => s.material k ∨ listed k, fun k => s.melted k ∨ (¬ s.material k ∧ listed k)⟩

/-- **C42 refuted** for histories that add material: a cell is marked as melted although its temperature never exceeded the
threshold, because adding material marks the new cells (see `C41_melted_refuted`). -/
theorem C42_new_cells_refuted :
    let s := [MeltEvent.add (fun k => k = 1), MeltEvent.mark 1600 (fun _ => 300)].foldl meltStep ⟨fun k => k = 0, fun _ => False⟩
    s.melted 1 ∧ s.material 1 := by
  simp [meltStep]

/-- **C42**, what holds for every history: a material cell is marked exactly when it was marked at the start, was created by adding
material, or exceeded the threshold at some call after it held material; marks are never removed. -/
theorem C42_all_histories_partial (s : MeltState) (h : List MeltEvent) (hs : ∀ k, s.melted k → s.material k) (k : ℕ) :
    let e := h.foldl meltStep s
    (s.melted k → e.melted k) ∧ (s.material k → e.material k) ∧ (e.melted k → e.material k) ∧
    (e.melted k ↔ s.melted k ∨ (¬ s.material k ∧ e.material k) ∨
      (s.material k ∧ ∃ thr avg, MeltEvent.mark thr avg ∈ h ∧ thr < avg k)) := by
  induction h generalizing s with
  | nil =>
    refine ⟨id, id, hs k, ?_⟩
    simp only [List.foldl_nil, List.not_mem_nil, false_and, exists_false, and_false, or_false]
    tauto
  | cons ev h ih =>
    have hs' : ∀ k, (meltStep s ev).melted k → (meltStep s ev).material k := by
      intro j hj
      cases ev with
      | mark thr avg =>
        rcases hj with hj | hj
        · exact hs j hj
        · exact hj.1
      | add l =>
        rcases hj with hj | hj
        · exact Or.inl (hs j hj)
        · exact Or.inr hj.2
    obtain ⟨i1, i2, i3, i4⟩ := ih (meltStep s ev) hs'
    have m1 : s.melted k → (meltStep s ev).melted k := by
      intro hk; cases ev <;> exact Or.inl hk
    have m2 : s.material k → (meltStep s ev).material k := by
      intro hk
      cases ev
      · exact hk
      · exact Or.inl hk
    refine ⟨fun x => i1 (m1 x), fun x => i2 (m2 x), i3, ?_⟩
    simp only [List.foldl_cons]
    rw [i4]
    cases ev with
    | mark thr avg =>
      simp only [meltStep, List.mem_cons, MeltEvent.mark.injEq]
      constructor
      · rintro ((h1 | ⟨h1, h2⟩) | h1 | ⟨h1, t, a, h2, h3⟩)
        · exact Or.inl h1
        · exact Or.inr (Or.inr ⟨h1, thr, avg, Or.inl ⟨rfl, rfl⟩, h2⟩)
        · exact Or.inr (Or.inl h1)
        · exact Or.inr (Or.inr ⟨h1, t, a, Or.inr h2, h3⟩)
      · rintro (h1 | h1 | ⟨h1, t, a, (⟨rfl, rfl⟩ | h2), h3⟩)
        · exact Or.inl (Or.inl h1)
        · exact Or.inr (Or.inl h1)
        · exact Or.inl (Or.inr ⟨h1, h3⟩)
        · exact Or.inr (Or.inr ⟨h1, t, a, h2, h3⟩)
    | add l =>
      simp only [meltStep, List.mem_cons, reduceCtorEq, false_or]
      have i2' := i2
      simp only [meltStep] at i2'
      constructor
      · rintro ((h1 | ⟨h1, h2⟩) | ⟨h1, h2⟩ | ⟨h1, h2⟩)
        · exact Or.inl h1
        · exact Or.inr (Or.inl ⟨h1, i2' (Or.inr h2)⟩)
        · exact Or.inr (Or.inl ⟨fun x => h1 (Or.inl x), h2⟩)
        · by_cases hm : s.material k
          · exact Or.inr (Or.inr ⟨hm, h2⟩)
          · exact Or.inr (Or.inl ⟨hm, i2' h1⟩)
      · rintro (h1 | ⟨h1, h2⟩ | ⟨h1, h2⟩)
        · exact Or.inl (Or.inl h1)
        · by_cases hl : l k
          · exact Or.inl (Or.inr ⟨h1, hl⟩)
          · exact Or.inr (Or.inl ⟨fun x => x.elim h1 hl, h2⟩)
        · exact Or.inr (Or.inr ⟨Or.inl h1, h2⟩)

/-! ## C43: checkpoints -/

/-- The loop of `save_checkpoint`, `source/ThermalPhysics.templates.hh:1112-1151`: state ratios, cosine, sine, melting indicator, FE
index (10 for cells without material); cells of other ranks keep zeros. -/
def saveLoop (nStates : ℕ) (a : Arrays) : ℕ → ℕ → List Cell → Option (List (List ℝ))
  | _, _, [] => some []
  | ownedId, activatedId, c :: cs =>
    if c.owned then
      match a.state[ownedId]? with
      | none => none
      | some st =>
        if c.feIndex = 0 then
          match a.cos[activatedId]?, a.sin[activatedId]?, a.melted[activatedId]? with
          | some co, some si, some m =>
            (saveLoop nStates a (ownedId + 1) (activatedId + 1) cs).map
              ((st.take nStates ++ [co, si, if m then 1 else 0, (c.feIndex : ℝ)]) :: ·)
          | _, _, _ => none
        else
          (saveLoop nStates a (ownedId + 1) activatedId cs).map ((st.take nStates ++ [10, 10, 10, (c.feIndex : ℝ)]) :: ·)
    else (saveLoop nStates a ownedId activatedId cs).map (List.replicate (nStates + 4) 0 :: ·)

open Classical in
/-- The loop of `load_checkpoint`, lines 1008-1049, on the cells of the loaded mesh; returns the arrays and the cells with the FE
index that is set.  `none`: short vector.  `static_cast<unsigned int>` of the stored index is the floor. -/
noncomputable def loadLoop (nStates : ℕ) : List Cell → List (List ℝ) → Option (Arrays × List Cell)
  | [], _ => some (⟨[], [], [], []⟩, [])
  | _ :: _, [] => none
  | c :: cs, d :: ds =>
    match loadLoop nStates cs ds with
    | none => none
    | some (r, rs) =>
      if c.owned then
        match d[nStates]?, d[nStates + 1]?, d[nStates + 2]?, d[nStates + 3]? with
        | some co, some si, some m, some f =>
          if ⌊f⌋₊ = 0 then
            some (⟨d.take nStates :: r.state, co :: r.cos, si :: r.sin, decide (m ≠ 0) :: r.melted⟩, { c with feIndex := 0 } :: rs)
          else some ({ r with state := d.take nStates :: r.state }, { c with feIndex := ⌊f⌋₊ } :: rs)
        | _, _, _, _ => none
      else some (r, c :: rs)

/-- What is saved for a cell of a field. -/
def saved (nStates : ℕ) (g : ℕ → Material) (c : Cell) : List ℝ :=
  if c.owned then
    (g c.id).ratios ++ (if c.feIndex = 0 then [(g c.id).cos, (g c.id).sin, if (g c.id).melted then 1 else 0, (c.feIndex : ℝ)]
      else [10, 10, 10, (c.feIndex : ℝ)])
  else List.replicate (nStates + 4) 0

theorem saveLoop_aux (nStates : ℕ) (g : ℕ → Material) (a : Arrays) (pre cells : List Cell)
    (hs : a.state = ((pre ++ cells).filter (·.owned)).map (fun c => (g c.id).ratios))
    (hc : a.cos = ((pre ++ cells).filter fun c => c.owned && c.feIndex == 0).map (fun c => (g c.id).cos))
    (hsi : a.sin = ((pre ++ cells).filter fun c => c.owned && c.feIndex == 0).map (fun c => (g c.id).sin))
    (hm : a.melted = ((pre ++ cells).filter fun c => c.owned && c.feIndex == 0).map (fun c => (g c.id).melted))
    (hlen : ∀ c ∈ cells, c.owned = true → (g c.id).ratios.length = nStates) :
    saveLoop nStates a (pre.filter (·.owned)).length (pre.filter fun c => c.owned && c.feIndex == 0).length cells =
      some (cells.map (saved nStates g)) := by
  induction cells generalizing pre with
  | nil => rfl
  | cons c cs ih =>
    have ih' := ih (pre ++ [c]) (by simpa using hs) (by simpa using hc) (by simpa using hsi) (by simpa using hm)
      (fun d hd => hlen d (by simp [hd]))
    by_cases ho : c.owned = true
    · have hst : a.state[(pre.filter (·.owned)).length]? = some (g c.id).ratios := by
        rw [hs]; simp [List.filter_append, List.filter_cons, ho]
      have hl := hlen c (by simp) ho
      have e1 : ((pre ++ [c]).filter (·.owned)).length = (pre.filter (·.owned)).length + 1 := by
        simp [List.filter_append, ho]
      by_cases hf : c.feIndex = 0
      · have h1 : a.cos[(pre.filter fun c => c.owned && c.feIndex == 0).length]? = some (g c.id).cos := by
          rw [hc]; simp [List.filter_append, List.filter_cons, ho, hf]
        have h2 : a.sin[(pre.filter fun c => c.owned && c.feIndex == 0).length]? = some (g c.id).sin := by
          rw [hsi]; simp [List.filter_append, List.filter_cons, ho, hf]
        have h3 : a.melted[(pre.filter fun c => c.owned && c.feIndex == 0).length]? = some (g c.id).melted := by
          rw [hm]; simp [List.filter_append, List.filter_cons, ho, hf]
        have e2 : ((pre ++ [c]).filter fun c => c.owned && c.feIndex == 0).length =
            (pre.filter fun c => c.owned && c.feIndex == 0).length + 1 := by
          simp [List.filter_append, ho, hf]
        rw [e1, e2] at ih'
        simp only [saveLoop, ho, if_true, hst, hf, h1, h2, h3, ih', Option.map_some, List.map_cons, Option.some.injEq,
          List.cons.injEq, and_true]
        simp only [saved, ho, hf, if_true]
        rw [List.take_of_length_le hl.le]
      · have e2 : ((pre ++ [c]).filter fun c => c.owned && c.feIndex == 0).length =
            (pre.filter fun c => c.owned && c.feIndex == 0).length := by
          simp [List.filter_append, hf]
        rw [e1, e2] at ih'
        simp only [saveLoop, ho, if_true, hst, hf, if_false, ih', Option.map_some, List.map_cons, Option.some.injEq,
          List.cons.injEq, and_true]
        simp only [saved, ho, hf, if_true, if_false]
        rw [List.take_of_length_le hl.le]
    · have ho' : c.owned = false := by simpa using ho
      have e1 : ((pre ++ [c]).filter (·.owned)).length = (pre.filter (·.owned)).length := by
        simp [List.filter_append, ho']
      have e2 : ((pre ++ [c]).filter fun c => c.owned && c.feIndex == 0).length =
          (pre.filter fun c => c.owned && c.feIndex == 0).length := by
        simp [List.filter_append, ho']
      rw [e1, e2] at ih'
      simp only [saveLoop, ho', Bool.false_eq_true, if_false, ih', Option.map_some, List.map_cons, saved]

/-- Contract of `CellDataTransfer::prepare_for_serialization`/`deserialize` with `triangulation.save`/`load` (lines 1026, 1152-1155,
1183): after loading on any number of ranks, `got` holds for each locally owned cell what the rank that owned the cell when saving
stored for it. -/
def Restored (oldCells : ℕ → List Cell) (stored : ℕ → List (List ℝ)) (newCells : List Cell) (got : List (List ℝ)) : Prop :=
  List.Forall₂ (fun c d => c.owned = true → ∃ (r k : ℕ) (oc : Cell), (oldCells r)[k]? = some oc ∧ oc.owned = true ∧
    oc.id = c.id ∧ (stored r)[k]? = some d) newCells got

/-- **C43**, the stored fields: let the arrays of the ranks hold the field `g` when the checkpoint is written (state ratios: those
in `MaterialProperty`), `fe` being the indices of the cells.  Then no read is out of range, and after loading, on any partition and
with any FE indices beforehand, every rank's cells get the index `fe` back and its arrays hold `g`.
Missing for the full property: the ratios in `MaterialProperty` are in general not the current ones
(`C43_stale_state_refuted`); the temperature is stored and restored by deal.II. -/
theorem C43_round_trip_partial (nStates : ℕ) (g : ℕ → Material) (fe : ℕ → ℕ) (oldCells : ℕ → List Cell) (oldArrays : ℕ → Arrays)
    (hold : ∀ r, Holds nStates (oldCells r) (oldArrays r) g)
    (hfe : ∀ r, ∀ c ∈ oldCells r, c.owned = true → c.feIndex = fe c.id) :
    ∃ stored : ℕ → List (List ℝ), (∀ r, saveLoop nStates (oldArrays r) 0 0 (oldCells r) = some (stored r)) ∧
      ∀ (newCells : List Cell) (got : List (List ℝ)), Restored oldCells stored newCells got →
        ∃ (a : Arrays) (cells : List Cell), loadLoop nStates newCells got = some (a, cells) ∧
          cells.map (fun c => (c.id, c.owned)) = newCells.map (fun c => (c.id, c.owned)) ∧
          (∀ c ∈ cells, c.owned = true → c.feIndex = fe c.id) ∧ Holds nStates cells a g := by
  refine ⟨fun r => (oldCells r).map (saved nStates g), ?_, ?_⟩
  · intro r
    obtain ⟨h1, h2, h3, h4, h5⟩ := hold r
    exact saveLoop_aux nStates g (oldArrays r) [] (oldCells r) h1 h2 h3 h4 h5
  intro newCells got hres
  induction hres with
  | nil => exact ⟨⟨[], [], [], []⟩, [], rfl, rfl, by simp, by simp [Holds]⟩
  | @cons c d cs ds hcd hrest ih =>
    obtain ⟨r, rs, hr, hids, hfes, h1, h2, h3, h4, h5⟩ := ih
    by_cases ho : c.owned = true
    swap
    · have ho' : c.owned = false := by simpa using ho
      refine ⟨r, c :: rs, by simp only [loadLoop, hr, ho', Bool.false_eq_true, if_false], by simp [hids], ?_, ?_⟩
      · intro x hx hxo
        rcases List.mem_cons.1 hx with rfl | hx
        · exact absurd hxo ho
        · exact hfes x hx hxo
      · refine ⟨by simp [ho', h1], by simp [ho', h2], by simp [ho', h3], by simp [ho', h4], ?_⟩
        intro x hx hxo
        rcases List.mem_cons.1 hx with rfl | hx
        · exact absurd hxo ho
        · exact h5 x hx hxo
    obtain ⟨q, k, oc, k1, k2, k3, k4⟩ := hcd ho
    have hmem := List.mem_of_getElem? k1
    have hlen : (g c.id).ratios.length = nStates := by
      rw [← k3]; exact (hold q).2.2.2.2 oc hmem k2
    have hoc := hfe q oc hmem k2
    rw [k3] at hoc
    rw [List.getElem?_map, k1] at k4
    simp only [Option.map_some, Option.some.injEq, saved, k2, if_true, k3, hoc] at k4
    have htake : d.take nStates = (g c.id).ratios := by
      rw [← k4, List.take_append_of_le_length (by simp [hlen]), List.take_of_length_le (by simp [hlen])]
    have hget : ∀ j : ℕ, d[nStates + j]? = (if fe c.id = 0 then [(g c.id).cos, (g c.id).sin, if (g c.id).melted then 1 else 0, (fe c.id : ℝ)]
        else [10, 10, 10, (fe c.id : ℝ)] : List ℝ)[j]? := by
      intro j
      rw [← k4, List.getElem?_append_right (by simp [hlen])]
      simp [hlen]
    have g0 := hget 0; have g1 := hget 1; have g2 := hget 2; have g3 := hget 3
    by_cases hf : fe c.id = 0
    · simp only [hf, if_true, add_zero, List.getElem?_cons_zero, List.getElem?_cons_succ] at g0 g1 g2 g3
      have hm : (open Classical in decide ((if (g c.id).melted then (1 : ℝ) else 0) ≠ 0)) = (g c.id).melted := by
        cases (g c.id).melted <;> simp
      refine ⟨⟨(g c.id).ratios :: r.state, (g c.id).cos :: r.cos, (g c.id).sin :: r.sin, (g c.id).melted :: r.melted⟩,
        { c with feIndex := 0 } :: rs, ?_, by simp [hids], ?_, ?_⟩
      · simp only [loadLoop, hr, ho, if_true, g0, g1, g2, g3, Nat.cast_zero, Nat.floor_zero, htake, hm]
      · intro x hx hxo
        rcases List.mem_cons.1 hx with rfl | hx
        · exact hf.symm
        · exact hfes x hx hxo
      · refine ⟨by simp [ho, h1], by simp [ho, h2], by simp [ho, h3], by simp [ho, h4], ?_⟩
        intro x hx hxo
        rcases List.mem_cons.1 hx with rfl | hx
        · exact hlen
        · exact h5 x hx hxo
    · simp only [hf, if_false, add_zero, List.getElem?_cons_zero, List.getElem?_cons_succ] at g0 g1 g2 g3
      refine ⟨{ r with state := (g c.id).ratios :: r.state }, { c with feIndex := fe c.id } :: rs, ?_, by simp [hids], ?_, ?_⟩
      · simp only [loadLoop, hr, ho, if_true, g0, g1, g2, g3, Nat.floor_natCast, hf, if_false, htake]
      · intro x hx hxo
        rcases List.mem_cons.1 hx with rfl | hx
        · rfl
        · exact hfes x hx hxo
      · refine ⟨by simp [ho, h1], by simp [hf, h2], by simp [hf, h3], by simp [hf, h4], ?_⟩
        intro x hx hxo
        rcases List.mem_cons.1 hx with rfl | hx
        · exact hlen
        · exact h5 x hx hxo

/-- A material cell that has melted and an empty one; loaded with the cells in the other order of ownership. -/
example :
    let g : ℕ → Material := fun i => if i = 0 then ⟨[1, 0, 0], 0.6, 0.8, true⟩ else ⟨[0, 0, 1], 0, 0, false⟩
    Holds 3 [⟨0, true, 0⟩, ⟨1, true, 1⟩] ⟨[[1, 0, 0], [0, 0, 1]], [0.6], [0.8], [true]⟩ g := by
  simp [Holds]

/-- **C43 refuted**, what the driver does: `run` writes a checkpoint after a step without updating the ratios in `MaterialProperty`
(`application/adamantine.hh:1349-1365`; only the mechanical solve at 1300 and the output at 1393, which comes later, do).  In terms of
the events of `Verif.Material`: a cell of powder that has melted completely (all quadrature points liquid) since the last `store` is
saved, and hence restored, as powder. -/
theorem C43_stale_state_refuted :
    ∃ s : Material.BatchState 2 1,
      Material.run (Material.deviceRule 1) .solidLiquidPowder (fun _ => ⟨1600, 1700⟩)
        ⟨fun _ => ⟨0, 0, 1⟩, fun _ _ => ⟨0, 0, 1⟩⟩ [.store, .evaluate fun _ _ => 1800] = some s ∧
      (∀ q, s.point q 0 = ⟨0, 1, 0⟩) ∧ s.cell 0 = ⟨0, 0, 1⟩ := by
  have hk : ¬ Material.Kind.solidLiquidPowder = Material.Kind.solid := by decide
  simp [Material.run, Material.step, Material.liquidRatio, Material.deviceRule, Material.phase, Material.average, hk]
  norm_num

end Verif.Thermal
