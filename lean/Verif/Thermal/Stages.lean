import Verif.Thermal.Balance
import Verif.Material.Phase

/-!
# C118: the phase state that the thermal operator carries from evaluation to evaluation

`update_state_ratios` and `update_face_state_ratios` (`source/ThermalOperator.templates.hh:227-413`) overwrite `_liquid_ratio`,
`_powder_ratio` and `_face_powder_ratio` every time the operator is applied, which is once in every stage of the time stepper.  The
modules `Physics` and `Assembly` take the coefficients at a point as a function of the temperature; here the state is carried
along, and the operator of `Assembly` is recovered for material without powder.

Simplification: every point is updated on its own (device code, or host code with one lane; the loss of the update in the other lanes
of the host code is C38).  A NaN (solidus equal to liquidus, C32) is 0 here; the theorems assume solidus below liquidus.
-/

namespace Verif.Assembly

open Verif.Material Verif.Input
open Verif.Thermal (Operator Method rhs stages steps evolve)

variable {ι : Type*} [Fintype ι] [DecidableEq ι]

/-- A cell and the material law at its points: `melt` the solidus and liquidus, `law` the coefficients from the state ratios and the
temperature (`get_inv_rho_cp`, `compute_material_property`, `source/ThermalOperator.templates.hh:415-477`, `:535-575`). The field
`coef` of `cell` is not used. -/
structure PCell (ι : Type*) where
  cell : Cell ι
  melt : Fin cell.nq → Melt
  law : Fin cell.nq → Ratios → ℝ → Coef

/-- The same for a face, `source/ThermalOperator.templates.hh:676-735`. -/
structure PFace (ι : Type*) where
  face : Face ι
  melt : Fin face.nq → Melt
  law : Fin face.nq → Ratios → ℝ → FaceCoef

/-- The mesh with its material laws. -/
structure PMesh (ι : Type*) where
  kind : Kind
  hanging : Hanging ι
  types : List ℕ
  nc : ℕ
  cells : Fin nc → PCell ι
  nf : ℕ
  faces : Fin nf → PFace ι

/-- `_liquid_ratio`, `_powder_ratio`, `_face_powder_ratio`, `source/ThermalOperator.hh:222-236`. -/
structure PState (m : PMesh ι) where
  liquid : ∀ c : Fin m.nc, Fin (m.cells c).cell.nq → ℝ
  powder : ∀ c : Fin m.nc, Fin (m.cells c).cell.nq → ℝ
  facePowder : ∀ f : Fin m.nf, Fin (m.faces f).face.nq → ℝ

/-- The liquid ratio, NaN read as 0. -/
noncomputable def liq (m : Melt) (T : ℝ) : ℝ := (liquidRatio m T).getD 0

/-- The cell as one evaluation sees it, with stored powder ratios `p`: at every point the state ratios are updated with the
temperature of the point before the coefficients are computed, `source/ThermalOperator.templates.hh:525-575`. -/
noncomputable def PCell.withPowder (pc : PCell ι) (k : Kind) (p : Fin pc.cell.nq → ℝ) : Cell ι :=
  { pc.cell with coef := fun q T => pc.law q (phase k (p q) (liq (pc.melt q) T)) T }

/-- The face as one evaluation sees it, `source/ThermalOperator.templates.hh:676-735`. -/
noncomputable def PFace.withPowder (pf : PFace ι) (k : Kind) (p : Fin pf.face.nq → ℝ) : Face ι :=
  { pf.face with coef := fun q T => pf.law q (phase k (p q) (liq (pf.melt q) T)) T }

/-- The mesh as one evaluation sees it. -/
noncomputable def PMesh.frozen (m : PMesh ι) (s : PState m) : Mesh ι where
  hanging := m.hanging
  cells := List.ofFn fun c => (m.cells c).withPowder m.kind (s.powder c)
  faces := List.ofFn fun f => (m.faces f).withPowder m.kind (s.facePowder f)
  types := m.types

/-- Is the face integrated by `face_local_apply`?  Lines 214-216 (only if some boundary is not adiabatic) and 628-649. -/
def PMesh.visits (m : PMesh ι) (f : Face ι) : Bool :=
  !adiabaticOnly m.types && !decide (some f.fe1 = f.fe2) && !decide (f.fe1 ≠ 0 ∧ f.fe2 ≠ some 0)

/-- The state after one evaluation with the vector `y`, `source/ThermalOperator.templates.hh:276`, `:314-315`, `:411`: the cells of
finite-element index 0 and the visited faces are updated. -/
noncomputable def PMesh.after (m : PMesh ι) (s : PState m) (y : ι → ℝ) : PState m where
  liquid c q :=
    if (m.cells c).cell.fe = 0 then
      (phase m.kind (s.powder c q) (liq ((m.cells c).melt q) ((m.cells c).cell.value m.hanging y q))).liquid
    else s.liquid c q
  powder c q :=
    if (m.cells c).cell.fe = 0 then
      (phase m.kind (s.powder c q) (liq ((m.cells c).melt q) ((m.cells c).cell.value m.hanging y q))).powder
    else s.powder c q
  facePowder f q :=
    if m.visits (m.faces f).face then
      (phase m.kind (s.facePowder f q) (liq ((m.faces f).melt q) ((m.faces f).face.value m.hanging y q))).powder
    else s.facePowder f q

/-- `evaluate_thermal_physics_impl`, `source/ThermalPhysics.templates.hh:48-124`, with the state. -/
noncomputable def PMesh.eval (m : PMesh ι) (beams : ℝ → List Beam) (s : PState m) (t : ℝ) (y : ι → ℝ) : (ι → ℝ) × PState m :=
  ((m.frozen s).evaluate beams t y, m.after s y)

/-- Stages of an explicit Runge-Kutta method with the state threaded through the evaluations (as `Thermal.stages`). -/
noncomputable def PMesh.stages (m : PMesh ι) (beams : ℝ → List Beam) (dt t : ℝ) (y : ι → ℝ) :
    List (ℝ × List ℝ) → List (ι → ℝ) → PState m → List (ι → ℝ) × PState m
  | [], ks, s => (ks, s)
  | (c, a) :: rows, ks, s =>
    let r := m.eval beams s (t + c * dt) (fun i => y i + dt * ((a.zip ks).map fun p => p.1 * p.2 i).sum);
    m.stages beams dt t y rows (ks ++ [r.1]) r.2

/-- `dealii::TimeStepping::ExplicitRungeKutta::evolve_one_time_step`. -/
noncomputable def PMesh.rungeKutta (m : PMesh ι) (beams : ℝ → List Beam) (rows : List (ℝ × List ℝ)) (b : List ℝ) (dt t : ℝ)
    (y : ι → ℝ) (s : PState m) : (ι → ℝ) × PState m :=
  let r := m.stages beams dt t y rows [] s;
  (fun i => y i + dt * ((b.zip r.1).map fun p => p.1 * p.2 i).sum, r.2)

/-- `evolve_one_time_step`, `source/ThermalPhysics.templates.hh:859-888`. -/
noncomputable def PMesh.evolve (m : PMesh ι) (beams : ℝ → List Beam) (meth : Method) (dt t : ℝ) (y : ι → ℝ) (s : PState m) :
    (ι → ℝ) × PState m :=
  match meth with
  | .forwardEuler =>
    let r := m.eval beams s t y;
    (fun i => 1 * y i + dt * r.1 i, r.2)
  | .rk3 => m.rungeKutta beams Thermal.rk3Rows Thermal.rk3Weights dt t y s
  | .rk4 => m.rungeKutta beams Thermal.rk4Rows Thermal.rk4Weights dt t y s

/-- The temperature and the state after `k` steps from time `t`, on an unchanged mesh. -/
noncomputable def PMesh.run (m : PMesh ι) (beams : ℝ → List Beam) (meth : Method) (dt t : ℝ) (y : ι → ℝ) (s : PState m) :
    ℕ → (ι → ℝ) × PState m
  | 0 => (y, s)
  | k + 1 => m.evolve beams meth dt (t + k * dt) (m.run beams meth dt t y s k).1 (m.run beams meth dt t y s k).2

/-- `set_state_to_material_properties`: the ratios of a cell that the output, the refinement and the mechanical problem see,
`source/MaterialProperty.templates.hh:552-620`. -/
noncomputable def PMesh.published (m : PMesh ι) (s : PState m) (c : Fin m.nc) : Ratios :=
  average m.kind fun q => ⟨1 - s.liquid c q - s.powder c q, s.liquid c q, s.powder c q⟩

/-! ## Specification -/

/-- The liquid fraction at temperature `T`: linear between solidus and liquidus, clamped to `[0, 1]`. -/
noncomputable def fraction (m : Melt) (T : ℝ) : ℝ := max 0 (min 1 ((T - m.solidus) / (m.liquidus - m.solidus)))

/-- `s'` is the state that the temperature fields `Ys`, seen one after the other, leave behind when the material starts in `s`: in a
cell with material the liquid fraction belongs to the last field, and the powder fraction is the smallest of the initial one and
what the liquid fractions of all the fields left; the same for the powder of the faces between material and no material, if some
boundary is not adiabatic. -/
structure Leaves (m : PMesh ι) (s s' : PState m) (Ys : List (ι → ℝ)) : Prop where
  liquid : ∀ (c : Fin m.nc) (q : Fin (m.cells c).cell.nq) (Y : ι → ℝ), (m.cells c).cell.fe = 0 → Ys.getLast? = some Y →
    s'.liquid c q = fraction ((m.cells c).melt q) ((m.cells c).cell.temperature m.hanging Y q)
  powder_le : ∀ (c : Fin m.nc) (q : Fin (m.cells c).cell.nq), (m.cells c).cell.fe = 0 → s'.powder c q ≤ s.powder c q
  powder_melts : ∀ (c : Fin m.nc) (q : Fin (m.cells c).cell.nq), (m.cells c).cell.fe = 0 → ∀ Y ∈ Ys,
    s'.powder c q ≤ 1 - fraction ((m.cells c).melt q) ((m.cells c).cell.temperature m.hanging Y q)
  powder_attained : ∀ (c : Fin m.nc) (q : Fin (m.cells c).cell.nq), (m.cells c).cell.fe = 0 →
    s'.powder c q = s.powder c q ∨
    ∃ Y ∈ Ys, s'.powder c q = 1 - fraction ((m.cells c).melt q) ((m.cells c).cell.temperature m.hanging Y q)
  untouched : ∀ (c : Fin m.nc), (m.cells c).cell.fe ≠ 0 → s'.liquid c = s.liquid c ∧ s'.powder c = s.powder c
  face_le : ∀ (f : Fin m.nf) (q : Fin (m.faces f).face.nq), (m.faces f).face.Exposed → adiabaticOnly m.types = false →
    s'.facePowder f q ≤ s.facePowder f q
  face_melts : ∀ (f : Fin m.nf) (q : Fin (m.faces f).face.nq), (m.faces f).face.Exposed → adiabaticOnly m.types = false → ∀ Y ∈ Ys,
    s'.facePowder f q ≤ 1 - fraction ((m.faces f).melt q) ((m.faces f).face.temperature m.hanging Y q)
  face_attained : ∀ (f : Fin m.nf) (q : Fin (m.faces f).face.nq), (m.faces f).face.Exposed → adiabaticOnly m.types = false →
    s'.facePowder f q = s.facePowder f q ∨
    ∃ Y ∈ Ys, s'.facePowder f q = 1 - fraction ((m.faces f).melt q) ((m.faces f).face.temperature m.hanging Y q)
  face_untouched : ∀ f : Fin m.nf, ¬ (m.faces f).face.Exposed ∨ adiabaticOnly m.types = true → s'.facePowder f = s.facePowder f

/-- Solidus below liquidus everywhere. -/
def PMesh.Melts (m : PMesh ι) : Prop :=
  (∀ (c : Fin m.nc) q, ((m.cells c).melt q).solidus < ((m.cells c).melt q).liquidus) ∧
  ∀ (f : Fin m.nf) q, ((m.faces f).melt q).solidus < ((m.faces f).melt q).liquidus

/-! ## Lemmas -/

theorem liq_eq (m : Melt) (h : m.solidus < m.liquidus) (T : ℝ) : liq m T = fraction m T := by
  have hd : 0 < m.liquidus - m.solidus := by linarith
  unfold liq liquidRatio fraction
  by_cases h1 : T < m.solidus
  · rw [if_pos h1]
    have : (T - m.solidus) / (m.liquidus - m.solidus) ≤ 0 := div_nonpos_of_nonpos_of_nonneg (by linarith) hd.le
    rw [max_eq_left ((min_le_right _ _).trans this)]; rfl
  · rw [if_neg h1]
    by_cases h2 : m.liquidus < T
    · rw [if_pos h2]
      have : 1 ≤ (T - m.solidus) / (m.liquidus - m.solidus) := by rw [one_le_div hd]; linarith
      rw [min_eq_left this, max_eq_right (by norm_num)]; rfl
    · rw [if_neg h2, if_neg hd.ne']
      have a : 0 ≤ (T - m.solidus) / (m.liquidus - m.solidus) := div_nonneg (by linarith) hd.le
      have b : (T - m.solidus) / (m.liquidus - m.solidus) ≤ 1 := by rw [div_le_one hd]; linarith
      rw [min_eq_right b, max_eq_right a]; rfl

theorem after_cell (m : PMesh ι) (hk : m.kind = .solidLiquidPowder) (hm : m.Melts) (s : PState m) (y : ι → ℝ) (c : Fin m.nc)
    (q : Fin (m.cells c).cell.nq) (hc : (m.cells c).cell.fe = 0) :
    (m.after s y).liquid c q = fraction ((m.cells c).melt q) ((m.cells c).cell.temperature m.hanging y q) ∧
    (m.after s y).powder c q =
      min (1 - fraction ((m.cells c).melt q) ((m.cells c).cell.temperature m.hanging y q)) (s.powder c q) := by
  simp only [PMesh.after, if_pos hc, hk, phase, value_eq, liq_eq _ (hm.1 c q)]
  exact ⟨trivial, trivial⟩

theorem visits_iff (m : PMesh ι) (f : Face ι) : m.visits f = true ↔ f.Exposed ∧ adiabaticOnly m.types = false := by
  rw [exposed_iff]
  simp only [PMesh.visits, Bool.and_eq_true, Bool.not_eq_true', decide_eq_false_iff_not]
  tauto

theorem after_face (m : PMesh ι) (hk : m.kind = .solidLiquidPowder) (hm : m.Melts) (s : PState m) (y : ι → ℝ) (f : Fin m.nf)
    (q : Fin (m.faces f).face.nq) (hf : (m.faces f).face.Exposed) (ha : adiabaticOnly m.types = false) :
    (m.after s y).facePowder f q =
      min (1 - fraction ((m.faces f).melt q) ((m.faces f).face.temperature m.hanging y q)) (s.facePowder f q) := by
  simp only [PMesh.after, if_pos ((visits_iff m _).2 ⟨hf, ha⟩), hk, phase, face_value_eq _ hf, liq_eq _ (hm.2 f q)]

theorem leaves_one (m : PMesh ι) (hk : m.kind = .solidLiquidPowder) (hm : m.Melts) (s : PState m) (y : ι → ℝ) :
    Leaves m s (m.after s y) [y] where
  liquid := by
    intro c q Y hc hY
    have : y = Y := by simpa using hY
    rw [← this]; exact (after_cell m hk hm s y c q hc).1
  powder_le := by
    intro c q hc
    rw [(after_cell m hk hm s y c q hc).2]; exact min_le_right _ _
  powder_melts := by
    intro c q hc Y hY
    have : Y = y := by simpa using hY
    rw [this, (after_cell m hk hm s y c q hc).2]; exact min_le_left _ _
  powder_attained := by
    intro c q hc
    rw [(after_cell m hk hm s y c q hc).2]
    rcases min_choice (1 - fraction ((m.cells c).melt q) ((m.cells c).cell.temperature m.hanging y q)) (s.powder c q) with h | h
    · exact Or.inr ⟨y, by simp, h⟩
    · exact Or.inl h
  untouched := by
    intro c hc
    exact ⟨by funext q; simp only [PMesh.after, if_neg hc], by funext q; simp only [PMesh.after, if_neg hc]⟩
  face_le := by
    intro f q hf ha
    rw [after_face m hk hm s y f q hf ha]; exact min_le_right _ _
  face_melts := by
    intro f q hf ha Y hY
    have : Y = y := by simpa using hY
    rw [this, after_face m hk hm s y f q hf ha]; exact min_le_left _ _
  face_attained := by
    intro f q hf ha
    rw [after_face m hk hm s y f q hf ha]
    rcases min_choice (1 - fraction ((m.faces f).melt q) ((m.faces f).face.temperature m.hanging y q)) (s.facePowder f q) with h | h
    · exact Or.inr ⟨y, by simp, h⟩
    · exact Or.inl h
  face_untouched := by
    intro f hf
    have : ¬ m.visits (m.faces f).face = true := by
      rw [visits_iff]
      rintro ⟨h1, h2⟩
      rcases hf with h | h
      · exact h h1
      · rw [h2] at h; cases h
    funext q
    simp only [PMesh.after, if_neg this]

theorem leaves_nil (m : PMesh ι) (s : PState m) : Leaves m s s [] where
  liquid := by intro c q Y _ h; simp at h
  powder_le := fun _ _ _ => le_refl _
  powder_melts := by intro c q _ Y h; simp at h
  powder_attained := fun _ _ _ => Or.inl rfl
  untouched := fun _ _ => ⟨rfl, rfl⟩
  face_le := fun _ _ _ _ => le_refl _
  face_melts := by intro f q _ _ Y h; simp at h
  face_attained := fun _ _ _ _ => Or.inl rfl
  face_untouched := fun _ _ => rfl

theorem leaves_trans (m : PMesh ι) (s1 s2 s3 : PState m) (A B : List (ι → ℝ)) (h1 : Leaves m s1 s2 A) (h2 : Leaves m s2 s3 B)
    (hB : B ≠ []) : Leaves m s1 s3 (A ++ B) where
  liquid := by
    intro c q Y hc hY
    refine h2.liquid c q Y hc ?_
    rw [← hY, List.getLast?_append]
    cases h : B.getLast? with
    | none => exact absurd (List.getLast?_eq_none_iff.1 h) hB
    | some b => rfl
  powder_le := fun c q hc => (h2.powder_le c q hc).trans (h1.powder_le c q hc)
  powder_melts := by
    intro c q hc Y hY
    rcases List.mem_append.1 hY with h | h
    · exact (h2.powder_le c q hc).trans (h1.powder_melts c q hc Y h)
    · exact h2.powder_melts c q hc Y h
  powder_attained := by
    intro c q hc
    rcases h2.powder_attained c q hc with h | ⟨Y, hY, h⟩
    · rcases h1.powder_attained c q hc with h' | ⟨Y, hY, h'⟩
      · exact Or.inl (h.trans h')
      · exact Or.inr ⟨Y, List.mem_append.2 (Or.inl hY), h.trans h'⟩
    · exact Or.inr ⟨Y, List.mem_append.2 (Or.inr hY), h⟩
  untouched := fun c hc =>
    ⟨((h2.untouched c hc).1).trans (h1.untouched c hc).1, ((h2.untouched c hc).2).trans (h1.untouched c hc).2⟩
  face_le := fun f q hf ha => (h2.face_le f q hf ha).trans (h1.face_le f q hf ha)
  face_melts := by
    intro f q hf ha Y hY
    rcases List.mem_append.1 hY with h | h
    · exact (h2.face_le f q hf ha).trans (h1.face_melts f q hf ha Y h)
    · exact h2.face_melts f q hf ha Y h
  face_attained := by
    intro f q hf ha
    rcases h2.face_attained f q hf ha with h | ⟨Y, hY, h⟩
    · rcases h1.face_attained f q hf ha with h' | ⟨Y, hY, h'⟩
      · exact Or.inl (h.trans h')
      · exact Or.inr ⟨Y, List.mem_append.2 (Or.inl hY), h.trans h'⟩
    · exact Or.inr ⟨Y, List.mem_append.2 (Or.inr hY), h⟩
  face_untouched := fun f hf => (h2.face_untouched f hf).trans (h1.face_untouched f hf)

/-! ## The steps in closed form -/

/-- The step of the third-order method, with the states between the stages. -/
theorem evolve_rk3 (m : PMesh ι) (beams : ℝ → List Beam) (dt t : ℝ) (y : ι → ℝ) (s : PState m) :
    let k1 := (m.frozen s).evaluate beams t y
    let s1 := m.after s y
    let y2 : ι → ℝ := fun i => y i + dt / 2 * k1 i
    let k2 := (m.frozen s1).evaluate beams (t + dt / 2) y2
    let s2 := m.after s1 y2
    let y3 : ι → ℝ := fun i => y i + dt * (2 * k2 i - k1 i)
    let k3 := (m.frozen s2).evaluate beams (t + dt) y3
    m.evolve beams .rk3 dt t y s = (fun i => y i + dt * (k1 i + 4 * k2 i + k3 i) / 6, m.after s2 y3) := by
  intro k1 s1 y2 k2 s2 y3 k3
  have e1 : (fun i => y i + dt * 0) = y := by funext j; ring
  simp only [PMesh.evolve, PMesh.rungeKutta, Thermal.rk3Rows, Thermal.rk3Weights, PMesh.stages, PMesh.eval, List.zip_nil_left,
    List.map_nil, List.sum_nil, e1, List.nil_append, List.zip_cons_cons, List.map_cons, List.sum_cons, List.cons_append,
    List.zip_nil_right, zero_mul, add_zero, one_mul]
  have e2 : t + 1 / 2 * dt = t + dt / 2 := by ring
  have e3 : (fun j => y j + dt * (1 / 2 * (m.frozen s).evaluate beams t y j)) = y2 := by
    funext j; simp only [y2, k1]; ring
  rw [e2, e3]
  have e4 : (fun j => y j + dt * (-1 * (m.frozen s).evaluate beams t y j +
      2 * (m.frozen (m.after s y)).evaluate beams (t + dt / 2) y2 j)) = y3 := by
    funext j; simp only [y3, k1, k2, s1]; ring
  rw [e4]
  refine Prod.ext ?_ rfl
  funext i
  simp only [k1, k2, k3, s1, s2]
  ring

/-- The step of the fourth-order method. -/
theorem evolve_rk4 (m : PMesh ι) (beams : ℝ → List Beam) (dt t : ℝ) (y : ι → ℝ) (s : PState m) :
    let k1 := (m.frozen s).evaluate beams t y
    let s1 := m.after s y
    let y2 : ι → ℝ := fun i => y i + dt / 2 * k1 i
    let k2 := (m.frozen s1).evaluate beams (t + dt / 2) y2
    let s2 := m.after s1 y2
    let y3 : ι → ℝ := fun i => y i + dt / 2 * k2 i
    let k3 := (m.frozen s2).evaluate beams (t + dt / 2) y3
    let s3 := m.after s2 y3
    let y4 : ι → ℝ := fun i => y i + dt * k3 i
    let k4 := (m.frozen s3).evaluate beams (t + dt) y4
    m.evolve beams .rk4 dt t y s = (fun i => y i + dt * (k1 i + 2 * k2 i + 2 * k3 i + k4 i) / 6, m.after s3 y4) := by
  intro k1 s1 y2 k2 s2 y3 k3 s3 y4 k4
  have e1 : (fun i => y i + dt * 0) = y := by funext j; ring
  simp only [PMesh.evolve, PMesh.rungeKutta, Thermal.rk4Rows, Thermal.rk4Weights, PMesh.stages, PMesh.eval, List.zip_nil_left,
    List.map_nil, List.sum_nil, e1, List.nil_append, List.zip_cons_cons, List.map_cons, List.sum_cons, List.cons_append,
    List.zip_nil_right, zero_mul, add_zero, one_mul, zero_add]
  have e2 : t + 1 / 2 * dt = t + dt / 2 := by ring
  have e3 : (fun j => y j + dt * (1 / 2 * (m.frozen s).evaluate beams t y j)) = y2 := by
    funext j; simp only [y2, k1]; ring
  rw [e2, e3]
  have e4 : (fun j => y j + dt * (1 / 2 * (m.frozen (m.after s y)).evaluate beams (t + dt / 2) y2 j)) = y3 := by
    funext j; simp only [y3, k2, s1]; ring
  rw [e4]
  have e5 : (fun j => y j + dt * (m.frozen (m.after (m.after s y) y2)).evaluate beams (t + dt / 2) y3 j) = y4 := by
    funext j; simp only [y4, k3, s1, s2]
  rw [e5]
  refine Prod.ext ?_ rfl
  funext i
  simp only [k1, k2, k3, k4, s1, s2, s3]
  ring

theorem evolve_fe (m : PMesh ι) (beams : ℝ → List Beam) (dt t : ℝ) (y : ι → ℝ) (s : PState m) :
    m.evolve beams .forwardEuler dt t y s = (fun i => y i + dt * (m.frozen s).evaluate beams t y i, m.after s y) := by
  simp only [PMesh.evolve, PMesh.eval, one_mul]

/-! ## C118 -/

/-- **C118**, forward Euler.  After `k + 1` steps on an unchanged mesh the stored state of every point is the one that the
temperatures at the **starts** of the steps leave behind: the liquid fraction belongs to the temperature one step before the current
one, and the powder fraction is the least that any temperature up to that one left. -/
theorem C118_forward_euler_partial (m : PMesh ι) (hk : m.kind = .solidLiquidPowder) (hm : m.Melts) (beams : ℝ → List Beam) (dt t : ℝ)
    (y : ι → ℝ) (s : PState m) (k : ℕ) :
    Leaves m s (m.run beams .forwardEuler dt t y s (k + 1)).2
      ((List.range (k + 1)).map fun j => (m.run beams .forwardEuler dt t y s j).1) := by
  induction k with
  | zero =>
    have : m.run beams .forwardEuler dt t y s (0 + 1) = m.evolve beams .forwardEuler dt (t + (0 : ℕ) * dt) y s := rfl
    rw [this, evolve_fe]
    exact leaves_one m hk hm s y
  | succ k ih =>
    rw [List.range_succ, List.map_append]
    refine leaves_trans m s _ _ _ _ ih ?_ (by simp)
    rw [PMesh.run, evolve_fe]
    exact leaves_one m hk hm _ _

/-- **C118**, every method.  After `k` steps the stored state is the one that the temperature fields of all the stages leave behind,
and the temperature at the start of every step is one of these fields, so every powder that a temperature at the start of a step
should have melted is melted. -/
theorem C118_stages (m : PMesh ι) (hk : m.kind = .solidLiquidPowder) (hm : m.Melts) (beams : ℝ → List Beam) (meth : Method)
    (dt t : ℝ) (y : ι → ℝ) (s : PState m) (k : ℕ) :
    ∃ Ys : List (ι → ℝ), Leaves m s (m.run beams meth dt t y s k).2 Ys ∧
      ∀ j < k, (m.run beams meth dt t y s j).1 ∈ Ys := by
  induction k with
  | zero => exact ⟨[], leaves_nil m s, by simp⟩
  | succ k ih =>
    obtain ⟨Ys, h1, h2⟩ := ih
    have key : ∃ Zs : List (ι → ℝ), (m.run beams meth dt t y s k).1 ∈ Zs ∧
        Leaves m (m.run beams meth dt t y s k).2 (m.run beams meth dt t y s (k + 1)).2 Zs := by
      rw [PMesh.run]
      generalize (m.run beams meth dt t y s k).1 = y'
      generalize (m.run beams meth dt t y s k).2 = s'
      cases meth with
      | forwardEuler =>
        rw [evolve_fe]
        exact ⟨[y'], by simp, leaves_one m hk hm _ _⟩
      | rk3 =>
        rw [evolve_rk3]
        refine ⟨_, ?_, leaves_trans m _ _ _ _ _ (leaves_trans m _ _ _ _ _ (leaves_one m hk hm s' y') (leaves_one m hk hm _ _)
          (by simp)) (leaves_one m hk hm _ _) (by simp)⟩
        simp
      | rk4 =>
        rw [evolve_rk4]
        refine ⟨_, ?_, leaves_trans m _ _ _ _ _ (leaves_trans m _ _ _ _ _ (leaves_trans m _ _ _ _ _ (leaves_one m hk hm s' y')
          (leaves_one m hk hm _ _) (by simp)) (leaves_one m hk hm _ _) (by simp)) (leaves_one m hk hm _ _) (by simp)⟩
        simp
    obtain ⟨Zs, hz, h3⟩ := key
    refine ⟨Ys ++ Zs, leaves_trans m s _ _ _ _ h1 h3 (List.ne_nil_of_mem hz), fun j hj => ?_⟩
    rcases Nat.lt_succ_iff_lt_or_eq.1 hj with h | rfl
    · exact List.mem_append.2 (Or.inl (h2 j h))
    · exact List.mem_append.2 (Or.inr hz)

/-- **C118**, the fields of one Runge-Kutta step: the temperatures of the three (four) stages, the first being the temperature at the
start of the step, and the last one the stage at the end time.  Every stage `i` has the rate of the operator with the powder that the
stages before it left. -/
theorem C118_runge_kutta_partial (m : PMesh ι) (hk : m.kind = .solidLiquidPowder) (hm : m.Melts) (beams : ℝ → List Beam)
    (dt t : ℝ) (y : ι → ℝ) (s : PState m) :
    (∃ (s1 s2 : PState m) (k1 k2 k3 y2 y3 : ι → ℝ),
      y2 = (fun i => y i + dt / 2 * k1 i) ∧ y3 = (fun i => y i + dt * (2 * k2 i - k1 i)) ∧
      Leaves m s s1 [y] ∧ Leaves m s s2 [y, y2] ∧
      k1 = (m.frozen s).evaluate beams t y ∧ k2 = (m.frozen s1).evaluate beams (t + dt / 2) y2 ∧
      k3 = (m.frozen s2).evaluate beams (t + dt) y3 ∧
      (m.evolve beams .rk3 dt t y s).1 = (fun i => y i + dt * (k1 i + 4 * k2 i + k3 i) / 6) ∧
      Leaves m s (m.evolve beams .rk3 dt t y s).2 [y, y2, y3]) ∧
    (∃ (s1 s2 s3 : PState m) (k1 k2 k3 k4 y2 y3 y4 : ι → ℝ),
      y2 = (fun i => y i + dt / 2 * k1 i) ∧ y3 = (fun i => y i + dt / 2 * k2 i) ∧ y4 = (fun i => y i + dt * k3 i) ∧
      Leaves m s s1 [y] ∧ Leaves m s s2 [y, y2] ∧ Leaves m s s3 [y, y2, y3] ∧
      k1 = (m.frozen s).evaluate beams t y ∧ k2 = (m.frozen s1).evaluate beams (t + dt / 2) y2 ∧
      k3 = (m.frozen s2).evaluate beams (t + dt / 2) y3 ∧ k4 = (m.frozen s3).evaluate beams (t + dt) y4 ∧
      (m.evolve beams .rk4 dt t y s).1 = (fun i => y i + dt * (k1 i + 2 * k2 i + 2 * k3 i + k4 i) / 6) ∧
      Leaves m s (m.evolve beams .rk4 dt t y s).2 [y, y2, y3, y4]) := by
  have l2 : ∀ (y y2 : ι → ℝ), Leaves m s (m.after (m.after s y) y2) [y, y2] := fun y y2 =>
    leaves_trans m _ _ _ [y] [y2] (leaves_one m hk hm _ _) (leaves_one m hk hm _ _) (by simp)
  have l3 : ∀ (y y2 y3 : ι → ℝ), Leaves m s (m.after (m.after (m.after s y) y2) y3) [y, y2, y3] := fun y y2 y3 =>
    leaves_trans m _ _ _ [y, y2] [y3] (l2 y y2) (leaves_one m hk hm _ _) (by simp)
  constructor
  · rw [evolve_rk3]
    exact ⟨m.after s y, m.after (m.after s y) _, _, _, _, _, _, rfl, rfl, leaves_one m hk hm _ _, l2 _ _, rfl, rfl, rfl, rfl, l3 _ _ _⟩
  · rw [evolve_rk4]
    exact ⟨m.after s y, m.after (m.after s y) _, m.after (m.after (m.after s y) _) _, _, _, _, _, _, _, _, rfl, rfl, rfl,
      leaves_one m hk hm _ _, l2 _ _, l3 _ _ _, rfl, rfl, rfl, rfl, rfl,
      leaves_trans m _ _ _ [_, _, _] [_] (l3 _ _ _) (leaves_one m hk hm _ _) (by simp)⟩

/-- **C118**, what is written out: in a cell with material the published liquid fraction after a forward Euler step is the mean over
the quadrature points of the liquid fraction of the temperature **before** the step, and solid and powder take up the rest. -/
theorem C118_published_partial (m : PMesh ι) (hk : m.kind = .solidLiquidPowder) (hm : m.Melts) (beams : ℝ → List Beam) (dt t : ℝ)
    (y : ι → ℝ) (s : PState m) (k : ℕ) (c : Fin m.nc) (hc : (m.cells c).cell.fe = 0) :
    (m.published (m.run beams .forwardEuler dt t y s (k + 1)).2 c).liquid =
      (∑ q, fraction ((m.cells c).melt q)
        ((m.cells c).cell.temperature m.hanging (m.run beams .forwardEuler dt t y s k).1 q)) / (m.cells c).cell.nq ∧
    (m.published (m.run beams .forwardEuler dt t y s (k + 1)).2 c).solid +
      (m.published (m.run beams .forwardEuler dt t y s (k + 1)).2 c).liquid +
      (m.published (m.run beams .forwardEuler dt t y s (k + 1)).2 c).powder = 1 := by
  have h := C118_forward_euler_partial m hk hm beams dt t y s k
  constructor
  · simp only [PMesh.published, hk, average]
    congr 1
    refine Finset.sum_congr rfl fun q _ => h.liquid c q _ hc ?_
    rw [List.range_succ, List.map_append]
    simp
  · simp only [PMesh.published, hk, average]
    ring

/-! ### Without powder -/

/-- No powder anywhere: the material has no powder state, or all stored powder ratios are zero. -/
def NoPowder (m : PMesh ι) (s : PState m) : Prop :=
  m.kind ≠ .solidLiquidPowder ∨ ((∀ c q, s.powder c q = 0) ∧ ∀ f q, s.facePowder f q = 0)

theorem phase_nopowder (k : Kind) (h : k ≠ .solidLiquidPowder) (p l : ℝ) : phase k p l = phase k 0 l := by
  cases k with
  | solid => rfl
  | solidLiquid => rfl
  | solidLiquidPowder => exact absurd rfl h

theorem fraction_mem (m : Melt) (T : ℝ) : 0 ≤ fraction m T ∧ fraction m T ≤ 1 :=
  ⟨le_max_left _ _, max_le zero_le_one (min_le_left _ _)⟩

theorem frozen_nopowder (m : PMesh ι) (s s' : PState m) (h : NoPowder m s) (h' : NoPowder m s') : m.frozen s = m.frozen s' := by
  have e : ∀ (p p' l : ℝ), (m.kind ≠ .solidLiquidPowder ∨ p = p') → phase m.kind p l = phase m.kind p' l := by
    intro p p' l hp
    rcases hp with hk | hp
    · rw [phase_nopowder _ hk p, phase_nopowder _ hk p']
    · rw [hp]
  have hc : ∀ c q, m.kind ≠ .solidLiquidPowder ∨ s.powder c q = s'.powder c q := by
    intro c q
    rcases h with hk | h
    · exact Or.inl hk
    · rcases h' with hk | h'
      · exact Or.inl hk
      · exact Or.inr ((h.1 c q).trans (h'.1 c q).symm)
  have hf : ∀ f q, m.kind ≠ .solidLiquidPowder ∨ s.facePowder f q = s'.facePowder f q := by
    intro c q
    rcases h with hk | h
    · exact Or.inl hk
    · rcases h' with hk | h'
      · exact Or.inl hk
      · exact Or.inr ((h.2 c q).trans (h'.2 c q).symm)
  have a : ∀ c, (m.cells c).withPowder m.kind (s.powder c) = (m.cells c).withPowder m.kind (s'.powder c) := by
    intro c
    simp only [PCell.withPowder]
    congr 1
    funext q T
    rw [e _ _ _ (hc c q)]
  have b : ∀ f, (m.faces f).withPowder m.kind (s.facePowder f) = (m.faces f).withPowder m.kind (s'.facePowder f) := by
    intro f
    simp only [PFace.withPowder]
    congr 1
    funext q T
    rw [e _ _ _ (hf f q)]
  simp only [PMesh.frozen, a, b]

theorem nopowder_after (m : PMesh ι) (hm : m.Melts) (s : PState m) (h : NoPowder m s) (y : ι → ℝ) : NoPowder m (m.after s y) := by
  rcases h with hk | h
  · exact Or.inl hk
  · by_cases hk : m.kind = .solidLiquidPowder
    · refine Or.inr ⟨fun c q => ?_, fun f q => ?_⟩
      · simp only [PMesh.after, h.1 c q, liq_eq _ (hm.1 c q)]
        split_ifs
        · exact phase_powder_zero _ _ (fraction_mem _ _)
        · rfl
      · simp only [PMesh.after, h.2 f q, liq_eq _ (hm.2 f q)]
        split_ifs
        · exact phase_powder_zero _ _ (fraction_mem _ _)
        · rfl
    · exact Or.inl hk

/-- **C118**, without powder the evaluations have no memory: the temperatures are those of the operator whose coefficients depend on
the current temperature alone, so that all that is proved about `steps` holds for the code with its stored state. -/
theorem C118_no_memory (m : PMesh ι) (hm : m.Melts) (beams : ℝ → List Beam) (meth : Method) (dt t t0 : ℝ) (y : ι → ℝ) (s : PState m)
    (h : NoPowder m s) (k : ℕ) :
    ∃ op', steps (some meth) dt k (t, y, (m.frozen s).operator beams t0) =
      some (t + k * dt, (m.run beams meth dt t y s k).1, op') := by
  obtain ⟨op', h1⟩ := steps_eq meth dt k t y ((m.frozen s).operator beams t0)
  refine ⟨op', ?_⟩
  rw [h1]
  have key : ∀ k, (m.run beams meth dt t y s k).1 = runOf (rhs ((m.frozen s).operator beams t0)) meth dt k t y ∧
      NoPowder m (m.run beams meth dt t y s k).2 := by
    have last : ∀ (f : ℝ → (ι → ℝ) → ι → ℝ) (k : ℕ) (t : ℝ) (y : ι → ℝ),
        runOf f meth dt (k + 1) t y = stepOf f (t + k * dt) dt (runOf f meth dt k t y) meth := by
      intro f k
      induction k with
      | zero => intro t y; simp [runOf]
      | succ k ih =>
        intro t y
        rw [runOf, ih (t + dt), ← runOf]
        congr 1
        push_cast
        ring
    intro k
    induction k with
    | zero => exact ⟨rfl, h⟩
    | succ k ih =>
      obtain ⟨ih1, ih2⟩ := ih
      have hf : ∀ s', NoPowder m s' → ∀ t y, (m.frozen s').evaluate beams t y = rhs ((m.frozen s).operator beams t0) t y := by
        intro s' hs' t y
        funext g
        rw [frozen_nopowder m s' s hs' h, evaluate_operator]
      rw [last, ← ih1, PMesh.run]
      generalize (m.run beams meth dt t y s k).1 = y' at *
      generalize (m.run beams meth dt t y s k).2 = s' at *
      have n1 := nopowder_after m hm s' ih2
      cases meth with
      | forwardEuler =>
        rw [evolve_fe]
        exact ⟨by simp only [stepOf, hf s' ih2], n1 _⟩
      | rk3 =>
        rw [evolve_rk3]
        refine ⟨?_, nopowder_after m hm _ (nopowder_after m hm _ (n1 _) _) _⟩
        simp only [stepOf, hf s' ih2, hf _ (n1 _), hf _ (nopowder_after m hm _ (n1 _) _)]
      | rk4 =>
        rw [evolve_rk4]
        refine ⟨?_, nopowder_after m hm _ (nopowder_after m hm _ (nopowder_after m hm _ (n1 _) _) _) _⟩
        simp only [stepOf, hf s' ih2, hf _ (n1 _), hf _ (nopowder_after m hm _ (n1 _) _),
          hf _ (nopowder_after m hm _ (nopowder_after m hm _ (n1 _) _) _)]
  rw [(key k).1]

/-- **C118**, evaluating a second time with the same temperature changes nothing. -/
theorem C118_idempotent (m : PMesh ι) (hm : m.Melts) (s : PState m) (y : ι → ℝ) : m.after (m.after s y) y = m.after s y := by
  have e : ∀ (k : Kind) (p l : ℝ), phase k (phase k p l).powder l = phase k p l := by
    intro k p l
    cases k with
    | solid => rfl
    | solidLiquid => rfl
    | solidLiquidPowder => simp only [phase]; rw [← min_assoc, min_self]
  have := hm
  simp only [PMesh.after]
  congr 1
  · funext c q; split_ifs
    · rw [e]
    · rfl
  · funext c q; split_ifs
    · rw [e]
    · rfl
  · funext f q; split_ifs
    · rw [e]
    · rfl

/-! ### What is false -/

/-- One cell with one node and one quadrature point and unit heat capacity; the beams heat it. -/
noncomputable def dot (k : Kind) : PMesh (Fin 1) where
  kind := k
  hanging := ⟨fun _ => false, fun _ _ => 0⟩
  types := []
  nc := 1
  cells := fun _ =>
    { cell := { fe := 0, n := 1, nq := 1, dof := fun _ => 0, shape := fun _ _ => 1, grad := fun _ _ _ => 0, jxw := fun _ => 1,
                point := fun _ _ => 0, cos := fun _ => 1, sin := fun _ => 0, coef := fun _ _ => ⟨1, 1, 1, 1⟩, mq := 1,
                mshape := fun _ _ => 1, mjxw := fun _ => 1 }
      melt := fun _ => ⟨1600, 1700⟩
      law := fun _ _ _ => ⟨1, 1, 1, 1⟩ }
  nf := 0
  faces := fun f => f.elim0

theorem dot_melts (k : Kind) : (dot k).Melts :=
  ⟨fun c q => by change (1600 : ℝ) < 1700; norm_num, fun f => f.elim0⟩

/-- A beam of power density `p`. -/
def constBeam (p : ℝ) : Beam := ⟨true, fun _ => p, fun _ => p⟩

/-- All powder, nothing liquid. -/
def freshPowder (k : Kind) : PState (dot k) := ⟨fun _ _ => 0, fun _ _ => 1, fun _ _ => 1⟩

theorem dot_evaluate (k : Kind) (s : PState (dot k)) (P : ℝ → ℝ) (t : ℝ) (y : Fin 1 → ℝ) :
    ((dot k).frozen s).evaluate (fun t => [constBeam (P t)]) t y = fun _ => P t := by
  funext g
  have hc : ∀ (g' g : Fin 1), (Hanging.coef (⟨fun _ => false, fun _ _ => 0⟩ : Hanging (Fin 1)) g' g) = 1 := by
    intro g' g
    simp [Hanging.coef, Subsingleton.elim g' g]
  have h1 : ((dot k).frozen s).mass g = 1 := by
    simp only [Mesh.mass, PMesh.frozen, dot, PCell.withPowder, List.ofFn_succ, List.ofFn_zero, List.foldl_cons, List.foldl_nil,
      massApply, if_true, Hanging.distribute, hc, Hanging.resolve]
    simp
  have h2 : ((dot k).frozen s).vmultAdd [constBeam (P t)] (fun _ => 0) y g = P t := by
    simp only [Mesh.vmultAdd, PMesh.frozen, dot, PCell.withPowder, List.ofFn_succ, List.ofFn_zero, List.foldl_cons, List.foldl_nil,
      cellApply, if_true]
    have e : adiabaticOnly ((dot k).frozen s).types = true := by change adiabaticOnly [] = true; decide
    rw [if_neg (by simp)]
    refine (congrFun (if_pos e) g).trans ?_
    simp only [Hanging.distribute, hc, Cell.entry, sourcesOn, constBeam, Cell.source]
    simp
  rw [Mesh.evaluate, h2, Mesh.invMass, h1]; simp

theorem dot_temperature (k : Kind) (y : Fin 1 → ℝ) (c : Fin (dot k).nc) (q : Fin ((dot k).cells c).cell.nq) :
    ((dot k).cells c).cell.value (dot k).hanging y q = y 0 := by
  change ∑ _i : Fin 1, (1 : ℝ) * Hanging.resolve (⟨fun _ => false, fun _ _ => 0⟩ : Hanging (Fin 1)) y 0 = y 0
  simp [Hanging.resolve, Hanging.coef]

theorem dot_after (k : Kind) (s : PState (dot k)) (y : Fin 1 → ℝ) (c : Fin (dot k).nc) (q : Fin ((dot k).cells c).cell.nq) :
    ((dot k).after s y).liquid c q = (phase k (s.powder c q) (liq ⟨1600, 1700⟩ (y 0))).liquid ∧
    ((dot k).after s y).powder c q = (phase k (s.powder c q) (liq ⟨1600, 1700⟩ (y 0))).powder := by
  constructor
  · simp only [PMesh.after]
    rw [if_pos (show ((dot k).cells c).cell.fe = 0 from rfl), dot_temperature]; rfl
  · simp only [PMesh.after]
    rw [if_pos (show ((dot k).cells c).cell.fe = 0 from rfl), dot_temperature]; rfl

theorem dot_published (s : PState (dot .solidLiquidPowder)) (c : Fin (dot .solidLiquidPowder).nc) (l p : ℝ)
    (hl : ∀ q, s.liquid c q = l) (hp : ∀ q, s.powder c q = p) :
    ((dot .solidLiquidPowder).published s c).liquid = l ∧ ((dot .solidLiquidPowder).published s c).powder = p := by
  constructor
  · have e : (fun q => s.liquid c q) = fun _ => l := funext hl
    change (∑ q, (fun q => s.liquid c q) q) / ((1 : ℕ) : ℝ) = l
    rw [e]
    change (∑ _q : Fin 1, l) / ((1 : ℕ) : ℝ) = l
    simp
  · have e : (fun q => s.powder c q) = fun _ => p := funext hp
    change (∑ q, (fun q => s.powder c q) q) / ((1 : ℕ) : ℝ) = p
    rw [e]
    change (∑ _q : Fin 1, p) / ((1 : ℕ) : ℝ) = p
    simp

/-- **C118 is false for the temperature that is written with the state.**  A powder bed at 300 that one forward Euler step heats to
2300, above the liquidus, is written as solid powder without any liquid. -/
theorem C118_lag_refuted :
    let m := dot .solidLiquidPowder
    let r := m.run (fun _ => [constBeam 2000]) .forwardEuler 1 0 (fun _ => 300) (freshPowder _) 1
    r.1 0 = 2300 ∧ ∀ c, (m.published r.2 c).liquid = 0 ∧ (m.published r.2 c).powder = 1 := by
  intro m r
  have hr : r = m.evolve (fun _ => [constBeam 2000]) .forwardEuler 1 (0 + (0 : ℕ) * 1) (fun _ => 300) (freshPowder _) := rfl
  have hl : liq ⟨1600, 1700⟩ 300 = 0 := by simp [liq, liquidRatio]; norm_num
  rw [hr, evolve_fe]
  refine ⟨?_, fun c => dot_published _ c 0 1 (fun q => ?_) fun q => ?_⟩
  · change (300 : ℝ) + 1 * _ = 2300
    rw [dot_evaluate _ _ (fun _ => 2000)]; norm_num
  · refine ((dot_after _ _ _ c q).1).trans ?_
    simp [phase, hl]
  · refine ((dot_after _ _ _ c q).2).trans ?_
    simp [phase, hl, freshPowder]

/-- **C118 is false for the stages of the third-order method.**  With a beam that is on in the middle of the step, a powder bed goes
from 300 to 900, far below the solidus, and is written as fully liquid: the third stage, at 2100, is extrapolated from the middle
one. -/
theorem C118_overshoot_refuted :
    let m := dot .solidLiquidPowder
    let beam : ℝ → List Beam := fun t => [constBeam (if t = 1 / 2 then 900 else 0)]
    let r := m.run beam .rk3 1 0 (fun _ => 300) (freshPowder _) 1
    r.1 0 = 900 ∧ ∀ c, (m.published r.2 c).liquid = 1 ∧ (m.published r.2 c).powder = 0 := by
  intro m beam r
  have hr : r = m.evolve beam .rk3 1 (0 + (0 : ℕ) * 1) (fun _ => 300) (freshPowder _) := rfl
  have hl : liq ⟨1600, 1700⟩ 300 = 0 := by simp [liq, liquidRatio]; norm_num
  have hh : liq ⟨1600, 1700⟩ 2100 = 1 := by simp [liq, liquidRatio]; norm_num
  have key := evolve_rk3 m beam 1 (0 + (0 : ℕ) * 1) (fun _ => 300) (freshPowder _)
  simp only [beam, m] at key
  simp only [dot_evaluate _ _ (fun t => if t = 1 / 2 then 900 else 0)] at key
  norm_num at key
  have hr' : r = ((fun _ => 900), (dot .solidLiquidPowder).after ((dot .solidLiquidPowder).after
      ((dot .solidLiquidPowder).after (freshPowder _) fun _ => 300) fun _ => 300) fun _ => 2100) := by
    rw [hr, ← key]
    simp only [beam, m]
    norm_num
  rw [hr']
  refine ⟨rfl, fun c => dot_published _ c 1 0 (fun q => ?_) fun q => ?_⟩
  · refine ((dot_after _ _ _ c q).1).trans ?_
    simp [phase, hh]
  · refine ((dot_after _ _ _ c q).2).trans ?_
    rw [(dot_after _ _ _ c q).2, (dot_after _ _ _ c q).2]
    simp [phase, hl, hh, freshPowder]

/-- The hypotheses of the theorems hold for the powder bed, with and without powder. -/
example : (dot .solidLiquidPowder).kind = .solidLiquidPowder ∧ (dot .solidLiquidPowder).Melts ∧
    NoPowder (dot .solidLiquidPowder) ⟨fun _ _ => 0, fun _ _ => 0, fun _ _ => 0⟩ ∧ NoPowder (dot .solidLiquid) (freshPowder _) :=
  ⟨rfl, dot_melts _, Or.inr ⟨fun _ _ => rfl, fun _ _ => rfl⟩, Or.inl (by simp [dot])⟩

end Verif.Assembly
