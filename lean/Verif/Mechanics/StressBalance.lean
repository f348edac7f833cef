import Verif.Mechanics.System

/-!
# C113: the stored stress and the displacement

`MechanicalPhysics::solve` after the linear solve, `source/MechanicalPhysics.cc:513-546`, and the cell loop of
`compute_stress`, `source/MechanicalPhysics.cc:548-626`, for any number of mechanical steps on a mesh that does not
change (what happens when cells melt, solidify or are added: C49, C73, C76).  The update of one quadrature point is
`stressUpdate` (C44); a point with a division by zero is `none` and stays `none` (NaN).
-/

namespace Verif.Mechanics

open Matrix Verif.Assembly

variable {d : ℕ} {ι : Type} [Fintype ι] [DecidableEq ι]

/-- A cell with the data of its quadrature points (`_stress`, `_back_stress`, `_plastic_internal_variable`). -/
structure Loaded (d : ℕ) (ι : Type) where
  cell : SolidCell d ι
  pt : Fin cell.nq → Option (Pt d)

/-- The cell loop of `compute_stress`, `MechanicalPhysics.cc:558-624`, for the displacement increment `inc`. -/
noncomputable def computeStress (inc : ι → ℝ) (cells : List (Loaded d ι)) : List (Loaded d ι) :=
  cells.map fun l => if l.cell.fe = 0 then
    ⟨l.cell, fun q => (l.pt q).bind fun p => stressUpdate l.cell.m p (l.cell.strainOf inc q)⟩
  else l

/-- The increment since the old displacement, if there is one, `MechanicalPhysics.cc:518-527`. -/
def increment : Option (ι → ℝ) → (ι → ℝ) → ι → ℝ
  | none, u => u
  | some old, u => fun g => u g - old g

/-- `MechanicalPhysics.cc:513-546`: the stresses for the increment, and the displacement becomes the old one. -/
noncomputable def stressStep (st : Option (ι → ℝ) × List (Loaded d ι)) (u : ι → ℝ) : Option (ι → ℝ) × List (Loaded d ι) :=
  (some u, computeStress (increment st.1 u) st.2)

/-- Several calls of `solve`, with the displacements they compute. -/
noncomputable def stressRun (us : List (ι → ℝ)) (st : Option (ι → ℝ) × List (Loaded d ι)) :
    Option (ι → ℝ) × List (Loaded d ι) := us.foldl stressStep st

/-! ## Specification -/

/-- Stress free, without back stress, with the elastic limit `kappa` at the points: a cell that has just become
solid (C49). -/
def Fresh (kappa : (c : SolidCell d ι) → Fin c.nq → ℝ) (l : Loaded d ι) : Prop := ∀ q, l.pt q = some ⟨0, 0, kappa l.cell q⟩

/-- The work of the stored stresses along a virtual displacement. -/
noncomputable def storedWork (cells : List (Loaded d ι)) (w : ι → ℝ) : ℝ :=
  ((cells.filter fun l => l.cell.fe = 0).map fun l => ∑ q, contract ((l.pt q).map Pt.stress |>.getD 0) (l.cell.strainOf w q) *
    l.cell.geo.JxW q).sum

/-! ## Lemmas -/

theorem strainOf_sub (c : SolidCell d ι) (u v : ι → ℝ) (q : Fin c.nq) :
    c.strainOf (fun g => u g - v g) q = c.strainOf u q - c.strainOf v q := by
  ext a b
  simp only [SolidCell.strainOf, strain, gradU, Matrix.sub_apply, sub_mul, Finset.sum_sub_distrib]
  ring

theorem hooke_sub (lambda mu : ℝ) (A B : Tens d) : hooke lambda mu (A - B) = hooke lambda mu A - hooke lambda mu B := by
  unfold hooke
  rw [trace_sub, mul_sub, sub_smul, smul_sub]
  abel

theorem trial_hooke (m : Props) (p : Pt d) (e : Tens d) : trial m p e = p.stress + hooke m.lambda m.mu e := rfl

/-- A property of the points that every step keeps holds after the run. -/
theorem run_keeps (P : Option (ι → ℝ) → (l : Loaded d ι) → Prop) (us : List (ι → ℝ))
    (hstep : ∀ old u l, u ∈ us → P old l →
      P (some u) (if l.cell.fe = 0 then ⟨l.cell, fun q => (l.pt q).bind fun p => stressUpdate l.cell.m p
        (l.cell.strainOf (increment old u) q)⟩ else l))
    (old : Option (ι → ℝ)) (cells : List (Loaded d ι)) (h0 : ∀ l ∈ cells, P old l) :
    (∀ l' ∈ (stressRun us (old, cells)).2, P (stressRun us (old, cells)).1 l') ∧
      (stressRun us (old, cells)).2.map (fun l => l.cell) = cells.map (fun l => l.cell) ∧
      (stressRun us (old, cells)).1 = (us.getLast?).or old := by
  induction us generalizing old cells with
  | nil => exact ⟨h0, rfl, by simp [stressRun]⟩
  | cons u us ih =>
    have h1 : ∀ l' ∈ (stressStep (old, cells) u).2, P (some u) l' := by
      intro l' hl'
      unfold stressStep computeStress at hl'
      obtain ⟨l, hl, rfl⟩ := List.mem_map.1 hl'
      exact hstep old u l (by simp) (h0 l hl)
    obtain ⟨a, b, c⟩ := ih (fun old' u' l hu hp => hstep old' u' l (List.mem_cons_of_mem _ hu) hp) (some u)
      (stressStep (old, cells) u).2 h1
    refine ⟨a, ?_, ?_⟩
    · show (stressRun us (stressStep (old, cells) u)).2.map _ = _
      refine Eq.trans b ?_
      unfold stressStep computeStress
      rw [List.map_map]
      refine List.map_congr_left fun l _ => ?_
      by_cases hl : l.cell.fe = 0 <;> simp [hl]
    · show (stressRun us (stressStep (old, cells) u)).1 = _
      refine Eq.trans c ?_
      cases hu : us.getLast? with
      | none =>
        rw [List.getLast?_eq_none_iff] at hu
        subst hu
        simp
      | some x =>
        have : (u :: us).getLast? = some x := by
          cases us with
          | nil => simp at hu
          | cons v vs => rw [List.getLast?_cons_cons]; exact hu
        rw [this]; rfl

/-- The stress that belongs to a displacement by Hooke's law; none yet: no stress. -/
noncomputable def elasticStress (c : SolidCell d ι) (q : Fin c.nq) : Option (ι → ℝ) → Tens d
  | none => 0
  | some u => hooke c.m.lambda c.m.mu (c.strainOf u q)

theorem elasticStress_step (c : SolidCell d ι) (q : Fin c.nq) (old : Option (ι → ℝ)) (u : ι → ℝ) :
    elasticStress c q old + hooke c.m.lambda c.m.mu (c.strainOf (increment old u) q) =
      hooke c.m.lambda c.m.mu (c.strainOf u q) := by
  cases old with
  | none => simp [elasticStress, increment]
  | some o => simp only [elasticStress, increment, strainOf_sub, hooke_sub]; abel

/-! ## Theorems -/

/-- **C113**. As long as every computed displacement stays inside the elastic limit, the stored stress is Hooke's law
applied to the strain of the *last* displacement, for every sequence of mechanical steps: it does not depend on how the
loading was divided into steps; back stress and elastic limit are unchanged. -/
theorem C113_elastic (us : List (ι → ℝ)) (u : ι → ℝ) (cells : List (Loaded d ι))
    (kappa : (c : SolidCell d ι) → Fin c.nq → ℝ) (hfresh : ∀ l ∈ cells, Fresh kappa l)
    (hel : ∀ v, v ∈ us ∨ v = u → ∀ l ∈ cells, l.cell.fe = 0 → ∀ q,
      fnorm (deviator (hooke l.cell.m.lambda l.cell.m.mu (l.cell.strainOf v q))) < kappa l.cell q) :
    (stressRun (us ++ [u]) (none, cells)).2.map (fun l => l.cell) = cells.map (fun l => l.cell) ∧
    ∀ l ∈ (stressRun (us ++ [u]) (none, cells)).2, l.cell.fe = 0 → ∀ q,
      l.pt q = some ⟨hooke l.cell.m.lambda l.cell.m.mu (l.cell.strainOf u q), 0, kappa l.cell q⟩ := by
  -- the invariant: the stress belongs to the old displacement
  have key := run_keeps (d := d) (ι := ι)
    (fun old l => (∃ l0 ∈ cells, l0.cell = l.cell) ∧ ∀ q, l.cell.fe = 0 →
      l.pt q = some ⟨elasticStress l.cell q old, 0, kappa l.cell q⟩)
    (us ++ [u]) (by
      rintro old v l hv ⟨⟨l0, hl0, hc⟩, hp⟩
      by_cases hfe : l.cell.fe = 0
      · rw [if_pos hfe]
        refine ⟨⟨l0, hl0, hc⟩, fun q _ => ?_⟩
        have hq := hp q hfe
        dsimp only
        rw [hq]
        have htrial : trial l.cell.m ⟨elasticStress l.cell q old, 0, kappa l.cell q⟩
            (l.cell.strainOf (increment old v) q) = hooke l.cell.m.lambda l.cell.m.mu (l.cell.strainOf v q) := by
          rw [trial_hooke]
          exact elasticStress_step l.cell q old v
        have hel' : fnorm (deviator (hooke l.cell.m.lambda l.cell.m.mu (l.cell.strainOf v q))) < kappa l.cell q := by
          have hv' : v ∈ us ∨ v = u := by
            rcases List.mem_append.1 hv with h | h
            · exact Or.inl h
            · exact Or.inr (by simpa using h)
          rcases l with ⟨c, pt⟩
          rcases l0 with ⟨c0, pt0⟩
          dsimp only at hc
          subst hc
          exact hel v hv' ⟨c0, pt0⟩ hl0 hfe q
        obtain ⟨p', e1, e2, e3, e4, -⟩ := C44_elastic l.cell.m ⟨elasticStress l.cell q old, 0, kappa l.cell q⟩
            (l.cell.strainOf (increment old v) q) (by rw [htrial, sub_zero]; exact hel')
        show stressUpdate _ _ _ = _
        rw [e1]
        congr 1
        rcases p' with ⟨a, b, c⟩
        simp only at e2 e3 e4
        rw [e3, e4]
        congr 1
        exact e2.trans htrial
      · rw [if_neg hfe]
        exact ⟨⟨l0, hl0, hc⟩, fun q h => absurd h hfe⟩)
    none cells (fun l hl => ⟨⟨l, hl, rfl⟩, fun q _ => hfresh l hl q⟩)
  refine ⟨key.2.1, fun l hl hfe q => ?_⟩
  have h1 := (key.1 l hl).2 q hfe
  rw [h1]
  have h2 : (stressRun (us ++ [u]) (none, cells)).1 = some u := by
    rw [key.2.2]; simp
  rw [h2]
  rfl

/-- The stored work when the stresses are those of `u`. -/
theorem storedWork_elastic (cells : List (Loaded d ι)) (u w : ι → ℝ)
    (h : ∀ l ∈ cells, l.cell.fe = 0 → ∀ q, ∃ b k,
      l.pt q = some ⟨hooke l.cell.m.lambda l.cell.m.mu (l.cell.strainOf u q), b, k⟩) :
    storedWork cells w = internalWork (cells.map fun l => l.cell) u w := by
  unfold storedWork internalWork solidCells
  rw [List.filter_map, List.map_map]
  congr 1
  refine List.map_congr_left fun l hl => ?_
  obtain ⟨h1, h2⟩ := List.mem_filter.1 hl
  have h2 : l.cell.fe = 0 := by simpa using h2
  show _ = ∑ q, _
  refine Finset.sum_congr rfl fun q _ => ?_
  obtain ⟨b, k, hq⟩ := h l h1 h2 q
  rw [hq]
  rfl

/-- **C113**. In the elastic regime and without thermal expansion the stored stress balances the body forces of the last
step, for every allowed virtual displacement; with thermal expansion it balances the body forces *and* the thermal load
(the stored stress contains the stress-free thermal part, see `C113_thermal_refuted`). -/
theorem C113_balance (h : Hanging ι) (diag : ι → ℝ) (thermal : Bool) (forces : List (Force d ι)) (cells : List (Loaded d ι))
    (kappa : (c : SolidCell d ι) → Fin c.nq → ℝ) (hfresh : ∀ l ∈ cells, Fresh kappa l) (us : List (ι → ℝ)) (x : ι → ℝ)
    (hx : Solves h diag thermal forces (cells.map fun l => l.cell) x)
    (hel : ∀ v, v ∈ us ∨ v = displacement h x → ∀ l ∈ cells, l.cell.fe = 0 → ∀ q,
      fnorm (deviator (hooke l.cell.m.lambda l.cell.m.mu (l.cell.strainOf v q))) < kappa l.cell q)
    (w : ι → ℝ) (hw : Compatible h w) :
    storedWork (stressRun (us ++ [displacement h x]) (none, cells)).2 w =
      (if thermal then thermalWork (cells.map fun l => l.cell) w else 0) +
        forceWork forces (cells.map fun l => l.cell) w := by
  obtain ⟨hc, hs⟩ := C113_elastic us (displacement h x) cells kappa hfresh hel
  rw [storedWork_elastic _ (displacement h x) w fun l hl hfe q => ⟨_, _, hs l hl hfe q⟩, hc]
  exact C112_equilibrium h diag thermal forces _ x hx w hw

/-- One quadrature point, any step: the stress is the elastic one minus twice the shear modulus times a traceless tensor. -/
theorem update_split (hd : 0 < d) (m : Props) (p p' : Pt d) (hb : trace p.back = 0) (eps : Tens d)
    (h : stressUpdate m p eps = some p') :
    trace p'.back = 0 ∧ ∃ D : Tens d, trace D = 0 ∧ p'.stress = p.stress + hooke m.lambda m.mu eps - (2 * m.mu) • D := by
  have hx := effective_traceless hd m p hb eps
  unfold stressUpdate at h
  simp only at h
  split_ifs at h with h1 h2
  · rw [← Option.some.inj h]
    exact ⟨hb, 0, by simp, by simp [trial_hooke]⟩
  · rw [← Option.some.inj h]
    refine ⟨?_, ((fnorm (effective m p eps) - p.kappa) / (2 * m.mu + m.plasticModulus)) •
      ((1 / fnorm (effective m p eps)) • effective m p eps), ?_, ?_⟩
    · simp only [trace_add, trace_smul, hx, hb, smul_zero, add_zero]
    · simp only [trace_smul, hx, smul_zero]
    · simp only [trial_hooke, smul_smul, mul_assoc]

/-- **C113**, any loading, elastic or not: the stored stress of a solid cell is Hooke's law applied to the strain of the
last displacement minus a traceless plastic strain.  In particular its trace is that of the elastic stress, however the
loading was divided into steps and wherever the material yielded. -/
theorem C113_decomposition (hd : 0 < d) (us : List (ι → ℝ)) (u : ι → ℝ) (cells : List (Loaded d ι))
    (kappa : (c : SolidCell d ι) → Fin c.nq → ℝ) (hfresh : ∀ l ∈ cells, Fresh kappa l) :
    ∀ l ∈ (stressRun (us ++ [u]) (none, cells)).2, l.cell.fe = 0 → ∀ q p, l.pt q = some p →
      (∃ P : Tens d, trace P = 0 ∧ p.stress = hooke l.cell.m.lambda l.cell.m.mu (l.cell.strainOf u q - P)) ∧
        trace p.stress = (l.cell.m.lambda * d + 2 * l.cell.m.mu) * trace (l.cell.strainOf u q) := by
  have key := run_keeps (d := d) (ι := ι)
    (fun old l => l.cell.fe = 0 → ∀ q p, l.pt q = some p → trace p.back = 0 ∧
      ∃ P : Tens d, trace P = 0 ∧ p.stress = elasticStress l.cell q old - (2 * l.cell.m.mu) • P)
    (us ++ [u]) (by
      intro old v l hv hp
      by_cases hfe : l.cell.fe = 0
      · rw [if_pos hfe]
        intro _ q p hq
        dsimp only at hq p
        obtain ⟨p0, hp0, hup⟩ := Option.bind_eq_some_iff.1 hq
        obtain ⟨hb, P, hP, hs⟩ := hp hfe q p0 hp0
        obtain ⟨hb', D, hD, hs'⟩ := update_split hd _ _ _ hb _ hup
        refine ⟨hb', P + D, by rw [trace_add, hP, hD, add_zero], ?_⟩
        rw [hs', hs]
        show _ = hooke l.cell.m.lambda l.cell.m.mu (l.cell.strainOf v q) - _
        rw [← elasticStress_step l.cell q old v, smul_add]
        abel
      · rw [if_neg hfe]
        exact fun h => absurd h hfe)
    none cells (fun l hl _ q p hq => by
      rw [hfresh l hl q] at hq
      rw [← Option.some.inj hq]
      exact ⟨by simp, 0, by simp, by simp [elasticStress]⟩)
  have h2 : (stressRun (us ++ [u]) (none, cells)).1 = some u := by
    rw [key.2.2]; simp
  intro l hl hfe q p hq
  obtain ⟨-, P, hP, hs⟩ := key.1 l hl hfe q p hq
  rw [h2] at hs
  have hform : p.stress = hooke l.cell.m.lambda l.cell.m.mu (l.cell.strainOf u q - P) := by
    rw [hs, hooke_sub]
    simp only [elasticStress]
    congr 1
    unfold hooke
    rw [hP]
    simp
  refine ⟨⟨P, hP, hform⟩, ?_⟩
  rw [hform]
  unfold hooke
  rw [trace_add, trace_smul, trace_smul, trace_one, Fintype.card_fin, trace_sub, hP]
  simp only [smul_eq_mul]
  ring

/-! ### Concrete cases -/

/-- No constraints. -/
def free : Hanging (Fin 1) := ⟨fun _ => false, fun _ _ => 0⟩

/-- A cell in simple shear: one vertical degree of freedom, whose shape function has the gradient `(1, 0)` and the mean
value one; unit volume, `λ = 0`, `μ = 1`, no hardening, and a density for which the weight is 10. -/
noncomputable def shearCell : SolidCell 2 (Fin 1) :=
  ⟨0, 1, 1, ⟨fun _ => 1, fun _ _ => ![1, 0], fun _ => 1⟩, fun _ _ => 1, fun _ => 0, ⟨0, 1, 0, 0⟩, 0, 10 / 9.80665, fun _ => 0⟩

theorem shear_strain (u : Fin 1 → ℝ) (q : Fin shearCell.nq) :
    shearCell.strainOf u q = !![0, u 0 / 2; u 0 / 2, 0] := by
  ext a b
  simp only [SolidCell.strainOf, strain, gradU]
  change ((∑ i : Fin 1, _) + (∑ i : Fin 1, _)) / 2 = _
  fin_cases a <;> fin_cases b <;> simp [shearCell]

theorem shear_work (u w : Fin 1 → ℝ) : internalWork [shearCell] u w = u 0 * w 0 := by
  have hs : solidCells [shearCell] = [shearCell] := rfl
  unfold internalWork
  rw [hs]
  simp only [List.map_cons, List.map_nil, List.sum_cons, List.sum_nil, add_zero, shear_strain]
  change ∑ q : Fin 1, _ = _
  simp [shearCell, hooke, contract, trace, Fin.sum_univ_two]
  ring

theorem shear_force (w : Fin 1 → ℝ) : forceWork [gravity 1] [shearCell] w = -10 * w 0 := by
  have hs : solidCells [shearCell] = [shearCell] := rfl
  unfold forceWork
  rw [hs]
  simp only [List.map_cons, List.map_nil, List.sum_cons, List.sum_nil, add_zero]
  have hv : ∀ (q : Fin shearCell.nq) (a : Fin 2), shearCell.valueOf w q a = if a = 1 then w 0 else 0 := by
    intro q a
    unfold SolidCell.valueOf
    change ∑ i : Fin 1, _ = _
    fin_cases a <;> simp [shearCell]
  have hJ : ∀ q : Fin shearCell.nq, shearCell.geo.JxW q = 1 := fun _ => rfl
  have hD : shearCell.density = 10 / 9.80665 := rfl
  simp only [hv, hJ, gravity, hD]
  change ∑ q : Fin 1, _ = _
  simp [Fin.last]
  exact Or.inl (by norm_num)

theorem shear_solves : Solves free (fun _ => 1) false [gravity 1] [shearCell] (fun _ => -10) := by
  intro g
  have hm := matrix_work free (fun _ => 1) [shearCell] (fun g' => if g' = g then 1 else 0) (fun _ => -10)
  have hr := rhs_work free false [gravity 1] [shearCell] (fun g' => if g' = g then 1 else 0)
  have h1 : ∀ v, free.resolve v = v := fun v => compatible_resolve free v (fun g hg => by simp [free] at hg)
  simp only [h1, shear_work, shear_force] at hm hr
  have hg : g = 0 := Subsingleton.elim _ _
  subst hg
  have hf : ∀ g, free.constrained g = false := fun _ => rfl
  simp [hf] at hm hr
  rw [hr]
  simp [hm]

/-- `C112_unique`, `C112_matrix` apply to the shear cell: it is stiff, and an allowed displacement without strain is zero. -/
example : StiffCells [shearCell] ∧ Supported free [shearCell] := by
  have hs : solidCells [shearCell] = [shearCell] := rfl
  refine ⟨?_, ?_⟩
  · intro c hc
    rw [hs] at hc
    obtain rfl := List.mem_singleton.1 hc
    refine ⟨le_refl (0 : ℝ), ?_, fun q => ?_⟩
    · show (0 : ℝ) < 1
      norm_num
    · show (0 : ℝ) < 1
      norm_num
  · intro w _ h0
    have h1 := h0 shearCell (by rw [hs]; simp) (show Fin shearCell.nq from (0 : Fin 1))
    rw [shear_strain] at h1
    have h2 := congrFun (congrFun h1 0) 1
    funext g
    have hg : g = 0 := Subsingleton.elim _ _
    subst hg
    simpa using h2

/-- `C111_weight` applies to the shear cell: its load is its weight, ten. -/
example : ∑ g, (if (fun _ : Fin 1 => (1 : Fin 2)) g = 1 then systemRhs free false [gravity 1] [shearCell] g else 0) = -10 := by
  have h := C111_weight 1 free [shearCell] (fun _ => 1) 1 (by
      intro c hc i
      obtain rfl := List.mem_singleton.1 hc
      rfl) (by
      intro c hc q
      obtain rfl := List.mem_singleton.1 hc
      change ∑ i : Fin 1, _ = _
      simp [shearCell]) (fun g hg => by simp [free] at hg)
  rw [h]
  have hfe : shearCell.fe = 0 := rfl
  have hv : shearCell.volume = 1 := by
    unfold SolidCell.volume
    change ∑ q : Fin 1, _ = _
    simp [shearCell]
  have hD : shearCell.density = 10 / 9.80665 := rfl
  simp only [List.filter_cons, List.filter_nil, hfe, decide_true, if_true, List.map_cons, List.map_nil, List.sum_cons,
    List.sum_nil, hv, hD]
  rw [if_pos (show (1 : Fin 2) = Fin.last 1 from rfl)]
  norm_num

/-- The shear cell with its only quadrature point, elastic limit `κ`. -/
noncomputable def shearLoaded (κ : ℝ) : Loaded 2 (Fin 1) := ⟨shearCell, fun _ => some ⟨0, 0, κ⟩⟩

/-- `C113_balance` applies: with the elastic limit 20 the stored stress carries the weight. -/
example : storedWork (stressRun ([] ++ [displacement free fun _ => -10]) (none, [shearLoaded 20])).2 (fun _ => 1) = -10 := by
  have hd : displacement free (fun _ => -10) = fun _ => -10 :=
    compatible_resolve free _ (fun g hg => by simp [free] at hg)
  rw [C113_balance free (fun _ => 1) false [gravity 1] [shearLoaded 20] (fun _ _ => 20) ?_ [] (fun _ => -10) shear_solves
    ?_ (fun _ => 1) (fun g hg => by simp [free] at hg)]
  · have := shear_force (fun _ => 1)
    simp only [List.map_cons, List.map_nil, Bool.false_eq_true, if_false, zero_add]
    show forceWork [gravity 1] [shearCell] _ = _
    rw [this]; norm_num
  · intro l hl q
    obtain rfl := List.mem_singleton.1 hl
    rfl
  · intro v hv l hl _ q
    obtain rfl := List.mem_singleton.1 hl
    have hv : v = fun _ => -10 := by
      rcases hv with hv | hv
      · simp at hv
      · rw [hv, hd]
    subst hv
    change Fin shearCell.nq at q
    show fnorm (deviator (hooke 0 1 (shearCell.strainOf _ q))) < 20
    rw [shear_strain]
    unfold fnorm
    rw [Real.sqrt_lt' (by norm_num)]
    simp [contract, deviator, hooke, trace, Fin.sum_univ_two]
    norm_num

/-- Radial return of the shear cell. -/
theorem shear_return : stressUpdate shearCell.m ⟨0, 0, Real.sqrt 2⟩ !![0, -5; -5, 0] =
    some ⟨!![0, -1; -1, 0], 0, Real.sqrt 2⟩ := by
  have hs2 : (0 : ℝ) < Real.sqrt 2 := Real.sqrt_pos.2 (by norm_num)
  have hxi : effective shearCell.m ⟨0, 0, Real.sqrt 2⟩ !![0, -5; -5, 0] = (!![0, -10; -10, 0] : Tens 2) := by
    unfold effective trial deviator shearCell
    ext i j
    fin_cases i <;> fin_cases j <;> simp [trace, Fin.sum_univ_two] <;> norm_num
  have hn : fnorm (!![0, -10; -10, 0] : Tens 2) = 10 * Real.sqrt 2 := by
    unfold fnorm
    rw [show contract (!![0, -10; -10, 0] : Tens 2) !![0, -10; -10, 0] = 10 ^ 2 * 2 by
      simp [contract, Fin.sum_univ_two]; norm_num]
    rw [Real.sqrt_mul (by norm_num), Real.sqrt_sq (by norm_num)]
  have htr : trial shearCell.m ⟨0, 0, Real.sqrt 2⟩ !![0, -5; -5, 0] = (!![0, -10; -10, 0] : Tens 2) := by
    unfold trial shearCell
    ext i j
    fin_cases i <;> fin_cases j <;> simp [trace, Fin.sum_univ_two] <;> norm_num
  have hm : shearCell.m = ⟨0, 1, 0, 0⟩ := rfl
  unfold stressUpdate
  simp only [hxi, hn, htr]
  rw [if_neg (by linarith), if_neg (by rw [hm]; norm_num)]
  rw [hm]
  congr 2
  · ext i j
    fin_cases i <;> fin_cases j <;> simp <;> field_simp <;> norm_num
  · simp
  · simp

/-- A point on the yield surface of the shear cell keeps its stress when the displacement does not change. -/
theorem shear_stays : stressUpdate shearCell.m ⟨!![0, -1; -1, 0], 0, Real.sqrt 2⟩ 0 =
    some ⟨!![0, -1; -1, 0], 0, Real.sqrt 2⟩ := by
  have hs2 : (0 : ℝ) < Real.sqrt 2 := Real.sqrt_pos.2 (by norm_num)
  have htr : trial shearCell.m ⟨!![0, -1; -1, 0], 0, Real.sqrt 2⟩ 0 = (!![0, -1; -1, 0] : Tens 2) := by
    unfold trial shearCell
    simp
  have hxi : effective shearCell.m ⟨!![0, -1; -1, 0], 0, Real.sqrt 2⟩ 0 = (!![0, -1; -1, 0] : Tens 2) := by
    unfold effective
    rw [htr]
    unfold deviator
    ext i j
    fin_cases i <;> fin_cases j <;> simp [trace, Fin.sum_univ_two]
  have hn : fnorm (!![0, -1; -1, 0] : Tens 2) = Real.sqrt 2 := by
    unfold fnorm
    congr 1
    simp [contract, Fin.sum_univ_two]; norm_num
  have hm : shearCell.m = ⟨0, 1, 0, 0⟩ := rfl
  unfold stressUpdate
  simp only [hxi, hn, htr]
  rw [if_neg (by linarith), if_neg (by rw [hm]; norm_num)]
  rw [hm]
  simp

theorem shear_steps (n : ℕ) : stressRun (List.replicate (n + 1) fun _ => -10) (none, [shearLoaded (Real.sqrt 2)]) =
    (some fun _ => -10, [⟨shearCell, fun _ => some ⟨!![0, -1; -1, 0], 0, Real.sqrt 2⟩⟩]) := by
  have hfe : shearCell.fe = 0 := rfl
  induction n with
  | zero =>
    show stressStep _ _ = _
    unfold stressStep computeStress
    simp only [increment, List.map_cons, List.map_nil, shearLoaded, hfe, if_true, Option.bind_some]
    congr 3
    funext q
    rw [shear_strain]
    rw [show (-10 : ℝ) / 2 = -5 by norm_num]
    exact shear_return
  | succ n ih =>
    rw [List.replicate_succ']
    unfold stressRun at ih ⊢
    rw [List.foldl_append, ih]
    show stressStep _ _ = _
    unfold stressStep computeStress
    simp only [increment, List.map_cons, List.map_nil, hfe, if_true, Option.bind_some]
    congr 3
    funext q
    rw [shear_strain]
    have h0 : (!![0, ((-10 : ℝ) - -10) / 2; ((-10 : ℝ) - -10) / 2, 0] : Tens 2) = 0 := by
      ext i j
      fin_cases i <;> fin_cases j <;> simp
    rw [h0]
    exact shear_stays

/-- **C113 refuted** for plastic deformation: the displacement is computed as if the body were elastic, with nothing on
the right-hand side for the plastic strain, so the stored stress does not carry the load.  Witness: the shear cell of
weight 10 with elastic limit `√2`, no hardening: the linear solve is exact, the stored stress carries a tenth of the
weight, and it stays so however often the step is repeated under the same load. -/
theorem C113_plastic_refuted :
    Solves free (fun _ => 1) false [gravity 1] [shearCell] (fun _ => -10) ∧ displacement free (fun _ => -10) = (fun _ => -10) ∧
      Compatible free (fun _ => 1) ∧ forceWork [gravity 1] [shearCell] (fun _ => 1) = -10 ∧
      ∀ n, storedWork (stressRun (List.replicate (n + 1) fun _ => -10) (none, [shearLoaded (Real.sqrt 2)])).2 (fun _ => 1) =
        -1 := by
  refine ⟨shear_solves, compatible_resolve free _ (fun g hg => by simp [free] at hg), fun g hg => by simp [free] at hg,
    by rw [shear_force]; norm_num, fun n => ?_⟩
  rw [shear_steps]
  unfold storedWork
  have hfe : shearCell.fe = 0 := rfl
  simp only [List.filter_cons, List.filter_nil, hfe, decide_true, if_true, List.map_cons, List.map_nil, List.sum_cons,
    List.sum_nil, add_zero, shear_strain]
  change ∑ q : Fin 1, _ = _
  simp [contract, Fin.sum_univ_two, shearCell]
  norm_num

/-- A bar with one degree of freedom, `λ = 0`, `μ = 1/2`, heated by one degree with unit expansion coefficient. -/
noncomputable def hotBar : SolidCell 1 (Fin 1) :=
  ⟨0, 1, 1, ⟨fun _ => 0, fun _ _ _ => 1, fun _ => 1⟩, fun _ _ => 1, fun _ => 0, ⟨0, 1 / 2, 0, 0⟩, 1, 0, fun _ => 1⟩

/-- **C113 refuted** with thermal expansion: in the elastic regime, without any force, the stored stress does the work of
the thermal load along every allowed displacement (not zero, what equilibrium of the stress would mean), as the thermal
strain is not taken out of the strain before Hooke's law; there is a solved case in which this is not zero. -/
theorem C113_thermal_refuted :
    (∀ (h : Hanging ι) (diag : ι → ℝ) (cells : List (Loaded d ι)) (kappa : (c : SolidCell d ι) → Fin c.nq → ℝ)
        (_ : ∀ l ∈ cells, Fresh kappa l) (us : List (ι → ℝ)) (x : ι → ℝ)
        (_ : Solves h diag true [] (cells.map fun l => l.cell) x)
        (_ : ∀ v, v ∈ us ∨ v = displacement h x → ∀ l ∈ cells, l.cell.fe = 0 → ∀ q,
          fnorm (deviator (hooke l.cell.m.lambda l.cell.m.mu (l.cell.strainOf v q))) < kappa l.cell q)
        (w : ι → ℝ) (_ : Compatible h w),
        storedWork (stressRun (us ++ [displacement h x]) (none, cells)).2 w = thermalWork (cells.map fun l => l.cell) w) ∧
      Solves free (fun _ => 1) true [] [hotBar] (fun _ => 1) ∧
      (∀ q, fnorm (deviator (hooke hotBar.m.lambda hotBar.m.mu (hotBar.strainOf (fun _ => 1) q))) < 1) ∧
      thermalWork [hotBar] (fun _ => 1) = 1 := by
  have hstrain : ∀ (u : Fin 1 → ℝ) (q : Fin hotBar.nq), hotBar.strainOf u q = !![u 0] := by
    intro u q
    ext a b
    simp only [SolidCell.strainOf, strain, gradU]
    change ((∑ i : Fin 1, _) + (∑ i : Fin 1, _)) / 2 = _
    fin_cases a; fin_cases b; simp [hotBar]
  have hs : solidCells [hotBar] = [hotBar] := rfl
  have ht : ∀ w : Fin 1 → ℝ, thermalWork [hotBar] w = w 0 := by
    intro w
    unfold thermalWork
    rw [hs]
    simp only [List.map_cons, List.map_nil, List.sum_cons, List.sum_nil, add_zero, hstrain]
    change ∑ q : Fin 1, _ = _
    simp [hotBar, trace]
  have hi : ∀ u w : Fin 1 → ℝ, internalWork [hotBar] u w = u 0 * w 0 := by
    intro u w
    unfold internalWork
    rw [hs]
    simp only [List.map_cons, List.map_nil, List.sum_cons, List.sum_nil, add_zero, hstrain]
    change ∑ q : Fin 1, _ = _
    simp [hotBar, hooke, contract, trace]
  refine ⟨?_, ?_, ?_, by rw [ht]⟩
  · intro h diag cells kappa hf us x hx hel w hw
    rw [C113_balance h diag true [] cells kappa hf us x hx hel w hw, if_pos rfl]
    simp [forceWork]
  · intro g
    have hm := matrix_work free (fun _ => 1) [hotBar] (fun g' => if g' = g then 1 else 0) (fun _ => 1)
    have hr := rhs_work free true [] [hotBar] (fun g' => if g' = g then 1 else 0)
    have h1 : ∀ v, free.resolve v = v := fun v => compatible_resolve free v (fun g hg => by simp [free] at hg)
    have hf : ∀ g, free.constrained g = false := fun _ => rfl
    have h0 : ∀ w, forceWork [] [hotBar] w = 0 := fun w => by simp [forceWork]
    simp only [h1, hi, ht, h0] at hm hr
    have hg : g = 0 := Subsingleton.elim _ _
    subst hg
    simp [hf] at hm hr
    rw [hr]
    simp [hm]
  · intro q
    rw [hstrain]
    have : deviator (hooke hotBar.m.lambda hotBar.m.mu !![(1 : ℝ)]) = 0 := by
      ext a b
      fin_cases a; fin_cases b
      simp [deviator, hooke, trace]
    rw [this]
    simp [fnorm, contract]

end Verif.Mechanics
