import Verif.Mechanics.Cells
import Verif.Mechanics.Dissipation

/-!
# C136: stress and yield radius over a whole mechanical run with an adapting mesh

`MechanicalPhysics::MechanicalPhysics`, `setup_dofs`, `solve` (`compute_stress`), `prepare_transfer_mpi` and
`complete_transfer_mpi` (`source/MechanicalPhysics.cc`) in any order, as `run` (`application/adamantine.hh:1105-1343`) calls them.
-/

namespace Verif.Mechanics

open Matrix

variable {d : ℕ}

/-! ## Model -/

/-- The update of one quadrature point of a cell, `MechanicalPhysics.cc:580-623`; `none` is a NaN: the stored yield radius is one, or
the update divides by zero. -/
noncomputable def updatePoint (m : Props) (eps : ℕ → Tens d) (v : CellVars d) (q : ℕ) : Option (Pt d) :=
  (v.kappa q).bind fun k => stressUpdate m ⟨v.stress q, v.back q, k⟩ (eps q)

open Classical in
/-- `compute_stress` for a cell with `nq` points, `MechanicalPhysics.cc:541-626`: only cells that take part (fe index 0); `none` if a NaN
is stored. -/
noncomputable def stressCell (nq : ℕ) (m : Props) (eps : ℕ → Tens d) (c : SCell d) : Option (SCell d) :=
  if c.mechFE ≠ 0 then some c
  else if ∃ q, q < nq ∧ updatePoint m eps c.vars q = none then none
  else some { c with vars :=
    ⟨fun q => if q < nq then (updatePoint m eps c.vars q).map (·.kappa) else c.vars.kappa q,
     fun q => if q < nq then ((updatePoint m eps c.vars q).map (·.stress)).getD 0 else c.vars.stress q,
     fun q => if q < nq then ((updatePoint m eps c.vars q).map (·.back)).getD 0 else c.vars.back q⟩ }

/-- Where the data of a cell come from when the mesh is adapted (`dealii::parallel::distributed::CellDataTransfer` as constructed in
`MechanicalPhysics.cc:37-39`: the default strategies `preserve` and `check_equality`; the latter returns the value of the first child, and
checks that the others are equal only in a debug build).  `keep i`: cell `i` is not changed; `child i`: one of the children of cell `i`;
`parent i js`: the parent of cell `i` and its siblings `js`.  The active fe index is transferred by the `DoFHandler`: it is that of the old
cell, and that of the children if they agree (otherwise some index `fe`). -/
inductive Origin
  | keep (i : ℕ)
  | child (i : ℕ)
  | parent (i : ℕ) (js : List ℕ) (fe : ℕ)

/-- The old cell the data are copied from, point by point (`complete_transfer_mpi`, `MechanicalPhysics.cc:249-280`: the point `q` of the new
cell gets the data of the point `q` of the old one, wherever they are). -/
def Origin.source : Origin → ℕ
  | .keep i => i
  | .child i => i
  | .parent i _ _ => i

/-- The data of the new cell, `MechanicalPhysics.cc:159-283`. -/
def Origin.cell (cells : List (SCell d)) : Origin → Option (SCell d)
  | .keep i => cells[i]?
  | .child i => cells[i]?
  | .parent i js fe => (cells[i]?).map fun c => { c with
      mechFE := if js.all (fun j => (cells[j]?).map (·.mechFE) == some c.mechFE) then c.mechFE else fe }

/-- What happens to the mechanical simulation. -/
inductive MEvent (d : ℕ)
  /-- a thermal step: cell `i` now has the solid ratio, thermal fe index and elastic limit `env i` -/
  | thermal (env : ℕ → ℝ × ℕ × ℝ)
  /-- `setup_dofs`, `adamantine.hh:1308-1311` -/
  | setup (rebuild others : Bool)
  /-- `solve`: the properties of cell `i` and the strain increments of its points, whatever the linear solver returned -/
  | solve (m : ℕ → Props) (eps : ℕ → ℕ → Tens d)
  /-- refinement, coarsening and deposition: `prepare_transfer_mpi`, `complete_transfer_mpi`, `adamantine.hh:433-537, 1179-1199` -/
  | adapt (origins : List Origin)

/-- One event; `none`: a NaN is stored in a cell that takes part, or a transfer from a cell that does not exist. -/
noncomputable def mechEvent (nq : ℕ) (cells : List (SCell d)) : MEvent d → Option (List (SCell d))
  | .thermal env => some (cells.mapIdx fun i c => { c with solid := (env i).1, thermalFE := (env i).2.1, elasticLimit := (env i).2.2 })
  | .setup rebuild others => some (setupDofs rebuild others cells)
  | .solve m eps => (cells.mapIdx fun i c => stressCell nq (m i) (eps i) c).mapM id
  | .adapt origins => (origins.map (Origin.cell cells)).mapM id

/-- The run. -/
noncomputable def mechRun (nq : ℕ) (cells : List (SCell d)) (events : List (MEvent d)) : Option (List (SCell d)) :=
  events.foldlM (mechEvent nq) cells

open Classical in
/-- The constructor, `MechanicalPhysics.cc:51-98`: fe index 0 for solid cells, the elastic limit as yield radius, no stress. -/
noncomputable def constructed (d : ℕ) (env : List (ℝ × ℕ × ℝ)) : List (SCell d) :=
  env.map fun e => ⟨e.1, e.2.1, if 0.99 < e.1 then 0 else 1, e.2.2, freshVars d e.2.2⟩

/-! ## Specification -/

/-- The inputs of an event are physical: the elastic limits are at least `L`, the shear modulus is positive, the plastic modulus and the
hardening parameter are not negative; a transfer reads existing cells, and cells that are merged take part together or not at all. -/
def Sensible (L : ℝ) (cells : List (SCell d)) : MEvent d → Prop
  | .thermal env => ∀ i, L ≤ (env i).2.2 ∧ ((env i).2.1 = 0 ∨ (env i).2.1 = 1)
  | .setup _ _ => True
  | .solve m _ => ∀ i, 0 < (m i).mu ∧ 0 ≤ (m i).plasticModulus ∧ 0 ≤ (m i).isoHardening
  | .adapt origins => ∀ o ∈ origins, match o with
    | .keep i => i < cells.length
    | .child i => i < cells.length
    | .parent i js _ => i < cells.length ∧ ∀ j ∈ js, (cells[j]?).map (·.mechFE) = (cells[i]?).map (·.mechFE)

/-- Every event of the run is sensible when it happens. -/
def SensibleRun (nq : ℕ) (L : ℝ) : List (SCell d) → List (MEvent d) → Prop
  | _, [] => True
  | cells, e :: es => Sensible L cells e ∧ ∀ cells', mechEvent nq cells e = some cells' → SensibleRun nq L cells' es

/-- The steps of the run harden isotropically, or not at all. -/
def IsotropicRun (events : List (MEvent d)) : Prop :=
  ∀ e ∈ events, ∀ (m : ℕ → Props) (eps : ℕ → ℕ → Tens d), e = .solve m eps → ∀ i, (m i).isoHardening = 1 ∨ (m i).plasticModulus = 0

/-- What holds at every point of a cell that takes part: a number is stored as yield radius, it is at least the smallest elastic limit, and
the back stress is a deviator. -/
def Holds (nq : ℕ) (L : ℝ) (c : SCell d) : Prop :=
  ∀ q < nq, ∃ k, c.vars.kappa q = some k ∧ L ≤ k ∧ trace (c.vars.back q) = 0

/-- The stress is on or inside the yield surface, which has not been displaced. -/
def Inside (nq : ℕ) (c : SCell d) : Prop :=
  ∀ q < nq, c.vars.back q = 0 ∧ ∃ k, c.vars.kappa q = some k ∧ fnorm (deviator (c.vars.stress q)) ≤ k

/-! ## Proof -/

/-- A property of the plastic data of every cell that takes part. -/
def Every (P : CellVars d → Prop) (cells : List (SCell d)) : Prop := ∀ c ∈ cells, c.mechFE = 0 → P c.vars

theorem mapM_id {α : Type} : ∀ (l : List (Option α)), (∀ x ∈ l, x ≠ none) → ∃ l', l.mapM id = some l' ∧ l = l'.map some
  | [], _ => ⟨[], rfl, rfl⟩
  | x :: l, h => by
    obtain ⟨l', h1, h2⟩ := mapM_id l fun y hy => h y (by simp [hy])
    cases x with
    | none => exact absurd rfl (h none (by simp))
    | some a => exact ⟨a :: l', by simp [List.mapM_cons, h1], by rw [h2]; rfl⟩

theorem mapM_id_some {α : Type} : ∀ (l : List (Option α)) (l' : List α), l.mapM id = some l' → l = l'.map some
  | [], l', h => by simp at h; subst h; rfl
  | x :: l, l', h => by
    cases x with
    | none => simp [List.mapM_cons] at h
    | some a =>
      simp only [List.mapM_cons, id, Option.bind_eq_bind, Option.bind_some, Option.bind_eq_some_iff] at h
      obtain ⟨b, hb, h⟩ := h
      cases h
      rw [mapM_id_some l b hb]; rfl

theorem setup_every {P : CellVars d → Prop} {L : ℝ} {rebuild others : Bool} {cells : List (SCell d)}
    (hfresh : ∀ k, L ≤ k → P (freshVars d k)) (hl : ∀ c ∈ cells, L ≤ c.elasticLimit) (h : Every P cells) :
    Every P (setupDofs rebuild others cells) := by
  intro c hc h0
  simp only [setupDofs, List.mem_map] at hc
  obtain ⟨c0, hc0, rfl⟩ := hc
  simp only at h0 ⊢
  by_cases hs : 0.99 < c0.solid
  · by_cases he : c0.mechFE = c0.thermalFE
    · have e : setupCell c0 = (c0.mechFE, c0.vars, false) := by simp [setupCell, hs, he]
      rw [e] at h0 ⊢
      simp only at h0 ⊢
      split_ifs <;> exact h c0 hc0 h0
    · have e : setupCell c0 = (c0.thermalFE, freshVars d c0.elasticLimit, true) := by simp [setupCell, hs, he]
      have ha : (cells.any fun c => (setupCell c).2.2) = true := List.any_eq_true.2 ⟨c0, hc0, by rw [e]⟩
      rw [e, ha]
      simp only [Bool.or_true, if_true]
      exact hfresh _ (hl c0 hc0)
  · have e : (setupCell c0).1 = 1 := by simp [setupCell, hs]
    rw [e] at h0
    exact absurd h0 (by norm_num)

theorem adapt_every {P : CellVars d → Prop} {L : ℝ} {cells : List (SCell d)} {origins : List Origin}
    (hs : Sensible L cells (.adapt origins)) (h : Every P cells) :
    ∃ cells', mechEvent 0 cells (.adapt origins) = some cells' ∧ Every P cells' ∧
      ∀ c ∈ cells', ∃ c0 ∈ cells, c.elasticLimit = c0.elasticLimit ∧ c.thermalFE = c0.thermalFE := by
  have hc : ∀ o ∈ origins, ∃ c, Origin.cell cells o = some c ∧ (c.mechFE = 0 → P c.vars) ∧
      ∃ c0 ∈ cells, c.elasticLimit = c0.elasticLimit ∧ c.thermalFE = c0.thermalFE := by
    intro o ho
    have hso := hs o ho
    cases o with
    | keep i =>
      have hi : i < cells.length := hso
      refine ⟨cells[i], by simp [Origin.cell, hi], h _ (List.getElem_mem hi), cells[i], List.getElem_mem hi, rfl, rfl⟩
    | child i =>
      have hi : i < cells.length := hso
      refine ⟨cells[i], by simp [Origin.cell, hi], h _ (List.getElem_mem hi), cells[i], List.getElem_mem hi, rfl, rfl⟩
    | parent i js fe =>
      obtain ⟨hi, hj⟩ : i < cells.length ∧ ∀ j ∈ js, (cells[j]?).map (·.mechFE) = (cells[i]?).map (·.mechFE) := hso
      have hall : js.all (fun j => (cells[j]?).map (·.mechFE) == some cells[i].mechFE) = true := by
        rw [List.all_eq_true]
        intro j hjm
        rw [hj j hjm, List.getElem?_eq_getElem hi]
        simp
      refine ⟨cells[i], ?_, h _ (List.getElem_mem hi), cells[i], List.getElem_mem hi, rfl, rfl⟩
      simp only [Origin.cell, List.getElem?_eq_getElem hi, Option.map_some]
      rw [hall]
      simp
  obtain ⟨l', h1, h2⟩ := mapM_id (origins.map (Origin.cell cells)) (by
    intro x hx
    obtain ⟨o, ho, rfl⟩ := List.mem_map.1 hx
    obtain ⟨c, hc, _⟩ := hc o ho
    rw [hc]; simp)
  refine ⟨l', h1, ?_, ?_⟩
  · intro c hcm h0
    have : some c ∈ origins.map (Origin.cell cells) := by rw [h2]; exact List.mem_map_of_mem hcm
    obtain ⟨o, ho, he⟩ := List.mem_map.1 this
    obtain ⟨c', hc', hP, _⟩ := hc o ho
    rw [he] at hc'
    cases hc'
    exact hP h0
  · intro c hcm
    have : some c ∈ origins.map (Origin.cell cells) := by rw [h2]; exact List.mem_map_of_mem hcm
    obtain ⟨o, ho, he⟩ := List.mem_map.1 this
    obtain ⟨c', hc', _, hL⟩ := hc o ho
    rw [he] at hc'
    cases hc'
    exact hL

/-- A property of the data of a point that an update keeps, and that fresh data have. -/
structure Kept (L : ℝ) (S : Props → Prop) (G : Pt d → Prop) : Prop where
  fresh : ∀ k, L ≤ k → G ⟨0, 0, k⟩
  step : ∀ (m : Props) (p : Pt d) (eps : Tens d), S m → G p → ∃ p', stressUpdate m p eps = some p' ∧ G p'

/-- The property at every point of a cell. -/
def AtPoints (nq : ℕ) (G : Pt d → Prop) (v : CellVars d) : Prop :=
  ∀ q < nq, ∃ k, v.kappa q = some k ∧ G ⟨v.stress q, v.back q, k⟩

theorem stress_kept {nq : ℕ} {L : ℝ} {S : Props → Prop} {G : Pt d → Prop} (hk : Kept L S G) {m : Props} (hm : S m)
    (eps : ℕ → Tens d) {c : SCell d} (h : c.mechFE = 0 → AtPoints nq G c.vars) :
    ∃ c', stressCell nq m eps c = some c' ∧ (c'.mechFE = 0 → AtPoints nq G c'.vars) ∧ c'.elasticLimit = c.elasticLimit ∧
      c'.thermalFE = c.thermalFE := by
  unfold stressCell
  by_cases h0 : c.mechFE ≠ 0
  · rw [if_pos h0]
    exact ⟨c, rfl, h, rfl, rfl⟩
  rw [if_neg h0]
  have h0' : c.mechFE = 0 := not_not.1 h0
  have hu : ∀ q < nq, ∃ p', updatePoint m eps c.vars q = some p' ∧ G p' := by
    intro q hq
    obtain ⟨k, hkq, hG⟩ := h h0' q hq
    obtain ⟨p', hp, hG'⟩ := hk.step m _ (eps q) hm hG
    exact ⟨p', by simp [updatePoint, hkq, hp], hG'⟩
  rw [if_neg (by
    rintro ⟨q, hq, hn⟩
    obtain ⟨p', hp, _⟩ := hu q hq
    rw [hn] at hp; cases hp)]
  refine ⟨_, rfl, ?_, rfl, rfl⟩
  intro _ q hq
  obtain ⟨p', hp, hG⟩ := hu q hq
  refine ⟨p'.kappa, by simp [hq, hp], ?_⟩
  simpa [hq, hp] using hG

theorem event_kept {nq : ℕ} {L : ℝ} {S : Props → Prop} {G : Pt d → Prop} (hk : Kept L S G) {cells : List (SCell d)}
    {e : MEvent d} (hs : Sensible L cells e) (hS : ∀ m eps, e = .solve m eps → ∀ i, S (m i))
    (h : Every (AtPoints nq G) cells) (hl : ∀ c ∈ cells, L ≤ c.elasticLimit) :
    ∃ cells', mechEvent nq cells e = some cells' ∧ Every (AtPoints nq G) cells' ∧ ∀ c ∈ cells', L ≤ c.elasticLimit := by
  cases e with
  | thermal env =>
    refine ⟨_, rfl, ?_, ?_⟩
    · intro c hc h0
      obtain ⟨i, hi, rfl⟩ := List.mem_mapIdx.1 hc
      exact h cells[i] (List.getElem_mem hi) h0
    · intro c hc
      obtain ⟨i, hi, rfl⟩ := List.mem_mapIdx.1 hc
      exact (hs i).1
  | setup rebuild others =>
    refine ⟨_, rfl, setup_every (fun k hkL q _ => ⟨k, rfl, hk.fresh k hkL⟩) hl h, ?_⟩
    intro c hc
    simp only [setupDofs, List.mem_map] at hc
    obtain ⟨c0, hc0, rfl⟩ := hc
    exact hl c0 hc0
  | solve m eps =>
    have hc : ∀ (i : ℕ) (hi : i < cells.length), ∃ c', stressCell nq (m i) (eps i) cells[i] = some c' ∧
        (c'.mechFE = 0 → AtPoints nq G c'.vars) ∧ L ≤ c'.elasticLimit := by
      intro i hi
      obtain ⟨c', h1, h2, h3, _⟩ := stress_kept hk (hS m eps rfl i) (eps i) (h _ (List.getElem_mem hi))
      exact ⟨c', h1, h2, h3 ▸ hl _ (List.getElem_mem hi)⟩
    obtain ⟨l', h1, h2⟩ := mapM_id (cells.mapIdx fun i c => stressCell nq (m i) (eps i) c) (by
      intro x hx
      obtain ⟨i, hi, rfl⟩ := List.mem_mapIdx.1 hx
      obtain ⟨c', h1, _⟩ := hc i hi
      rw [h1]; simp)
    have hmem : ∀ c ∈ l', (c.mechFE = 0 → AtPoints nq G c.vars) ∧ L ≤ c.elasticLimit := by
      intro c hcm
      have : some c ∈ cells.mapIdx fun i c => stressCell nq (m i) (eps i) c := by rw [h2]; exact List.mem_map_of_mem hcm
      obtain ⟨i, hi, he⟩ := List.mem_mapIdx.1 this
      obtain ⟨c', h1, h2, h3⟩ := hc i hi
      rw [he] at h1
      cases h1
      exact ⟨h2, h3⟩
    exact ⟨l', h1, fun c hc => (hmem c hc).1, fun c hc => (hmem c hc).2⟩
  | adapt origins =>
    obtain ⟨cells', h1, h2, h3⟩ := adapt_every hs h
    refine ⟨cells', h1, h2, fun c hc => ?_⟩
    obtain ⟨c0, hc0, he, _⟩ := h3 c hc
    rw [he]; exact hl c0 hc0

theorem run_kept {nq : ℕ} {L : ℝ} {S : Props → Prop} {G : Pt d → Prop}
    (hk : Kept L (fun m => (0 < m.mu ∧ 0 ≤ m.plasticModulus ∧ 0 ≤ m.isoHardening) ∧ S m) G) (events : List (MEvent d)) :
    ∀ {cells : List (SCell d)}, SensibleRun nq L cells events →
      (∀ e ∈ events, ∀ (m : ℕ → Props) (eps : ℕ → ℕ → Tens d), e = .solve m eps → ∀ i, S (m i)) →
      Every (AtPoints nq G) cells → (∀ c ∈ cells, L ≤ c.elasticLimit) →
      ∃ cells', mechRun nq cells events = some cells' ∧ Every (AtPoints nq G) cells' := by
  induction events with
  | nil => intro cells _ _ h _; exact ⟨cells, rfl, h⟩
  | cons e es ih =>
    intro cells hs hS h hl
    obtain ⟨cells1, h1, h2, h3⟩ := event_kept hk hs.1
      (fun m eps he i => ⟨by have := hs.1; subst he; exact this i, hS e (by simp) m eps he i⟩) h hl
    obtain ⟨cells', h4, h5⟩ := ih (hs.2 _ h1) (fun e' he' => hS e' (by simp [he'])) h2 h3
    exact ⟨cells', by simp [mechRun, List.foldlM_cons, h1]; exact h4, h5⟩

theorem constructed_every {L : ℝ} {S : Props → Prop} {G : Pt d → Prop} (hk : Kept L S G) (nq : ℕ) (env : List (ℝ × ℕ × ℝ))
    (he : ∀ e ∈ env, L ≤ e.2.2) :
    Every (AtPoints nq G) (constructed d env) ∧ ∀ c ∈ constructed d env, L ≤ c.elasticLimit := by
  constructor
  · intro c hc _ q _
    obtain ⟨e, hem, rfl⟩ := List.mem_map.1 hc
    exact ⟨e.2.2, rfl, hk.fresh _ (he e hem)⟩
  · intro c hc
    obtain ⟨e, hem, rfl⟩ := List.mem_map.1 hc
    exact he e hem

theorem kept_general (hd : 0 < d) {L : ℝ} (hL : 0 < L) :
    Kept (d := d) L (fun m => (0 < m.mu ∧ 0 ≤ m.plasticModulus ∧ 0 ≤ m.isoHardening) ∧ True)
      (fun p => L ≤ p.kappa ∧ trace p.back = 0) := by
  refine ⟨fun k hk => ⟨hk, by simp⟩, ?_⟩
  rintro m p eps ⟨⟨hmu, hH, hb⟩, -⟩ ⟨hk, ht⟩
  obtain ⟨p', hp⟩ := (C44_defined m p eps (lt_of_lt_of_le hL hk) (by linarith)).1
  obtain ⟨_, h2, h3, _⟩ := C45_update hd m p p' ht eps hH hb (by linarith) hp
  exact ⟨p', hp, hk.trans h3, h2⟩

theorem back_isotropic {m : Props} (hi : m.isoHardening = 1 ∨ m.plasticModulus = 0) {p p' : Pt d} {eps : Tens d}
    (h : stressUpdate m p eps = some p') : p'.back = p.back := by
  unfold stressUpdate at h
  simp only at h
  split_ifs at h
  · cases h; rfl
  · cases h
    rcases hi with hi | hi <;> simp [hi]

theorem kept_isotropic (hd : 0 < d) {L : ℝ} (hL : 0 < L) :
    Kept (d := d) L (fun m => (0 < m.mu ∧ 0 ≤ m.plasticModulus ∧ 0 ≤ m.isoHardening) ∧
        (m.isoHardening = 1 ∨ m.plasticModulus = 0))
      (fun p => (L ≤ p.kappa ∧ trace p.back = 0) ∧ p.back = 0 ∧ fnorm (deviator p.stress) ≤ p.kappa) := by
  refine ⟨fun k hk => ⟨⟨hk, by simp⟩, rfl, ?_⟩, ?_⟩
  · have : fnorm (deviator (0 : Tens d)) = 0 := by simp [deviator, fnorm, contract]
    simp only [this]
    linarith
  · rintro m p eps ⟨hm, hi⟩ ⟨hg, hb, hn⟩
    obtain ⟨p', hp, hg'⟩ := (kept_general hd hL).step m p eps ⟨hm, trivial⟩ hg
    obtain ⟨dl, dir, _, _, _, _, _, _, ha, _⟩ := C128_kuhn_tucker hd m hi hm.1 hm.2.1 p p' hg.2 (by linarith [hg.1]) eps hp
    have hb' : p'.back = 0 := (back_isotropic hi hp).trans hb
    refine ⟨p', hp, hg', hb', ?_⟩
    have ha' : fnorm (deviator p'.stress - p'.back) ≤ p'.kappa := ha
    rwa [hb', sub_zero] at ha'

/-! ## C136 -/

/-- **C136.**  Over every run of thermal steps, `setup_dofs`, `solve` and mesh adaptations, in any order, with any displacements, changing
phases, material properties and elastic limits (at least `L`), no NaN is ever stored in a cell that takes part; its yield radius is never
below `L` and its back stress is a deviator. -/
theorem C136_defined_partial (hd : 0 < d) (nq : ℕ) (L : ℝ) (hL : 0 < L) (env : List (ℝ × ℕ × ℝ)) (he : ∀ e ∈ env, L ≤ e.2.2)
    (events : List (MEvent d)) (hs : SensibleRun nq L (constructed d env) events) :
    ∃ cells, mechRun nq (constructed d env) events = some cells ∧ ∀ c ∈ cells, c.mechFE = 0 → Holds nq L c := by
  have hk := kept_general hd hL
  obtain ⟨h1, h2⟩ := constructed_every hk nq env he
  obtain ⟨cells, h3, h4⟩ := run_kept hk events hs (fun _ _ _ _ _ _ => trivial) h1 h2
  refine ⟨cells, h3, fun c hc h0 q hq => ?_⟩
  obtain ⟨k, hkq, hG⟩ := h4 c hc h0 q hq
  exact ⟨k, hkq, hG.1, hG.2⟩

/-- **C136.**  If in addition every step hardens isotropically (or not at all), then at every time and at every point of a cell that takes
part the stress is on or inside the yield surface. -/
theorem C136_inside_partial (hd : 0 < d) (nq : ℕ) (L : ℝ) (hL : 0 < L) (env : List (ℝ × ℕ × ℝ)) (he : ∀ e ∈ env, L ≤ e.2.2)
    (events : List (MEvent d)) (hs : SensibleRun nq L (constructed d env) events) (hi : IsotropicRun events) :
    ∃ cells, mechRun nq (constructed d env) events = some cells ∧ ∀ c ∈ cells, c.mechFE = 0 → Inside nq c := by
  have hk := kept_isotropic hd hL
  obtain ⟨h1, h2⟩ := constructed_every hk nq env he
  obtain ⟨cells, h3, h4⟩ := run_kept hk events hs hi h1 h2
  refine ⟨cells, h3, fun c hc h0 q hq => ?_⟩
  obtain ⟨k, hkq, hG⟩ := h4 c hc h0 q hq
  exact ⟨hG.2.1, k, hkq, hG.2.2⟩

/-- **C136, adaptation.**  A cell that is not changed keeps its data, a child has, at its point `q`, exactly the data of the point `q` of
its parent, and a merged cell has those of its first child. -/
theorem C136_refine (nq : ℕ) (cells cells' : List (SCell d)) (origins : List Origin) (i n : ℕ)
    (h : mechEvent nq cells (.adapt origins) = some cells') :
    (origins[n]? = some (.keep i) → ∃ c, cells[i]? = some c ∧ cells'[n]? = some c) ∧
    (origins[n]? = some (.child i) → ∃ c, cells[i]? = some c ∧ cells'[n]? = some c) ∧
    ∀ js fe, origins[n]? = some (.parent i js fe) → ∃ c c', cells[i]? = some c ∧ cells'[n]? = some c' ∧ c'.vars = c.vars ∧
      (c'.mechFE = c.mechFE ∨ c'.mechFE = fe) := by
  have h2 := mapM_id_some _ _ h
  have key : ∀ o, origins[n]? = some o → ∃ c', cells'[n]? = some c' ∧ Origin.cell cells o = some c' := by
    intro o ho
    have hg : (origins.map (Origin.cell cells))[n]? = some (Origin.cell cells o) := by simp [ho]
    rw [h2, List.getElem?_map] at hg
    cases hc : cells'[n]? with
    | none => rw [hc] at hg; cases hg
    | some c =>
      rw [hc] at hg
      simp only [Option.map_some, Option.some.injEq] at hg
      exact ⟨c, rfl, hg.symm⟩
  refine ⟨fun hn => ?_, fun hn => ?_, fun js fe hn => ?_⟩
  · obtain ⟨c, h3, h4⟩ := key _ hn
    exact ⟨c, h4, h3⟩
  · obtain ⟨c, h3, h4⟩ := key _ hn
    exact ⟨c, h4, h3⟩
  · obtain ⟨c', h3, h4⟩ := key _ hn
    simp only [Origin.cell, Option.map_eq_some_iff] at h4
    obtain ⟨c, h5, rfl⟩ := h4
    refine ⟨c, _, h5, h3, rfl, ?_⟩
    dsimp only
    split_ifs
    · exact Or.inl rfl
    · exact Or.inr rfl

/-- **C136, coarsening, refuted.**  Two solid cells with different stresses are merged: the parent has the stress of the first one, that of
the second one is lost. -/
theorem C136_coarsen_refuted (d : ℕ) (S T : Tens d) (nq : ℕ) :
    let cell := fun S : Tens d => (⟨1, 0, 0, 1, ⟨fun _ => some 1, fun _ => S, fun _ => 0⟩⟩ : SCell d)
    mechEvent nq [cell S, cell T] (.adapt [.parent 0 [1] 0]) = some [cell S] := by
  intro cell
  simp [mechEvent, Origin.cell, cell]

/-- **C136, coarsening across the melt pool, refuted.**  A liquid cell that has solidified since the last mechanical step is merged with its solid
sibling: if the parent takes part (its fe index is that of the second one), the first `solve` after `setup_dofs` stores a NaN. -/
theorem C136_merge_refuted (d nq : ℕ) (hq : 0 < nq) (m : ℕ → Props) (eps : ℕ → ℕ → Tens d) (rebuild others : Bool) :
    mechRun nq [(⟨1, 0, 1, 1, emptyVars d⟩ : SCell d), ⟨1, 0, 0, 1, freshVars d 1⟩]
      [.adapt [.parent 0 [1] 0], .setup rebuild others, .solve m eps] = none := by
  have h1 : mechEvent nq [(⟨1, 0, 1, 1, emptyVars d⟩ : SCell d), ⟨1, 0, 0, 1, freshVars d 1⟩] (.adapt [.parent 0 [1] 0]) =
      some [(⟨1, 0, 0, 1, emptyVars d⟩ : SCell d)] := by
    simp [mechEvent, Origin.cell]
  have hs : setupCell (⟨1, 0, 0, 1, emptyVars d⟩ : SCell d) = (0, emptyVars d, false) := by
    simp [setupCell]; norm_num
  have h2 : mechEvent nq [(⟨1, 0, 0, 1, emptyVars d⟩ : SCell d)] (.setup rebuild others) =
      some [(⟨1, 0, 0, 1, emptyVars d⟩ : SCell d)] := by
    simp [mechEvent, setupDofs, hs]
  have h3 : mechEvent nq [(⟨1, 0, 0, 1, emptyVars d⟩ : SCell d)] (.solve m eps) = none := by
    have : stressCell nq (m 0) (eps 0) (⟨1, 0, 0, 1, emptyVars d⟩ : SCell d) = none := by
      unfold stressCell
      rw [if_neg (by simp), if_pos ⟨0, hq, by simp [updatePoint, emptyVars]⟩]
    simp [mechEvent, this]
  simp [mechRun, List.foldlM_cons, h1, h2, h3]

/-- Solid ratio, thermal and mechanical fe index of the cells. -/
def shape (cells : List (SCell d)) : List (ℝ × ℕ × ℕ) := cells.map fun c => (c.solid, c.thermalFE, c.mechFE)

theorem shape_solve {nq : ℕ} {cells cells' : List (SCell d)} {m : ℕ → Props} {eps : ℕ → ℕ → Tens d}
    (h : mechEvent nq cells (.solve m eps) = some cells') : shape cells' = shape cells := by
  have h2 := mapM_id_some _ _ h
  apply List.ext_getElem?
  intro n
  have hg := congrArg (fun l => l[n]?) h2
  simp only [List.getElem?_mapIdx, List.getElem?_map] at hg
  simp only [shape, List.getElem?_map]
  cases hc : cells[n]? with
  | none =>
    cases hc' : cells'[n]? with
    | none => rfl
    | some c' => rw [hc, hc'] at hg; cases hg
  | some c =>
    cases hc' : cells'[n]? with
    | none => rw [hc, hc'] at hg; cases hg
    | some c' =>
      rw [hc, hc'] at hg
      simp only [Option.map_some, Option.some.injEq] at hg
      unfold stressCell at hg
      split_ifs at hg
      · cases hg; rfl
      · cases hg; rfl

theorem shape_setup (rebuild others : Bool) (cells : List (SCell d)) :
    shape (setupDofs rebuild others cells) =
      (shape cells).map fun x => (x.1, x.2.1, open Classical in if 0.99 < x.1 then x.2.1 else 1) := by
  simp only [shape, setupDofs, List.map_map]
  refine List.map_congr_left fun c _ => ?_
  simp only [Function.comp, setupCell]
  congr 2
  split_ifs with h1 h2
  · exact h2
  · rfl
  · rfl

/-- The hypotheses hold for a run that refines a solid cell, melts one of the children, loads, lets it solidify, loads and merges them. -/
example (eps eps' : ℕ → ℕ → Tens 3) : ∃ events : List (MEvent 3), events.length = 8 ∧
    SensibleRun 8 1 (constructed 3 [(1, 0, 2)]) events ∧ IsotropicRun events := by
  refine ⟨[.adapt [.child 0, .child 0], .thermal fun i => if i = 0 then (0.5, 0, 1) else (1, 0, 2), .setup true false,
    .solve (fun _ => ⟨1, 1, 1, 1⟩) eps, .thermal fun _ => (1, 0, 2), .setup false false, .solve (fun _ => ⟨1, 2, 0, 0⟩) eps',
    .adapt [.parent 0 [1] 0]], rfl, ?_, ?_⟩
  · have n1 : (0.99 : ℝ) < 1 := by norm_num
    refine ⟨by intro o ho; simp at ho; subst ho; simp [constructed], fun c1 h1 => ?_⟩
    have hc1 : c1.length = 2 := by
      have := congrArg List.length (mapM_id_some _ _ h1)
      simpa using this.symm
    refine ⟨by intro i; dsimp only; split_ifs <;> norm_num, fun c2 h2 => ?_⟩
    refine ⟨trivial, fun c3 h3 => ⟨by intro i; norm_num, fun c4 h4 => ?_⟩⟩
    have hc4 : c4.length = 2 := by
      cases h2
      cases h3
      have := congrArg List.length (shape_solve h4)
      simpa [shape, setupDofs, hc1] using this
    refine ⟨by intro i; norm_num, fun c5 h5 => ⟨trivial, fun c6 h6 => ⟨by intro i; norm_num, fun c7 h7 => ⟨?_, fun _ _ => trivial⟩⟩⟩⟩
    have hsh : shape c7 = [(1, 0, 0), (1, 0, 0)] := by
      cases h5
      cases h6
      rw [shape_solve h7, shape_setup]
      match c4, hc4 with
      | [a, b], _ => simp [shape, n1]
    match c7, hsh with
    | [], h => simp [shape] at h
    | [a], h => simp [shape] at h
    | [a, b], h =>
      simp [shape] at h
      intro o ho
      simp at ho
      subst ho
      simp [h.1.2.2, h.2.2.2]
    | a :: b :: c :: l, h => simp [shape] at h
  · intro e he m ep hem i
    subst hem
    simp at he
    rcases he with ⟨rfl, _⟩ | ⟨rfl, _⟩ <;> simp

end Verif.Mechanics
