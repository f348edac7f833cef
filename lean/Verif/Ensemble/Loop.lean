import Verif.Ensemble.Params
import Verif.Driver.Model
import Verif.Refinement.Forest
import Verif.HeatSource.Model
import Mathlib.Tactic.FieldSimp
import Mathlib.Tactic.Linarith
import Mathlib.Tactic.Ring

/-!
# C122, C123: the members of an ensemble during a whole run

Model of `run_ensemble`, `application/adamantine.hh:1493-2486`, as far as it decides which mesh, which cells with material, which
time and which temperature a member has.  `double` is `ℝ`.  The processes form groups (colours); a group has its own loop
variables and its own members, the groups run the same code.  deal.II, the physics of one time step and the analysis step are
parameters (`Lib`): functions of exactly what the code hands to them.  The time loop itself is `Driver.iter` (the code of
`run_ensemble` 1956-2468 is that of `run` with the thermal physics on).  Not modelled: output, timers, checkpoints (C24, C91),
an exception in one group, and cells are identified with their boxes.
-/

namespace Verif.EnsembleLoop

open Verif.Refinement
open Verif.Driver (St Ev Cfg iter)
open Verif.Ensemble (Db Beam BeamType boundingSources)

abbrev Forest (n : ℕ) := List (Box n × Tree n)

/-- The mesh of a member: the cells and which of them contain material (`active_fe_index() == 0`). -/
@[ext] structure Mesh (n : ℕ) where
  forest : Forest n
  material : Box n → Bool

/-- `database.get_child(section)`. -/
def child (d : Db) (name : String) : Db := fun k => d (name ++ "." ++ k)

/-- What a member shows to the analysis step (`update_ensemble` and the functions before it, 2196-2312): mesh (`get_dof_handler`),
temperature and the two parameters of beam 0 (1683-1701, 2318-2334). -/
structure View (n : ℕ) (T : Type) where
  mesh : Mesh n
  temp : T
  absorption : Option ℝ
  maxPower : Option ℝ

/-- The result of the analysis step for a member: the new temperature and, if they are augmented, the new parameters. -/
structure Analysis (T : Type) where
  temp : T
  absorption : Option ℝ
  maxPower : Option ℝ

/-- What is not modelled but used. -/
structure Lib (n : ℕ) (T : Type) where
  /-- the coarse mesh, a function of the section `geometry` (`Geometry` constructor, 1708-1709) -/
  coarse : Db → Forest n
  /-- `Geometry::within_stl` -/
  within : Db → Box n → Bool
  /-- `execute_coarsening_and_refinement` with the given flags -/
  exec : (Box n → ℕ → Flags) → Forest n → Forest n
  /-- which cells of the new mesh contain material -/
  inherit : Forest n → (Box n → Bool) → Forest n → Box n → Bool
  /-- `initialize_dof_vector(value, …)` -/
  fill : ℝ → Mesh n → T
  /-- the interpolation of `refine_and_transfer` -/
  move : Mesh n → Mesh n → T → T
  /-- `add_material_start`, `add_material_end` with the new-material temperature -/
  add : ℝ → Mesh n → Mesh n → T → T
  /-- `evolve_one_time_step` with the sections `materials` and `boundary` and the heat sources of the member's `sources` -/
  evolve : Db → Db → Db → Mesh n → ℝ → ℝ → T → T
  /-- `get_bounding_box(time, 2)` of the `i`-th beam -/
  srcBox : ℕ → Beam → ℝ → Box n
  /-- the analysis of an iteration for member `i` of group `g`; it sees all members -/
  assim : ℕ → List (List (View n T)) → ℕ → ℕ → Analysis T

/-- The input: the database, the types of the beams, `refinement.coarsen_after_beam` and `n_refinements`, the parameters of the
loop, the vertical axis, and the deposition boxes with their times that group `g` uses in iteration `k`
(`create_material_deposition_boxes(geometry_database, heat_sources_ensemble[0])`, 1908-1911 and 2013-2016). -/
structure Conf (n : ℕ) where
  base : Db
  types : List BeamType
  coarsenAfterBeam : Bool
  nRefinements : ℕ
  cfg : Cfg ℝ
  axis : Fin n
  dep : ℕ → ℕ → List (Box n × ℝ)

/-- A member: its database, mesh and temperature. -/
structure Member (n : ℕ) (T : Type) where
  db : Db
  mesh : Mesh n
  temp : T

/-- A group of processes: its loop variables and its members. -/
structure Group (n : ℕ) (T : Type) where
  loop : St ℝ
  members : List (Member n T)

variable {n : ℕ} {T : Type}

/-- The beams of a member's section `sources`, as `get_bounding_heat_sources` reads them, `ensemble_management.cc:68-90`. -/
def beamsOf (types : List BeamType) (sources : Db) : List Beam :=
  types.zipIdx.map fun p =>
    ⟨p.1, (sources ("beam_" ++ toString p.2 ++ ".diameter")).getD 0, (sources ("beam_" ++ toString p.2 ++ ".depth")).getD 0⟩

open Classical in
/-- The set-up of a member without restart, `adamantine.hh:1707-1735`, and the constructor of `ThermalPhysics`,
`source/ThermalPhysics.templates.hh:472-493`: the mesh is built from the common section `geometry`, the material height is read
from the database of the member. -/
noncomputable def startMember (L : Lib n T) (c : Conf n) (db : Db) : Member n T :=
  let mesh : Mesh n := ⟨L.coarse (child c.base "geometry"),
    fun b => decide ((b.lo c.axis + b.hi c.axis) / 2 < (db "geometry.material_height").getD 1000000000)⟩
  ⟨db, mesh, L.fill ((db "materials.initial_temperature").getD 300) mesh⟩

/-- All groups at the start; `dbs` are the databases of the members of each group. -/
noncomputable def start (L : Lib n T) (c : Conf n) (dbs : List (List Db)) : List (Group n T) :=
  dbs.map fun ds => ⟨Driver.start c.cfg, ds.map (startMember L c)⟩

/-- The bounding sources of group `g`, `adamantine.hh:1918-1919`: all members of all groups are gathered, the types are those of
the group's first member. -/
noncomputable def bounding (c : Conf n) (dbs : List (List Db)) (g : ℕ) : List Beam :=
  boundingSources (dbs.map fun ds => ds.map fun d => beamsOf c.types (child d "sources"))
    (beamsOf c.types (child (((dbs[g]?).getD []).head?.getD c.base) "sources"))

/-- The boxes of the bounding sources at the sampled times, `adamantine.hh:562-579`. -/
def sourceBoxes (L : Lib n T) (beams : List Beam) (times : List ℝ) : List (Box n) :=
  times.flatMap fun t => beams.zipIdx.map fun p => L.srcBox p.2 p.1 t

/-- One pass of `refine_mesh`, `adamantine.hh:639-675`. -/
noncomputable def refinePass (L : Lib n T) (c : Conf n) (boxes : List (Box n)) (m : Member n T) : Member n T :=
  let f := L.exec (passFlags c.coarsenAfterBeam c.nRefinements boxes) m.mesh.forest
  let mesh : Mesh n := ⟨f, L.inherit m.mesh.forest m.mesh.material f⟩
  ⟨m.db, mesh, L.move m.mesh mesh m.temp⟩

/-- `refine_mesh` for a member, `adamantine.hh:2039-2044`. -/
noncomputable def refineMember (L : Lib n T) (c : Conf n) (boxes : List (Box n)) (m : Member n T) : Member n T :=
  (refinePass L c boxes)^[c.nRefinements] m

open Classical in
/-- Activation of the boxes `s ≤ i < e` for a member, `adamantine.hh:2087-2134`: the cells with a point in common with one of the
boxes get material. -/
noncomputable def activate (L : Lib n T) (c : Conf n) (boxes : List (Box n)) (s e : ℕ) (m : Member n T) : Member n T :=
  let mesh : Mesh n := ⟨m.mesh.forest, fun b => m.mesh.material b ||
    decide (L.within (child c.base "geometry") b = true ∧ ∃ q ∈ (boxes.take e).drop s, b.meets q)⟩
  ⟨m.db, mesh, L.add ((m.db "materials.new_material_temperature").getD 300) m.mesh mesh m.temp⟩

/-- One iteration for a member, `adamantine.hh:2026-2160`: refinement with the bounding sources, activation, time step. -/
noncomputable def memberStep (L : Lib n T) (c : Conf n) (beams : List Beam) (boxes : List (Box n)) (ev : Ev ℝ) (m : Member n T) :
    Member n T :=
  let m1 := match ev.samples with
    | none => m
    | some ts => refineMember L c (sourceBoxes L beams ts) m
  let m2 := match ev.activated with
    | none => m1
    | some p => if p.1 < p.2 then activate L c boxes p.1 p.2 m1 else m1
  ⟨m2.db, m2.mesh,
    L.evolve (child c.base "materials") (child c.base "boundary") (child m2.db "sources") m2.mesh ev.start ev.dt m2.temp⟩

/-- One iteration of a group up to the time step, `adamantine.hh:1956-2160`. -/
noncomputable def groupStep (L : Lib n T) (c : Conf n) (beams : List Beam) (dep : List (Box n × ℝ)) (G : Group n T) : Group n T :=
  let cfg : Cfg ℝ := { c.cfg with thermal := true, depTimes := dep.map Prod.snd }
  if G.loop.time < cfg.duration then
    ⟨(iter cfg G.loop).1, G.members.map (memberStep L c beams (dep.map Prod.fst) (iter cfg G.loop).2)⟩
  else G

/-- `database_ensemble[member].put(key, value)` for an augmented parameter, `adamantine.hh:2318-2334`. -/
noncomputable def putSome (d : Db) (key : String) (v : Option ℝ) : Db :=
  match v with
  | none => d
  | some x => d.put key x

/-- What the analysis sees. -/
def viewOf (m : Member n T) : View n T :=
  ⟨m.mesh, m.temp, m.db "sources.beam_0.absorption_efficiency", m.db "sources.beam_0.max_power"⟩

/-- The analysis step for all members, `adamantine.hh:2163-2380`. -/
noncomputable def analyse (L : Lib n T) (k : ℕ) (gs : List (Group n T)) : List (Group n T) :=
  let views := gs.map fun G => G.members.map viewOf
  gs.mapIdx fun g G => ⟨G.loop, G.members.mapIdx fun i m =>
    let r := L.assim k views g i
    ⟨putSome (putSome m.db "sources.beam_0.absorption_efficiency" r.absorption) "sources.beam_0.max_power" r.maxPower, m.mesh, r.temp⟩⟩

open Classical in
/-- Iteration `k` of all groups. -/
noncomputable def step (L : Lib n T) (c : Conf n) (dbs : List (List Db)) (k : ℕ) (gs : List (Group n T)) : List (Group n T) :=
  if ∃ G ∈ gs, G.loop.time < c.cfg.duration then
    analyse L k (gs.mapIdx fun g G => groupStep L c (bounding c dbs g) (c.dep g k) G)
  else gs

/-- The whole ensemble before iteration `k`. -/
noncomputable def state (L : Lib n T) (c : Conf n) (dbs : List (List Db)) (gs : List (Group n T)) : ℕ → List (Group n T)
  | 0 => gs
  | k + 1 => step L c dbs k (state L c dbs gs k)

/-! ## Specification -/

/-- All members of all groups have the same mesh and the same cells with material, and all groups the same time and step. -/
def Agree (gs : List (Group n T)) : Prop :=
  ∀ G ∈ gs, ∀ G' ∈ gs, G.loop = G'.loop ∧ ∀ m ∈ G.members, ∀ m' ∈ G'.members, m.mesh = m'.mesh

/-! ## Lemmas -/

/-- The mesh of one pass. -/
noncomputable def passMesh (L : Lib n T) (c : Conf n) (boxes : List (Box n)) (M : Mesh n) : Mesh n :=
  ⟨L.exec (passFlags c.coarsenAfterBeam c.nRefinements boxes) M.forest,
    L.inherit M.forest M.material (L.exec (passFlags c.coarsenAfterBeam c.nRefinements boxes) M.forest)⟩

theorem refineMember_mesh (L : Lib n T) (c : Conf n) (boxes : List (Box n)) (m : Member n T) :
    (refineMember L c boxes m).mesh = (passMesh L c boxes)^[c.nRefinements] m.mesh := by
  unfold refineMember
  have : Function.Semiconj (Member.mesh (n := n) (T := T)) (refinePass L c boxes) (passMesh L c boxes) := fun m => rfl
  exact (this.iterate_right c.nRefinements) m

theorem refineMember_db (L : Lib n T) (c : Conf n) (boxes : List (Box n)) (m : Member n T) :
    (refineMember L c boxes m).db = m.db := by
  unfold refineMember
  have : Function.Semiconj (Member.db (n := n) (T := T)) (refinePass L c boxes) id := fun m => rfl
  have h := (this.iterate_right c.nRefinements) m
  simpa using h

theorem memberStep_mesh (L : Lib n T) (c : Conf n) (beams : List Beam) (boxes : List (Box n)) (ev : Ev ℝ) (m m' : Member n T)
    (h : m.mesh = m'.mesh) : (memberStep L c beams boxes ev m).mesh = (memberStep L c beams boxes ev m').mesh := by
  have h1 : ∀ boxes, (refineMember L c boxes m).mesh = (refineMember L c boxes m').mesh := fun boxes => by
    rw [refineMember_mesh, refineMember_mesh, h]
  have h2 : ∀ (s e : ℕ) (a b : Member n T), a.mesh = b.mesh → (activate L c boxes s e a).mesh = (activate L c boxes s e b).mesh := by
    intro s e a b hab
    simp only [activate, hab]
  unfold memberStep
  cases hs : ev.samples with
  | none =>
    cases ha : ev.activated with
    | none => exact h
    | some p =>
      dsimp only
      by_cases hp : p.1 < p.2
      · simp only [if_pos hp]; exact h2 _ _ _ _ h
      · simp only [if_neg hp]; exact h
  | some ts =>
    cases ha : ev.activated with
    | none => exact h1 _
    | some p =>
      dsimp only
      by_cases hp : p.1 < p.2
      · simp only [if_pos hp]; exact h2 _ _ _ _ (h1 _)
      · simp only [if_neg hp]; exact h1 _

theorem boundingLoop_types (entries : List (List (ℝ × ℝ))) (k : ℕ) (a b : List Beam) (h : a.map (·.type) = b.map (·.type))
    (hc : ∀ x ∈ a, x.type ≠ .cube) : Ensemble.boundingLoop entries k a = Ensemble.boundingLoop entries k b := by
  induction a generalizing b k with
  | nil =>
    cases b with
    | nil => rfl
    | cons y ys => simp at h
  | cons x xs ih =>
    cases b with
    | nil => simp at h
    | cons y ys =>
      simp only [List.map_cons, List.cons.injEq] at h
      have hx : x.type ≠ .cube := hc x (by simp)
      have hy : y.type ≠ .cube := h.1 ▸ hx
      rw [Ensemble.boundingLoop, Ensemble.boundingLoop, if_neg hx, if_neg hy, h.1, ih (k + 1) ys h.2 fun z hz => hc z (by simp [hz])]

theorem beamsOf_types (types : List BeamType) (s : Db) : (beamsOf types s).map (·.type) = types := by
  unfold beamsOf
  rw [List.map_map]
  have : ((fun b : Beam => b.type) ∘ fun p : BeamType × ℕ =>
      (⟨p.1, (s ("beam_" ++ toString p.2 ++ ".diameter")).getD 0, (s ("beam_" ++ toString p.2 ++ ".depth")).getD 0⟩ : Beam)) = Prod.fst := rfl
  rw [this]
  exact List.zipIdx_map_fst 0 types

theorem bounding_eq (c : Conf n) (hc : BeamType.cube ∉ c.types) (dbs : List (List Db)) (g g' : ℕ) :
    bounding c dbs g = bounding c dbs g' := by
  unfold bounding boundingSources
  refine boundingLoop_types _ _ _ _ ?_ ?_
  · rw [beamsOf_types, beamsOf_types]
  · intro x hx hcube
    apply hc
    rw [← beamsOf_types c.types (child (((dbs[g]?).getD []).head?.getD c.base) "sources")]
    exact List.mem_map.2 ⟨x, hx, hcube⟩

theorem analyse_agree (L : Lib n T) (k : ℕ) (gs : List (Group n T)) (h : Agree gs) : Agree (analyse L k gs) := by
  intro G hG G' hG'
  simp only [analyse, List.mem_mapIdx] at hG hG'
  obtain ⟨i, hi, rfl⟩ := hG
  obtain ⟨j, hj, rfl⟩ := hG'
  obtain ⟨h1, h2⟩ := h gs[i] (List.getElem_mem hi) gs[j] (List.getElem_mem hj)
  refine ⟨h1, ?_⟩
  intro m hm m' hm'
  simp only [List.mem_mapIdx] at hm hm'
  obtain ⟨a, ha, rfl⟩ := hm
  obtain ⟨b, hb, rfl⟩ := hm'
  exact h2 gs[i].members[a] (List.getElem_mem ha) gs[j].members[b] (List.getElem_mem hb)

theorem groupStep_agree (L : Lib n T) (c : Conf n) (beams : List Beam) (dep : List (Box n × ℝ)) (G G' : Group n T)
    (h : G.loop = G'.loop ∧ ∀ m ∈ G.members, ∀ m' ∈ G'.members, m.mesh = m'.mesh) :
    (groupStep L c beams dep G).loop = (groupStep L c beams dep G').loop ∧
    ∀ m ∈ (groupStep L c beams dep G).members, ∀ m' ∈ (groupStep L c beams dep G').members, m.mesh = m'.mesh := by
  obtain ⟨h1, h2⟩ := h
  unfold groupStep
  rw [h1]
  by_cases hr : G'.loop.time < c.cfg.duration
  · simp only [if_pos hr, true_and]
    intro m hm m' hm'
    obtain ⟨a, ha, rfl⟩ := List.mem_map.1 hm
    obtain ⟨b, hb, rfl⟩ := List.mem_map.1 hm'
    exact memberStep_mesh L c beams _ _ a b (h2 a ha b hb)
  · simp only [if_neg hr]
    exact ⟨h1, h2⟩

/-! ## C122 -/

/-- C122: from a state in which all members have the same mesh (a fresh start, or a restart from the checkpoints of one step) they
keep the same mesh, the same cells with material, the same time and the same step number in every iteration, whatever the solution
of the members and the assimilated data are, if the groups use the same deposition boxes and no heat source is a cube. -/
theorem C122_kept_partial (L : Lib n T) (c : Conf n) (dbs : List (List Db)) (gs : List (Group n T)) (hcube : BeamType.cube ∉ c.types)
    (hdep : ∀ g g' k, c.dep g k = c.dep g' k) (h : Agree gs) (k : ℕ) : Agree (state L c dbs gs k) := by
  classical
  induction k with
  | zero => exact h
  | succ k ih =>
    rw [state, step]
    by_cases hr : ∃ G ∈ state L c dbs gs k, G.loop.time < c.cfg.duration
    · rw [if_pos hr]
      apply analyse_agree
      intro G hG G' hG'
      rw [List.mem_mapIdx] at hG hG'
      obtain ⟨i, hi, rfl⟩ := hG
      obtain ⟨j, hj, rfl⟩ := hG'
      rw [bounding_eq c hcube dbs i 0, bounding_eq c hcube dbs j 0, hdep i 0 k, hdep j 0 k]
      exact groupStep_agree L c _ _ _ _ (ih _ (List.getElem_mem hi) _ (List.getElem_mem hj))
    · rw [if_neg hr]
      exact ih

/-- C122 for a fresh start: it suffices that the material height is the same in all member databases. -/
theorem C122_same_mesh_partial (L : Lib n T) (c : Conf n) (dbs : List (List Db)) (hcube : BeamType.cube ∉ c.types)
    (hdep : ∀ g g' k, c.dep g k = c.dep g' k)
    (hheight : ∀ ds ∈ dbs, ∀ d ∈ ds, d "geometry.material_height" = c.base "geometry.material_height") (k : ℕ) :
    Agree (state L c dbs (start L c dbs) k) := by
  refine C122_kept_partial L c dbs _ hcube hdep ?_ k
  intro G hG G' hG'
  simp only [start, List.mem_map] at hG hG'
  obtain ⟨ds, hds, rfl⟩ := hG
  obtain ⟨ds', hds', rfl⟩ := hG'
  refine ⟨rfl, ?_⟩
  intro m hm m' hm'
  obtain ⟨d, hd, rfl⟩ := List.mem_map.1 hm
  obtain ⟨d', hd', rfl⟩ := List.mem_map.1 hm'
  simp only [startMember, hheight ds hds d hd, hheight ds' hds' d' hd']

/-- C122 in terms of the input: the databases are those that `create_database_ensemble` draws in each group; no leaf of the section
`ensemble` is `geometry.material_height_stddev`. -/
theorem C122_input_partial (L : Lib n T) (c : Conf n) (z : ℕ → ℝ) (ens : List Ensemble.Tree) (total : ℕ) (first size : ℕ → ℕ)
    (dbs : List (List Db)) (ps : List String) (hkeys : Ensemble.NoEmptyKeys ens)
    (hleaves : Ensemble.paramLeaves ens = ps.map (· ++ "_stddev")) (hnd : ps.Nodup)
    (hcomp : ∀ p ∈ ps, ∀ q ∈ ps, p ≠ "ensemble." ++ q ++ "_stddev")
    (hdbs : ∀ (g : ℕ) (ds : List Db), dbs[g]? = some ds → 0 < size g ∧ Ensemble.createDatabases z c.base ens (first g) (size g) total = some ds)
    (hheight : "geometry.material_height" ∉ ps) (hcube : BeamType.cube ∉ c.types) (hdep : ∀ g g' k, c.dep g k = c.dep g' k) (k : ℕ) :
    Agree (state L c dbs (start L c dbs) k) := by
  refine C122_same_mesh_partial L c dbs hcube hdep ?_ k
  intro ds hds d hd
  obtain ⟨g, hg⟩ := List.getElem?_of_mem hds
  obtain ⟨m, hm⟩ := List.getElem?_of_mem hd
  obtain ⟨h1, h2⟩ := hdbs g ds hg
  exact ((Ensemble.C28_databases z c.base ens (first g) (size g) total h1 ps hkeys hleaves hnd hcomp ds h2).2 m d hm).1 _ hheight

/-- C122 is violated if the material height is perturbed: it is read from the database of the member, so as soon as the centre of a
cell lies between the heights of two members these start with different cells with material, and the data assimilation, which uses
the degrees of freedom of the first member for all of them, is given vectors of other meshes. -/
theorem C122_height_refuted (L : Lib n T) (c : Conf n) (dbs : List (List Db)) (ds ds' : List Db) (hds : ds ∈ dbs) (hds' : ds' ∈ dbs)
    (d d' : Db) (hd : d ∈ ds) (hd' : d' ∈ ds') (h h' : ℝ) (hh : d "geometry.material_height" = some h)
    (hh' : d' "geometry.material_height" = some h') (b : Box n) (l : ℕ) (_hb : ActiveCell (L.coarse (child c.base "geometry")) b l)
    (h1 : h ≤ (b.lo c.axis + b.hi c.axis) / 2) (h2 : (b.lo c.axis + b.hi c.axis) / 2 < h') : ¬ Agree (start L c dbs) := by
  intro ha
  have hG : (⟨Driver.start c.cfg, ds.map (startMember L c)⟩ : Group n T) ∈ start L c dbs := List.mem_map.2 ⟨ds, hds, rfl⟩
  have hG' : (⟨Driver.start c.cfg, ds'.map (startMember L c)⟩ : Group n T) ∈ start L c dbs := List.mem_map.2 ⟨ds', hds', rfl⟩
  have hm := (ha _ hG _ hG').2 (startMember L c d) (List.mem_map.2 ⟨d, hd, rfl⟩) (startMember L c d') (List.mem_map.2 ⟨d', hd', rfl⟩)
  have := congrFun (congrArg Mesh.material hm) b
  simp only [startMember, hh, hh', Option.getD_some, h2, decide_true, decide_eq_true_eq] at this
  linarith

/-! ## Every beam of every member is resolved on every mesh -/

/-- The contract of `execute_coarsening_and_refinement` (see `Adapts`), for the flags `refine_mesh` sets. -/
def Executes (L : Lib n T) (c : Conf n) : Prop :=
  ∀ (boxes : List (Box n)) (f : Forest n),
    List.Forall₂ (fun x y : Box n × Tree n => x.1 = y.1 ∧ Adapts (passFlags c.coarsenAfterBeam c.nRefinements boxes) c.nRefinements x.1 0 x.2 y.2)
      f (L.exec (passFlags c.coarsenAfterBeam c.nRefinements boxes) f)

theorem forall₂_passes (L : Lib n T) (c : Conf n) (hx : Executes L c) (boxes : List (Box n)) (j : ℕ) (M : Mesh n) :
    List.Forall₂ (fun x y : Box n × Tree n => x.1 = y.1 ∧ Passes c.coarsenAfterBeam c.nRefinements boxes x.1 j x.2 y.2) M.forest
      ((passMesh L c boxes)^[j] M).forest := by
  induction j with
  | zero => exact List.forall₂_same.2 fun x _ => ⟨rfl, .zero _⟩
  | succ j ih =>
    rw [Function.iterate_succ_apply']
    have h2 := hx boxes ((passMesh L c boxes)^[j] M).forest
    change List.Forall₂ _ M.forest (L.exec _ ((passMesh L c boxes)^[j] M).forest)
    generalize ((passMesh L c boxes)^[j] M).forest = F at ih h2
    generalize L.exec (passFlags c.coarsenAfterBeam c.nRefinements boxes) F = F' at h2
    clear hx
    generalize M.forest = F0 at ih ⊢
    induction ih generalizing F' with
    | nil => cases h2; exact .nil
    | cons hd _ ih2 =>
      cases h2 with
      | cons hd' tl' =>
        refine .cons ⟨hd.1.trans hd'.1, .succ j _ _ _ hd.2 ?_⟩ (ih2 _ tl')
        rw [hd.1]
        exact hd'.2

theorem refineMember_refines (L : Lib n T) (c : Conf n) (hx : Executes L c) (boxes : List (Box n)) (m : Member n T) :
    RefineMesh c.coarsenAfterBeam c.nRefinements boxes m.mesh.forest (refineMember L c boxes m).mesh.forest := by
  rw [refineMember_mesh]
  exact forall₂_passes L c hx boxes c.nRefinements m.mesh

/-- The mesh of a member has proper cells, none of them finer than `n_refinements`. -/
def Sound (N : ℕ) (M : Mesh n) : Prop := (∀ x ∈ M.forest, x.1.Proper) ∧ ∀ b l, ActiveCell M.forest b l → l ≤ N

theorem memberStep_forest (L : Lib n T) (c : Conf n) (beams : List Beam) (boxes : List (Box n)) (ev : Ev ℝ) (m : Member n T) :
    (ev.samples = none → (memberStep L c beams boxes ev m).mesh.forest = m.mesh.forest) ∧
    ∀ ts, ev.samples = some ts → (memberStep L c beams boxes ev m).mesh.forest =
      (refineMember L c (sourceBoxes L beams ts) m).mesh.forest := by
  have hact : ∀ (s e : ℕ) (a : Member n T), (activate L c boxes s e a).mesh.forest = a.mesh.forest := fun _ _ _ => rfl
  unfold memberStep
  constructor
  · intro hs
    rw [hs]
    cases ev.activated with
    | none => rfl
    | some p =>
      dsimp only
      by_cases hp : p.1 < p.2
      · rw [if_pos hp, hact]
      · rw [if_neg hp]
  · intro ts hs
    rw [hs]
    cases ev.activated with
    | none => rfl
    | some p =>
      dsimp only
      by_cases hp : p.1 < p.2
      · rw [if_pos hp, hact]
      · rw [if_neg hp]

/-- The boxes of sources with non-negative diameter and depth are proper. -/
def ProperSources (L : Lib n T) : Prop := ∀ (i : ℕ) (b : Beam) (t : ℝ), 0 ≤ b.diameter → 0 ≤ b.depth → (L.srcBox i b t).Proper

/-- A non-empty ensemble whose beams have non-negative diameters. -/
def BeamsOk (c : Conf n) (dbs : List (List Db)) : Prop :=
  (∃ ds ∈ dbs, ds ≠ []) ∧ ∀ ds ∈ dbs, ∀ d ∈ ds, ∀ b ∈ beamsOf c.types (child d "sources"), 0 ≤ b.diameter ∧ 0 ≤ b.depth

theorem types_gathered (c : Conf n) (dbs : List (List Db)) (g : ℕ) :
    ∀ r ∈ dbs.map (fun ds => ds.map fun d => beamsOf c.types (child d "sources")), ∀ m ∈ r, m.map (·.type) =
      (beamsOf c.types (child (((dbs[g]?).getD []).head?.getD c.base) "sources")).map (·.type) := by
  intro r hr m hm
  obtain ⟨ds, _, rfl⟩ := List.mem_map.1 hr
  obtain ⟨d, _, rfl⟩ := List.mem_map.1 hm
  rw [beamsOf_types, beamsOf_types]

theorem bounding_nonneg (c : Conf n) (dbs : List (List Db)) (hcube : BeamType.cube ∉ c.types) (hok : BeamsOk c dbs) (g : ℕ) :
    ∀ b ∈ bounding c dbs g, 0 ≤ b.diameter ∧ 0 ≤ b.depth := by
  obtain ⟨⟨ds, hds, hne⟩, hpos⟩ := hok
  obtain ⟨d, hd⟩ := List.exists_mem_of_ne_nil ds hne
  have hmem1 : (ds.map fun d => beamsOf c.types (child d "sources")) ∈ dbs.map (fun ds => ds.map fun d => beamsOf c.types (child d "sources")) :=
    List.mem_map.2 ⟨ds, hds, rfl⟩
  have hmem2 : beamsOf c.types (child d "sources") ∈ ds.map fun d => beamsOf c.types (child d "sources") := List.mem_map.2 ⟨d, hd, rfl⟩
  have hA := Ensemble.C29_diameter_partial _ _ (types_gathered c dbs g) _ hmem1 _ hmem2
  have hp := hpos ds hds d hd
  have hty : ∀ b ∈ beamsOf c.types (child d "sources"), b.type ≠ .cube := by
    intro b hb hc
    apply hcube
    rw [← beamsOf_types c.types (child d "sources")]
    exact List.mem_map.2 ⟨b, hb, hc⟩
  change List.Forall₂ _ (bounding c dbs g) _ at hA
  generalize bounding c dbs g = S at hA
  clear hmem2 hmem1
  generalize beamsOf c.types (child d "sources") = B at hA hp hty
  induction hA with
  | nil => intro b hb; cases hb
  | cons h1 _ ih =>
    intro b hb
    rcases List.mem_cons.1 hb with rfl | hb
    · have h2 := h1.2 (hty _ (by simp))
      have h3 := (hp _ (List.mem_cons_self ..)).1
      exact ⟨h3.trans h2.1, h3.trans h2.2⟩
    · exact ih (fun b hb => hp b (List.mem_cons_of_mem _ hb)) (fun b hb => hty b (List.mem_cons_of_mem _ hb)) b hb

theorem sourceBoxes_proper (L : Lib n T) (hp : ProperSources L) (beams : List Beam)
    (hb : ∀ b ∈ beams, 0 ≤ b.diameter ∧ 0 ≤ b.depth) (ts : List ℝ) :
    ∀ q ∈ sourceBoxes L beams ts, q.Proper := by
  intro q hq
  simp only [sourceBoxes, List.mem_flatMap, List.mem_map] at hq
  obtain ⟨t, _, p, hpm, rfl⟩ := hq
  have := hb p.1 (List.mem_of_getElem? (List.mem_zipIdx_iff_getElem?.1 hpm))
  exact hp _ _ _ this.1 this.2

theorem memberStep_sound (L : Lib n T) (c : Conf n) (hx : Executes L c) (hp : ProperSources L) (beams : List Beam)
    (hb : ∀ b ∈ beams, 0 ≤ b.diameter ∧ 0 ≤ b.depth) (boxes : List (Box n)) (ev : Ev ℝ) (m : Member n T) (h : Sound c.nRefinements m.mesh) :
    Sound c.nRefinements (memberStep L c beams boxes ev m).mesh := by
  obtain ⟨h1, h2⟩ := memberStep_forest L c beams boxes ev m
  unfold Sound
  cases hs : ev.samples with
  | none => rw [h1 hs]; exact h
  | some ts =>
    rw [h2 ts hs]
    obtain ⟨a, b, _⟩ := C21_refine_mesh c.coarsenAfterBeam c.nRefinements _ (sourceBoxes_proper L hp beams hb ts) _ _ h.1 h.2
      (refineMember_refines L c hx (sourceBoxes L beams ts) m)
    refine ⟨fun x hxm => ?_, b⟩
    have : x.1 ∈ (refineMember L c (sourceBoxes L beams ts) m).mesh.forest.map Prod.fst := List.mem_map.2 ⟨x, hxm, rfl⟩
    rw [a] at this
    obtain ⟨y, hy, hyx⟩ := List.mem_map.1 this
    rw [← hyx]
    exact h.1 y hy

theorem analyse_getElem (L : Lib n T) (k : ℕ) (gs : List (Group n T)) (g : ℕ) (G' : Group n T) (h : (analyse L k gs)[g]? = some G') :
    ∃ G, gs[g]? = some G ∧ G'.loop = G.loop ∧ ∀ m' ∈ G'.members, ∃ m ∈ G.members, m'.mesh = m.mesh := by
  simp only [analyse, List.getElem?_mapIdx, Option.map_eq_some_iff] at h
  obtain ⟨G, hG, rfl⟩ := h
  refine ⟨G, hG, rfl, ?_⟩
  intro m' hm'
  simp only [List.mem_mapIdx] at hm'
  obtain ⟨a, ha, rfl⟩ := hm'
  exact ⟨G.members[a], List.getElem_mem ha, rfl⟩

/-- One iteration of a running group, in terms of the meshes. -/
theorem state_succ (L : Lib n T) (c : Conf n) (dbs : List (List Db)) (gs : List (Group n T)) (k g : ℕ) (G' : Group n T)
    (h : (state L c dbs gs (k + 1))[g]? = some G') :
    ∃ G, (state L c dbs gs k)[g]? = some G ∧
      (¬ G.loop.time < c.cfg.duration → G'.loop = G.loop ∧ ∀ m' ∈ G'.members, ∃ m ∈ G.members, m'.mesh = m.mesh) ∧
      (G.loop.time < c.cfg.duration →
        let cfg : Cfg ℝ := { c.cfg with thermal := true, depTimes := (c.dep g k).map Prod.snd }
        G'.loop = (iter cfg G.loop).1 ∧ ∀ m' ∈ G'.members, ∃ m ∈ G.members,
          m'.mesh = (memberStep L c (bounding c dbs g) ((c.dep g k).map Prod.fst) (iter cfg G.loop).2 m).mesh) := by
  classical
  rw [state, step] at h
  by_cases hr : ∃ G ∈ state L c dbs gs k, G.loop.time < c.cfg.duration
  · rw [if_pos hr] at h
    obtain ⟨H, hH, h1, h2⟩ := analyse_getElem L k _ g G' h
    rw [List.getElem?_mapIdx, Option.map_eq_some_iff] at hH
    obtain ⟨G, hG, rfl⟩ := hH
    refine ⟨G, hG, ?_, ?_⟩
    · intro hn
      simp only [groupStep, if_neg hn] at h1 h2
      exact ⟨h1, h2⟩
    · intro hlt
      simp only [groupStep, if_pos hlt] at h1 h2
      refine ⟨h1, ?_⟩
      intro m' hm'
      obtain ⟨m, hm, he⟩ := h2 m' hm'
      obtain ⟨a, ha, rfl⟩ := List.mem_map.1 hm
      exact ⟨a, ha, he⟩
  · rw [if_neg hr] at h
    refine ⟨G', h, fun _ => ⟨rfl, fun m hm => ⟨m, hm, rfl⟩⟩, ?_⟩
    intro hlt
    exact absurd ⟨G', List.mem_of_getElem? h, hlt⟩ hr

theorem state_sound (L : Lib n T) (c : Conf n) (hx : Executes L c) (hp : ProperSources L) (dbs : List (List Db))
    (hcube : BeamType.cube ∉ c.types) (hok : BeamsOk c dbs) (hcoarse : ∀ x ∈ L.coarse (child c.base "geometry"), x.1.Proper ∧ x.2 = .leaf) (k : ℕ) :
    ∀ (g : ℕ) (G : Group n T), (state L c dbs (start L c dbs) k)[g]? = some G → ∀ m ∈ G.members, Sound c.nRefinements m.mesh := by
  induction k with
  | zero =>
    intro g G hG m hm
    simp only [state, start, List.getElem?_map, Option.map_eq_some_iff] at hG
    obtain ⟨ds, _, rfl⟩ := hG
    obtain ⟨d, _, rfl⟩ := List.mem_map.1 hm
    refine ⟨fun x hxm => (hcoarse x hxm).1, ?_⟩
    rintro b l ⟨x, hxm, hl⟩
    rw [(hcoarse x hxm).2] at hl
    cases hl
    exact Nat.zero_le _
  | succ k ih =>
    intro g G' hG' m' hm'
    obtain ⟨G, hG, h1, h2⟩ := state_succ L c dbs _ k g G' hG'
    by_cases hlt : G.loop.time < c.cfg.duration
    · obtain ⟨m, hm, he⟩ := (h2 hlt).2 m' hm'
      rw [he]
      exact memberStep_sound L c hx hp _ (bounding_nonneg c dbs hcube hok g) _ _ m (ih g G hG m hm)
    · obtain ⟨m, hm, he⟩ := (h1 hlt).2 m' hm'
      rw [he]
      exact ih g G hG m hm

/-- C122: in an iteration in which the mesh is refined, every cell of every member's mesh that has a point in common with the box
of a beam of **any** member of the ensemble at one of the sampled times is on the finest level.  Partial: no cube sources, and every
beam is at least as wide as it is deep (`C29_depth_refuted`); the box of a source grows with its diameter and depth (`hmono`, for the
sources of the code see the example below). -/
theorem C122_beams_resolved_partial (L : Lib n T) (c : Conf n) (hx : Executes L c) (hp : ProperSources L)
    (hmono : ∀ (i : ℕ) (b b' : Beam) (t : ℝ), b.type = b'.type → b.diameter ≤ b'.diameter → b.depth ≤ b'.depth →
      ∀ d, (L.srcBox i b' t).lo d ≤ (L.srcBox i b t).lo d ∧ (L.srcBox i b t).hi d ≤ (L.srcBox i b' t).hi d)
    (dbs : List (List Db)) (hcube : BeamType.cube ∉ c.types) (hok : BeamsOk c dbs)
    (hshallow : ∀ ds ∈ dbs, ∀ d ∈ ds, ∀ b ∈ beamsOf c.types (child d "sources"), b.depth ≤ b.diameter)
    (hcoarse : ∀ x ∈ L.coarse (child c.base "geometry"), x.1.Proper ∧ x.2 = .leaf)
    (k g : ℕ) (G G' : Group n T) (hG : (state L c dbs (start L c dbs) k)[g]? = some G)
    (hG' : (state L c dbs (start L c dbs) (k + 1))[g]? = some G') (hrun : G.loop.time < c.cfg.duration)
    (hrefine : G.loop.n = 1 ∨ G.loop.n % c.cfg.refineEvery = 0)
    (m : Member n T) (hm : m ∈ G'.members) (b : Box n) (l : ℕ) (hb : ActiveCell m.mesh.forest b l)
    (ds : List Db) (hds : ds ∈ dbs) (d : Db) (hd : d ∈ ds) (i : ℕ) (s : Beam) (hs : (beamsOf c.types (child d "sources"))[i]? = some s)
    (j : ℕ) (hj : j < c.cfg.refineEvery) (htouch : b.Touches (L.srcBox i s (G.loop.time + (j : ℝ) * G'.loop.dt))) :
    l = c.nRefinements := by
  obtain ⟨G0, hG0, -, h2⟩ := state_succ L c dbs _ k g G' hG'
  obtain rfl : G0 = G := Option.some.inj (hG0.symm.trans hG)
  obtain ⟨hloop, hmesh⟩ := h2 hrun
  obtain ⟨m0, hm0, he⟩ := hmesh m hm
  have hsound := state_sound L c hx hp dbs hcube hok hcoarse k g G0 hG m0 hm0
  set cfg : Cfg ℝ := { c.cfg with thermal := true, depTimes := (c.dep g k).map Prod.snd } with hcfg
  have hdt : G'.loop.dt = (iter cfg G0.loop).2.dt := by rw [hloop]; rfl
  have hsamples : (iter cfg G0.loop).2.samples = some (Driver.refinementSamples G0.loop.time G'.loop.dt c.cfg.refineEvery) := by
    rw [hdt]
    simp only [iter, hcfg, and_true, if_pos hrefine]
  rw [he, (memberStep_forest L c _ _ _ m0).2 _ hsamples] at hb
  refine (C21_refine_mesh c.coarsenAfterBeam c.nRefinements _ (sourceBoxes_proper L hp _ (bounding_nonneg c dbs hcube hok g) _) _ _ hsound.1 hsound.2
    (refineMember_refines L c hx _ m0)).2.2 b l hb ?_
  -- the bounding source
  have hty := types_gathered c dbs g
  have hsh : ∀ r ∈ dbs.map (fun ds => ds.map fun d => beamsOf c.types (child d "sources")), ∀ m ∈ r, ∀ b ∈ m, b.depth ≤ b.diameter := by
    intro r hr m hm b hb
    obtain ⟨ds, hds, rfl⟩ := List.mem_map.1 hr
    obtain ⟨d, hd, rfl⟩ := List.mem_map.1 hm
    exact hshallow ds hds d hd b hb
  have hmem1 : (ds.map fun d => beamsOf c.types (child d "sources")) ∈ dbs.map (fun ds => ds.map fun d => beamsOf c.types (child d "sources")) :=
    List.mem_map.2 ⟨ds, hds, rfl⟩
  have hmem2 : beamsOf c.types (child d "sources") ∈ ds.map fun d => beamsOf c.types (child d "sources") := List.mem_map.2 ⟨d, hd, rfl⟩
  have hA := Ensemble.C29_diameter_partial _ _ hty _ hmem1 _ hmem2
  have hB := Ensemble.C29_depth_partial _ _ hty hsh _ hmem1 _ hmem2
  have hi : i < (beamsOf c.types (child d "sources")).length := (List.getElem?_eq_some_iff.1 hs).1
  have hlen := hA.length_eq
  have hi' : i < (bounding c dbs g).length := by
    change i < (boundingSources _ _).length
    rw [hlen]; exact hi
  have hsi : (beamsOf c.types (child d "sources"))[i] = s := (List.getElem?_eq_some_iff.1 hs).2
  have hne : s.type ≠ .cube := by
    intro hc
    apply hcube
    rw [← beamsOf_types c.types (child d "sources")]
    exact List.mem_map.2 ⟨s, List.mem_of_getElem? hs, hc⟩
  have h1 := hA.get hi' hi
  have h2 := hB.get hi' hi
  simp only [List.get_eq_getElem, hsi] at h1 h2
  have hbig := hmono i s ((bounding c dbs g)[i]) (G0.loop.time + (j : ℝ) * G'.loop.dt) h1.1.symm (h2 hne).1 (h2 hne).2
  refine ⟨L.srcBox i (bounding c dbs g)[i] (G0.loop.time + (j : ℝ) * G'.loop.dt), ?_, ?_⟩
  · simp only [sourceBoxes, List.mem_flatMap, List.mem_map]
    refine ⟨_, ?_, ((bounding c dbs g)[i], i), ?_, rfl⟩
    · simp only [Driver.refinementSamples, List.mem_map, List.mem_range]
      refine ⟨j, hj, ?_⟩
      have hR : (c.cfg.refineEvery : ℝ) ≠ 0 := by
        have : 0 < c.cfg.refineEvery := by omega
        exact_mod_cast this.ne'
      field_simp
      ring
    · rw [List.mem_zipIdx_iff_getElem?]
      exact List.getElem?_eq_getElem hi'
  · obtain ⟨x, hx1, hx2⟩ := htouch
    exact ⟨x, hx1, fun e => ⟨(hbig e).1.trans (hx2 e).1, (hx2 e).2.trans (hbig e).2⟩⟩

/-! ## C123: which perturbed parameters reach the simulation -/

/-- The entries of a member's database that its simulation uses: the section `sources` and three more. -/
def Used (key : String) : Prop :=
  (∃ r, key = "sources." ++ r) ∨ key = "materials.initial_temperature" ∨ key = "materials.new_material_temperature" ∨
    key = "geometry.material_height"

open Classical in
/-- A database without the other entries. -/
noncomputable def usedOnly (d : Db) : Db := fun k => if Used k then d k else none

theorem usedOnly_child (d : Db) : child (usedOnly d) "sources" = child d "sources" := by
  funext k
  unfold child usedOnly
  have hu : Used ("sources" ++ "." ++ k) := Or.inl ⟨k, rfl⟩
  rw [if_pos hu]

theorem usedOnly_put (d : Db) (k : String) (hk : Used k) (v : ℝ) : usedOnly (d.put k v) = (usedOnly d).put k v := by
  funext x
  unfold usedOnly Ensemble.Db.put
  by_cases h : x = k
  · subst h; simp [hk]
  · simp [h]

theorem usedOnly_putSome (d : Db) (k : String) (hk : Used k) (v : Option ℝ) : usedOnly (putSome d k v) = putSome (usedOnly d) k v := by
  cases v with
  | none => rfl
  | some x => exact usedOnly_put d k hk x

/-- A member without the other entries of its database. -/
noncomputable def strip (m : Member n T) : Member n T := ⟨usedOnly m.db, m.mesh, m.temp⟩

noncomputable def stripAll (gs : List (Group n T)) : List (Group n T) := gs.map fun G => ⟨G.loop, G.members.map strip⟩

theorem usedOnly_of (d : Db) (k : String) (h : Used k) : usedOnly d k = d k := if_pos h

theorem strip_start (L : Lib n T) (c : Conf n) (d : Db) : strip (startMember L c d) = startMember L c (usedOnly d) := by
  unfold strip startMember
  rw [usedOnly_of d _ (Or.inr (Or.inr (Or.inr rfl))), usedOnly_of d _ (Or.inr (Or.inl rfl))]

theorem strip_refine (L : Lib n T) (c : Conf n) (boxes : List (Box n)) (m : Member n T) :
    strip (refineMember L c boxes m) = refineMember L c boxes (strip m) := by
  have : Function.Semiconj (strip (n := n) (T := T)) (refinePass L c boxes) (refinePass L c boxes) := fun m => rfl
  exact (this.iterate_right c.nRefinements) m

theorem strip_activate (L : Lib n T) (c : Conf n) (boxes : List (Box n)) (s e : ℕ) (m : Member n T) :
    strip (activate L c boxes s e m) = activate L c boxes s e (strip m) := by
  have h := usedOnly_of m.db "materials.new_material_temperature" (Or.inr (Or.inr (Or.inl rfl)))
  simp only [activate, strip, h]

theorem strip_evolve (L : Lib n T) (c : Conf n) (m : Member n T) (t dt : ℝ) :
    strip (⟨m.db, m.mesh, L.evolve (child c.base "materials") (child c.base "boundary") (child m.db "sources") m.mesh t dt m.temp⟩ : Member n T) =
      ⟨(strip m).db, (strip m).mesh, L.evolve (child c.base "materials") (child c.base "boundary") (child (strip m).db "sources") (strip m).mesh t dt
        (strip m).temp⟩ := by
  unfold strip
  rw [usedOnly_child]

theorem strip_step (L : Lib n T) (c : Conf n) (beams : List Beam) (boxes : List (Box n)) (ev : Ev ℝ) (m : Member n T) :
    strip (memberStep L c beams boxes ev m) = memberStep L c beams boxes ev (strip m) := by
  unfold memberStep
  cases ev.samples with
  | none =>
    cases ev.activated with
    | none => exact strip_evolve L c m _ _
    | some p =>
      dsimp only
      by_cases hp : p.1 < p.2
      · simp only [if_pos hp]; rw [strip_evolve, strip_activate]
      · simp only [if_neg hp]; exact strip_evolve L c m _ _
  | some ts =>
    cases ev.activated with
    | none => dsimp only; rw [strip_evolve, strip_refine]
    | some p =>
      dsimp only
      by_cases hp : p.1 < p.2
      · simp only [if_pos hp]; rw [strip_evolve, strip_activate, strip_refine]
      · simp only [if_neg hp]; rw [strip_evolve, strip_refine]

theorem viewOf_strip (m : Member n T) : viewOf (strip m) = viewOf m := by
  have h1 := usedOnly_of m.db "sources.beam_0.absorption_efficiency" (Or.inl ⟨"beam_0.absorption_efficiency", by decide⟩)
  have h2 := usedOnly_of m.db "sources.beam_0.max_power" (Or.inl ⟨"beam_0.max_power", by decide⟩)
  simp only [viewOf, strip, h1, h2]

theorem strip_analyse (L : Lib n T) (k : ℕ) (gs : List (Group n T)) : stripAll (analyse L k gs) = analyse L k (stripAll gs) := by
  have hv : (stripAll gs).map (fun G => G.members.map viewOf) = gs.map fun G => G.members.map viewOf := by
    unfold stripAll
    rw [List.map_map]
    refine List.map_congr_left fun G _ => ?_
    simp only [Function.comp, List.map_map]
    exact List.map_congr_left fun m _ => viewOf_strip m
  apply List.ext_getElem?
  intro g
  simp only [analyse, hv]
  simp only [stripAll, List.getElem?_map, List.getElem?_mapIdx]
  cases gs[g]? with
  | none => rfl
  | some G =>
    simp only [Option.map_some]
    congr 2
    apply List.ext_getElem?
    intro i
    simp only [List.getElem?_map, List.getElem?_mapIdx]
    cases G.members[i]? with
    | none => rfl
    | some m =>
      simp only [Option.map_some, strip]
      rw [usedOnly_putSome _ _ (Or.inl ⟨"beam_0.max_power", by decide⟩),
        usedOnly_putSome _ _ (Or.inl ⟨"beam_0.absorption_efficiency", by decide⟩)]

theorem bounding_strip (c : Conf n) (dbs dbs' : List (List Db)) (h : dbs.map (fun ds => ds.map usedOnly) = dbs'.map (fun ds => ds.map usedOnly))
    (g : ℕ) : bounding c dbs g = bounding c dbs' g := by
  have key : ∀ dbs : List (List Db), bounding c dbs g = boundingSources
      ((dbs.map fun ds => ds.map usedOnly).map fun ds => ds.map fun d => beamsOf c.types (child d "sources"))
      (beamsOf c.types (child (((((dbs.map fun ds => ds.map usedOnly)[g]?).getD []).head?).getD (usedOnly c.base)) "sources")) := by
    intro dbs
    unfold bounding
    congr 1
    · rw [List.map_map]
      refine List.map_congr_left fun ds _ => ?_
      simp only [Function.comp, List.map_map]
      refine List.map_congr_left fun d _ => ?_
      simp only [Function.comp, usedOnly_child]
    · congr 1
      rw [List.getElem?_map]
      cases dbs[g]? with
      | none => simp [usedOnly_child]
      | some ds =>
        cases ds with
        | nil => simp [usedOnly_child]
        | cons d ds => simp [usedOnly_child]
  rw [key dbs, key dbs', h]

theorem strip_groupStep (L : Lib n T) (c : Conf n) (beams : List Beam) (dep : List (Box n × ℝ)) (G : Group n T) :
    (⟨(groupStep L c beams dep G).loop, (groupStep L c beams dep G).members.map strip⟩ : Group n T) =
      groupStep L c beams dep ⟨G.loop, G.members.map strip⟩ := by
  unfold groupStep
  by_cases h : G.loop.time < c.cfg.duration
  · simp only [if_pos h, List.map_map]
    congr 1
    refine List.map_congr_left fun m _ => ?_
    exact strip_step L c beams _ _ m
  · simp only [if_neg h]

theorem strip_state (L : Lib n T) (c : Conf n) (dbs dbs' : List (List Db))
    (h : dbs.map (fun ds => ds.map usedOnly) = dbs'.map (fun ds => ds.map usedOnly)) (gs gs' : List (Group n T))
    (hgs : stripAll gs = stripAll gs') (k : ℕ) : stripAll (state L c dbs gs k) = stripAll (state L c dbs' gs' k) := by
  classical
  have hloops : ∀ gs : List (Group n T), (∃ G ∈ gs, G.loop.time < c.cfg.duration) ↔ ∃ G ∈ stripAll gs, G.loop.time < c.cfg.duration := by
    intro gs
    simp [stripAll]
  have hmap : ∀ (dbs : List (List Db)) (k : ℕ) (gs : List (Group n T)),
      stripAll (gs.mapIdx fun g G => groupStep L c (bounding c dbs g) (c.dep g k) G) =
        (stripAll gs).mapIdx fun g G => groupStep L c (bounding c dbs g) (c.dep g k) G := by
    intro dbs k gs
    apply List.ext_getElem?
    intro g
    simp only [stripAll, List.getElem?_map, List.getElem?_mapIdx]
    cases gs[g]? with
    | none => rfl
    | some G => simp only [Option.map_some]; rw [strip_groupStep]
  induction k with
  | zero => exact hgs
  | succ k ih =>
    rw [state, state, step, step]
    by_cases hr : ∃ G ∈ state L c dbs gs k, G.loop.time < c.cfg.duration
    · have hr' : ∃ G ∈ state L c dbs' gs' k, G.loop.time < c.cfg.duration := by
        rw [hloops, ← ih, ← hloops]; exact hr
      rw [if_pos hr, if_pos hr', strip_analyse, strip_analyse, hmap, hmap, ih]
      have hb : (fun g G => groupStep L c (bounding c dbs g) (c.dep g k) G) =
          fun g (G : Group n T) => groupStep L c (bounding c dbs' g) (c.dep g k) G := by
        funext g G
        rw [bounding_strip c dbs dbs' h]
      rw [hb]
    · have hr' : ¬ ∃ G ∈ state L c dbs' gs' k, G.loop.time < c.cfg.duration := by
        rw [hloops, ← ih, ← hloops]; exact hr
      rw [if_neg hr, if_neg hr', ih]

/-- The observable result of an ensemble run: the loop variables, meshes and temperatures of all members. -/
def result (gs : List (Group n T)) : List (St ℝ × List (Mesh n × T)) := gs.map fun G => (G.loop, G.members.map fun m => (m.mesh, m.temp))

theorem result_strip (gs : List (Group n T)) : result (stripAll gs) = result gs := by
  unfold result stripAll
  rw [List.map_map]
  refine List.map_congr_left fun G _ => ?_
  simp [Function.comp, strip]

/-- C123: the simulations of the members depend on the drawn databases only through the section `sources`, the initial and the
new-material temperature and the material height: whatever else differs, all meshes, temperatures and times of the whole ensemble are
the same in every iteration. -/
theorem C123_used_entries (L : Lib n T) (c : Conf n) (dbs dbs' : List (List Db)) (hlen : dbs.length = dbs'.length)
    (h : ∀ (g : ℕ) (ds ds' : List Db), dbs[g]? = some ds → dbs'[g]? = some ds' → ds.length = ds'.length ∧
      ∀ (m : ℕ) (d d' : Db), ds[m]? = some d → ds'[m]? = some d' →
        (∀ r, d ("sources." ++ r) = d' ("sources." ++ r)) ∧ d "materials.initial_temperature" = d' "materials.initial_temperature" ∧
        d "materials.new_material_temperature" = d' "materials.new_material_temperature" ∧
        d "geometry.material_height" = d' "geometry.material_height") (k : ℕ) :
    result (state L c dbs (start L c dbs) k) = result (state L c dbs' (start L c dbs') k) := by
  have hu : dbs.map (fun ds => ds.map usedOnly) = dbs'.map (fun ds => ds.map usedOnly) := by
    apply List.ext_getElem (by simp [hlen])
    intro g h1 h2
    rw [List.length_map] at h1 h2
    simp only [List.getElem_map]
    obtain ⟨hl, hm⟩ := h g dbs[g] dbs'[g] (List.getElem?_eq_getElem h1) (List.getElem?_eq_getElem h2)
    apply List.ext_getElem (by simp [hl])
    intro m h3 h4
    rw [List.length_map] at h3 h4
    simp only [List.getElem_map]
    obtain ⟨e1, e2, e3, e4⟩ := hm m _ _ (List.getElem?_eq_getElem h3) (List.getElem?_eq_getElem h4)
    funext key
    unfold usedOnly
    by_cases hk : Used key
    · rw [if_pos hk, if_pos hk]
      rcases hk with ⟨r, rfl⟩ | rfl | rfl | rfl
      · exact e1 r
      · exact e2
      · exact e3
      · exact e4
    · rw [if_neg hk, if_neg hk]
  have hs : ∀ dbs : List (List Db), stripAll (start L c dbs) = start L c (dbs.map fun ds => ds.map usedOnly) := by
    intro dbs
    simp only [stripAll, start, List.map_map]
    refine List.map_congr_left fun ds _ => ?_
    simp only [Function.comp, List.map_map]
    congr 1
    refine List.map_congr_left fun d _ => ?_
    exact strip_start L c d
  have hst : stripAll (start L c dbs) = stripAll (start L c dbs') := by rw [hs dbs, hs dbs', hu]
  rw [← result_strip, ← result_strip (state L c dbs' (start L c dbs') k), strip_state L c dbs dbs' hu _ _ hst k]

/-- C123 is false of the other parameters, in particular of the material properties (`materials.material_0.solid.density`, …), which
are read from the common database (`adamantine.hh:1519-1520, 1716-1720`): if only such parameters are perturbed, the ensemble does
exactly what it does without any perturbation, however large the deviations are. -/
theorem C123_materials_refuted (L : Lib n T) (c : Conf n) (z : ℕ → ℝ) (ens : List Ensemble.Tree) (total : ℕ) (first size : ℕ → ℕ)
    (dbs : List (List Db)) (ps : List String) (hkeys : Ensemble.NoEmptyKeys ens)
    (hleaves : Ensemble.paramLeaves ens = ps.map (· ++ "_stddev")) (hnd : ps.Nodup)
    (hcomp : ∀ p ∈ ps, ∀ q ∈ ps, p ≠ "ensemble." ++ q ++ "_stddev")
    (hdbs : ∀ (g : ℕ) (ds : List Db), dbs[g]? = some ds → 0 < size g ∧ Ensemble.createDatabases z c.base ens (first g) (size g) total = some ds)
    (hps : ∀ p ∈ ps, ∃ r, p = "materials.material_" ++ r) (k : ℕ) :
    result (state L c dbs (start L c dbs) k) =
      result (state L c (dbs.map fun ds => ds.map fun _ => c.base) (start L c (dbs.map fun ds => ds.map fun _ => c.base)) k) := by
  refine C123_used_entries L c _ _ (by simp) ?_ k
  intro g ds ds' hg hg'
  rw [List.getElem?_map, hg, Option.map_some, Option.some.injEq] at hg'
  subst hg'
  refine ⟨by simp, ?_⟩
  intro m d d' hm hm'
  rw [List.getElem?_map, hm, Option.map_some, Option.some.injEq] at hm'
  subst hm'
  obtain ⟨h1, h2⟩ := hdbs g ds hg
  have hother := ((Ensemble.C28_databases z c.base ens (first g) (size g) total h1 ps hkeys hleaves hnd hcomp ds h2).2 m d hm).1
  have hno : ∀ key : String, (∀ r, key.toList ≠ "materials.material_".toList ++ r) → key ∉ ps := by
    intro key hk hmem
    obtain ⟨r, hr⟩ := hps key hmem
    exact hk r.toList (by rw [hr, String.toList_append])
  refine ⟨fun r => hother _ (hno _ ?_), hother _ (hno _ ?_), hother _ (hno _ ?_), hother _ (hno _ ?_)⟩
  · intro q hq
    rw [String.toList_append] at hq
    simp at hq
  · intro q hq
    simp at hq
  · intro q hq
    simp at hq
  · intro q hq
    simp at hq

/-- C123 for a parameter that is used: the initial temperature field of a member has the value drawn for it. -/
theorem C123_initial_temperature (L : Lib n T) (c : Conf n) (dbs : List (List Db)) (g m : ℕ) (ds : List Db) (hg : dbs[g]? = some ds)
    (d : Db) (hm : ds[m]? = some d) (v : ℝ) (hv : d "materials.initial_temperature" = some v) :
    ∃ G M, (state L c dbs (start L c dbs) 0)[g]? = some G ∧ G.members[m]? = some M ∧ M.temp = L.fill v M.mesh := by
  refine ⟨⟨Driver.start c.cfg, ds.map (startMember L c)⟩, startMember L c d, ?_, ?_, ?_⟩
  · simp only [state, start, List.getElem?_map, hg]
    rfl
  · simp [hm]
  · simp [startMember, hv]

theorem memberStep_db (L : Lib n T) (c : Conf n) (beams : List Beam) (boxes : List (Box n)) (ev : Ev ℝ) (m : Member n T) :
    (memberStep L c beams boxes ev m).db = m.db := by
  have ha : ∀ (s e : ℕ) (a : Member n T), (activate L c boxes s e a).db = a.db := fun _ _ _ => rfl
  unfold memberStep
  cases ev.samples with
  | none =>
    cases ev.activated with
    | none => rfl
    | some p =>
      by_cases hp : p.1 < p.2
      · simp [hp, ha]
      · simp [hp]
  | some ts =>
    cases ev.activated with
    | none => simp [refineMember_db]
    | some p =>
      by_cases hp : p.1 < p.2
      · simp [hp, ha, refineMember_db]
      · simp [hp, refineMember_db]

/-- No data assimilation: every member keeps its temperature and parameters. -/
def NoAnalysis (L : Lib n T) : Prop :=
  ∀ (k : ℕ) (vs : List (List (View n T))) (g i : ℕ) (row : List (View n T)) (v : View n T), vs[g]? = some row → row[i]? = some v →
    L.assim k vs g i = ⟨v.temp, none, none⟩

/-- Without data assimilation the database of a member is the drawn one in every iteration. -/
theorem state_member (L : Lib n T) (c : Conf n) (hna : NoAnalysis L) (dbs : List (List Db)) (g m : ℕ) (ds : List Db) (hg : dbs[g]? = some ds)
    (d : Db) (hm : ds[m]? = some d) (k : ℕ) :
    ∃ G M, (state L c dbs (start L c dbs) k)[g]? = some G ∧ G.members[m]? = some M ∧ M.db = d := by
  classical
  induction k with
  | zero =>
    refine ⟨⟨Driver.start c.cfg, ds.map (startMember L c)⟩, startMember L c d, ?_, by simp [hm], rfl⟩
    simp only [state, start, List.getElem?_map, hg, Option.map_some]
  | succ k ih =>
    obtain ⟨G, M, hG, hM, hd⟩ := ih
    rw [state, step]
    by_cases hr : ∃ G ∈ state L c dbs (start L c dbs) k, G.loop.time < c.cfg.duration
    · rw [if_pos hr]
      have hH : ∃ M', (groupStep L c (bounding c dbs g) (c.dep g k) G).members[m]? = some M' ∧ M'.db = d := by
        unfold groupStep
        by_cases hlt : G.loop.time < c.cfg.duration
        · simp only [if_pos hlt, List.getElem?_map, hM, Option.map_some]
          exact ⟨_, rfl, by rw [memberStep_db, hd]⟩
        · simp only [if_neg hlt]
          exact ⟨M, hM, hd⟩
      obtain ⟨M', hM', hd'⟩ := hH
      generalize hgs : (state L c dbs (start L c dbs) k).mapIdx (fun g G => groupStep L c (bounding c dbs g) (c.dep g k) G) = gs
      have hGs : gs[g]? = some (groupStep L c (bounding c dbs g) (c.dep g k) G) := by
        rw [← hgs, List.getElem?_mapIdx, hG, Option.map_some]
      generalize groupStep L c (bounding c dbs g) (c.dep g k) G = H at hGs hM'
      have ha : L.assim k (gs.map fun G => G.members.map viewOf) g m = ⟨M'.temp, none, none⟩ :=
        hna k _ g m (H.members.map viewOf) (viewOf M') (by rw [List.getElem?_map, hGs]; rfl) (by rw [List.getElem?_map, hM']; rfl)
      simp only [analyse, List.getElem?_mapIdx, hGs, Option.map_some]
      refine ⟨_, _, rfl, by rw [List.getElem?_mapIdx, hM', Option.map_some], ?_⟩
      rw [ha]
      exact hd'
    · rw [if_neg hr]
      exact ⟨G, M, hG, hM, hd⟩

/-- C123: without data assimilation, a member's temperature advances in every time step in which neither the mesh nor the material
changes by the physics with its own drawn section `sources` and the common sections `materials` and `boundary`. -/
theorem C123_own_sources (L : Lib n T) (c : Conf n) (hna : NoAnalysis L) (dbs : List (List Db)) (g m : ℕ) (ds : List Db)
    (hg : dbs[g]? = some ds) (d : Db) (hm : ds[m]? = some d) (k : ℕ) (G : Group n T) (hG : (state L c dbs (start L c dbs) k)[g]? = some G)
    (hrun : G.loop.time < c.cfg.duration) (hno : G.loop.n ≠ 1 ∧ G.loop.n % c.cfg.refineEvery ≠ 0) (hdep : c.dep g k = [])
    (M : Member n T) (hM : G.members[m]? = some M) :
    ∃ G' M', (state L c dbs (start L c dbs) (k + 1))[g]? = some G' ∧ G'.members[m]? = some M' ∧ M'.mesh = M.mesh ∧
      M'.temp = L.evolve (fun r => c.base ("materials." ++ r)) (fun r => c.base ("boundary." ++ r)) (fun r => d ("sources." ++ r)) M.mesh
        G.loop.time G'.loop.dt M.temp := by
  classical
  obtain ⟨G0, M0, hG0, hM0, hd⟩ := state_member L c hna dbs g m ds hg d hm k
  obtain rfl : G0 = G := Option.some.inj (hG0.symm.trans hG)
  obtain rfl : M0 = M := Option.some.inj (hM0.symm.trans hM)
  have hr : ∃ G ∈ state L c dbs (start L c dbs) k, G.loop.time < c.cfg.duration := ⟨G0, List.mem_of_getElem? hG, hrun⟩
  rw [state, step, if_pos hr]
  generalize hgs : (state L c dbs (start L c dbs) k).mapIdx (fun g G => groupStep L c (bounding c dbs g) (c.dep g k) G) = gs
  have hGs : gs[g]? = some (groupStep L c (bounding c dbs g) (c.dep g k) G0) := by
    rw [← hgs, List.getElem?_mapIdx, hG, Option.map_some]
  set cfg : Cfg ℝ := { c.cfg with thermal := true, depTimes := (c.dep g k).map Prod.snd } with hcfg
  have hs : (iter cfg G0.loop).2.samples = none := by
    simp [iter, hcfg, hno.1, hno.2]
  have hact : ∀ p, (iter cfg G0.loop).2.activated = some p → ¬ p.1 < p.2 := by
    intro p hp
    have hdt : cfg.depTimes = [] := by rw [hcfg, hdep]; rfl
    simp only [iter, hdt, Driver.lowerBound, List.takeWhile_nil, List.length_nil] at hp
    by_cases ho : G0.loop.time - G0.loop.actEnd > -(G0.loop.dt * (1 / 1000000))
    · rw [if_pos ho, Option.some.injEq] at hp
      rw [← hp]; simp
    · rw [if_neg ho] at hp; cases hp
  have hstep : memberStep L c (bounding c dbs g) ((c.dep g k).map Prod.fst) (iter cfg G0.loop).2 M0 =
      ⟨M0.db, M0.mesh, L.evolve (child c.base "materials") (child c.base "boundary") (child M0.db "sources") M0.mesh
        (iter cfg G0.loop).2.start (iter cfg G0.loop).2.dt M0.temp⟩ := by
    unfold memberStep
    rw [hs]
    cases ha : (iter cfg G0.loop).2.activated with
    | none => rfl
    | some p =>
      dsimp only
      rw [if_neg (hact p ha)]
  have hH : groupStep L c (bounding c dbs g) (c.dep g k) G0 =
      ⟨(iter cfg G0.loop).1, G0.members.map (memberStep L c (bounding c dbs g) ((c.dep g k).map Prod.fst) (iter cfg G0.loop).2)⟩ := by
    unfold groupStep
    exact if_pos hrun
  rw [hH] at hGs
  have ha : L.assim k (gs.map fun G => G.members.map viewOf) g m =
      ⟨(memberStep L c (bounding c dbs g) ((c.dep g k).map Prod.fst) (iter cfg G0.loop).2 M0).temp, none, none⟩ := by
    refine hna k _ g m _ (viewOf (memberStep L c (bounding c dbs g) ((c.dep g k).map Prod.fst) (iter cfg G0.loop).2 M0))
      (by rw [List.getElem?_map, hGs]; rfl) ?_
    simp only [List.getElem?_map, hM, Option.map_some]
  simp only [analyse, List.getElem?_mapIdx, hGs, Option.map_some]
  refine ⟨_, _, rfl, by rw [List.getElem?_mapIdx, List.getElem?_map, hM, Option.map_some, Option.map_some], ?_, ?_⟩
  · rw [hstep]
  · rw [ha, hstep, hd]
    rfl

/-! ## Groups that have read different contents of the scan path file -/

/-- A library for the examples in one dimension: one coarse cell `[0,1]`, cells are refined as flagged, the temperature is one number. -/
noncomputable def adaptTree {n : ℕ} (flags : Box n → ℕ → Flags) : Tree n → Box n → ℕ → Tree n
  | .leaf, b, l => if (flags b l).refine then .node fun _ => .leaf else .leaf
  | .node f, b, l => .node fun i => adaptTree flags (f i) (b.child i) (l + 1)

theorem adaptTree_adapts {n : ℕ} (flags : Box n → ℕ → Flags) (top : ℕ) (t : Tree n) (b : Box n) (l : ℕ) :
    Adapts flags top b l t (adaptTree flags t b l) := by
  induction t generalizing b l with
  | leaf =>
    by_cases h : (flags b l).refine = true
    · rw [adaptTree, if_pos h]; exact .refine b l h
    · rw [adaptTree, if_neg h]; exact .keep b l (by simpa using h)
  | node f ih =>
    rw [adaptTree]
    exact .node b l f _ fun i => ih i (b.child i) (l + 1)

/-- The box of a beam of the code on a three-axis path, `HeatSource.boxAround` with the scaling 2. -/
noncomputable def codeBox (pos : ℕ → ℝ → Verif.Pt3 ℝ) (i : ℕ) (b : Beam) (t : ℝ) : Box 3 :=
  let B := HeatSource.boxAround (HeatSource.BeamProps.ofDatabase 1 1 b.depth 0 b.diameter 0) (pos i t) 2
  ⟨![B.lo.x, B.lo.y, B.lo.z], ![B.hi.x, B.hi.y, B.hi.z]⟩

/-- The boxes of the sources in the code meet the hypotheses of `C122_beams_resolved_partial`. -/
example (pos : ℕ → ℝ → Verif.Pt3 ℝ) :
    (∀ (i : ℕ) (b : Beam) (t : ℝ), 0 ≤ b.diameter → 0 ≤ b.depth → (codeBox pos i b t).Proper) ∧
    ∀ (i : ℕ) (b b' : Beam) (t : ℝ), b.type = b'.type → b.diameter ≤ b'.diameter → b.depth ≤ b'.depth →
      ∀ d, (codeBox pos i b' t).lo d ≤ (codeBox pos i b t).lo d ∧ (codeBox pos i b t).hi d ≤ (codeBox pos i b' t).hi d := by
  constructor
  · intro i b t h1 h2 d
    fin_cases d <;> simp [codeBox, HeatSource.boxAround, HeatSource.BeamProps.ofDatabase] <;> linarith
  · intro i b b' t _ h1 h2 d
    fin_cases d <;> simp [codeBox, HeatSource.boxAround, HeatSource.BeamProps.ofDatabase] <;> (try constructor) <;> linarith

/-- The coarse cell of the examples. -/
noncomputable def unitCell : Box 3 := ⟨fun _ => 0, fun _ => 1⟩

/-- The library of the examples. -/
noncomputable def demoLib : Lib 3 ℝ where
  coarse _ := [(unitCell, .leaf)]
  within _ _ := true
  exec flags f := f.map fun x => (x.1, adaptTree flags x.2 x.1 0)
  inherit _ mat _ := mat
  fill v _ := v
  move _ _ t := t
  add _ _ _ t := t
  evolve _ _ s _ _ dt t := t + dt * (s "beam_0.max_power").getD 0
  srcBox := codeBox fun _ t => ⟨t, 0, 1⟩
  assim _ vs g i := ⟨(((vs[g]?).getD [])[i]?.map (·.temp)).getD 0, none, none⟩

/-- An input with one Goldak beam, two steps of size 1; `dep` are the deposition boxes. -/
noncomputable def demoConf (dep : ℕ → ℕ → List (Box 3 × ℝ)) : Conf 3 :=
  ⟨fun k => if k = "geometry.material_height" then some 0 else none, [.goldak], false, 1, ⟨true, 1, 2, 0, 1, 1, 1, []⟩, 2, dep⟩

/-- A member database of the examples: beam 0 with diameter `w`, depth `1/4` and power `w`. -/
noncomputable def demoDb (w : ℝ) : Db := fun k =>
  if k = "geometry.material_height" then some 0 else if k = "sources.beam_0.diameter" then some w
  else if k = "sources.beam_0.depth" then some (1/4) else if k = "sources.beam_0.max_power" then some w else none

example : Executes demoLib (demoConf fun _ _ => []) := by
  intro boxes f
  change List.Forall₂ _ f (f.map _)
  rw [List.forall₂_map_right_iff]
  exact List.forall₂_same.2 fun x _ => ⟨rfl, adaptTree_adapts _ _ _ _ _⟩

/-- Two groups with two members and one member that have different beams meet the hypotheses of `C122_same_mesh_partial` and
`C122_beams_resolved_partial`. -/
example : let dbs := [[demoDb 1, demoDb 2], [demoDb 3]]
    (∀ ds ∈ dbs, ∀ d ∈ ds, d "geometry.material_height" = (demoConf fun _ _ => []).base "geometry.material_height") ∧
    BeamsOk (demoConf fun _ _ => []) dbs ∧ BeamType.cube ∉ (demoConf fun _ _ => []).types ∧
    (∀ ds ∈ dbs, ∀ d ∈ ds, ∀ b ∈ beamsOf (demoConf fun _ _ => []).types (child d "sources"), b.depth ≤ b.diameter) := by
  intro dbs
  have hb : ∀ w, beamsOf (demoConf fun _ _ => []).types (child (demoDb w) "sources") = [⟨.goldak, w, 1/4⟩] := by
    intro w
    have e1 : ("sources" ++ "." ++ ("beam_" ++ toString 0 ++ ".diameter") : String) = "sources.beam_0.diameter" := by decide
    have e2 : ("sources" ++ "." ++ ("beam_" ++ toString 0 ++ ".depth") : String) = "sources.beam_0.depth" := by decide
    simp only [beamsOf, demoConf, List.zipIdx_cons, List.zipIdx_nil, List.map_cons, List.map_nil, child, e1, e2]
    rfl
  refine ⟨?_, ⟨⟨_, List.mem_cons_self .., by simp⟩, ?_⟩, by simp [demoConf], ?_⟩
  · simp [dbs, demoDb, demoConf]
  · simp only [dbs, List.mem_cons, List.not_mem_nil, or_false, forall_eq_or_imp, forall_eq, hb]
    norm_num
  · simp only [dbs, List.mem_cons, List.not_mem_nil, or_false, forall_eq_or_imp, forall_eq, hb]
    norm_num

/-- The library of the examples assimilates no data. -/
example : NoAnalysis demoLib := by
  intro k vs g i row v h1 h2
  simp [demoLib, h1, h2]

theorem agree_of_analyse (L : Lib n T) (k : ℕ) (gs : List (Group n T)) (h : Agree (analyse L k gs)) : Agree gs := by
  intro G hG G' hG'
  obtain ⟨i, hi⟩ := List.getElem?_of_mem hG
  obtain ⟨j, hj⟩ := List.getElem?_of_mem hG'
  have key : ∀ (i : ℕ) (G : Group n T), gs[i]? = some G → ∃ H ∈ analyse L k gs, H.loop = G.loop ∧ ∀ m ∈ G.members, ∃ m' ∈ H.members, m'.mesh = m.mesh := by
    intro i G hi
    have hex : ∃ H, (analyse L k gs)[i]? = some H ∧ H.loop = G.loop ∧ ∀ m ∈ G.members, ∃ m' ∈ H.members, m'.mesh = m.mesh := by
      simp only [analyse, List.getElem?_mapIdx, hi, Option.map_some]
      refine ⟨_, rfl, rfl, ?_⟩
      intro m hm
      obtain ⟨a, ha⟩ := List.getElem?_of_mem hm
      obtain ⟨hal, hae⟩ := List.getElem?_eq_some_iff.1 ha
      refine ⟨_, List.mem_mapIdx.2 ⟨a, hal, rfl⟩, ?_⟩
      rw [← hae]
    obtain ⟨H, h1, h2⟩ := hex
    exact ⟨H, List.mem_of_getElem? h1, h2⟩
  obtain ⟨H, hH, e1, e2⟩ := key i G hi
  obtain ⟨H', hH', e1', e2'⟩ := key j G' hj
  obtain ⟨a1, a2⟩ := h H hH H' hH'
  refine ⟨by rw [← e1, ← e1', a1], fun m hm m' hm' => ?_⟩
  obtain ⟨x, hx, ex⟩ := e2 m hm
  obtain ⟨y, hy, ey⟩ := e2' m' hm'
  rw [← ex, ← ey, a2 x hx y hy]

open Classical in
/-- What one iteration of the example does to the material. -/
theorem demo_material (c : Conf 3) (beams : List Beam) (boxes : List (Box 3)) (ev : Ev ℝ) (m : Member 3 ℝ) (b : Box 3) :
    (memberStep demoLib c beams boxes ev m).mesh.material b = (m.mesh.material b || decide (∃ p, ev.activated = some p ∧ p.1 < p.2 ∧
      ∃ q ∈ (boxes.take p.2).drop p.1, b.meets q)) := by
  have hr : ∀ bs (m : Member 3 ℝ), (refineMember demoLib c bs m).mesh.material = m.mesh.material := by
    intro bs m
    have : Function.Semiconj (fun m : Member 3 ℝ => m.mesh.material) (refinePass demoLib c bs) id := fun m => rfl
    have h := (this.iterate_right c.nRefinements) m
    rw [Function.iterate_id] at h
    exact h
  have ha : ∀ (s e : ℕ) (m : Member 3 ℝ), (activate demoLib c boxes s e m).mesh.material b =
      (m.mesh.material b || decide (∃ q ∈ (boxes.take e).drop s, b.meets q)) := by
    intro s e m
    simp [activate, demoLib]
  unfold memberStep
  cases hs : ev.samples with
  | none =>
    cases hact : ev.activated with
    | none => simp
    | some p =>
      by_cases hp : p.1 < p.2
      · simp [hp, ha]
      · simp [hp]
  | some ts =>
    cases hact : ev.activated with
    | none => simp [hr]
    | some p =>
      by_cases hp : p.1 < p.2
      · simp [hp, ha, hr]
      · simp [hp, hr]

/-- C122 is violated with `scan_path_for_duration`: every member of every group reads the scan path file by itself
(`adamantine.hh:1989-1999`), at different instants.  `file v` are the deposition boxes of version `v` of the file; the file is only
appended to.  If the first group has read version 0 and the second one version 1, they use different boxes (those of their first
member) and after one iteration the cell of the appended box contains material in the second group only. -/
theorem C122_reread_refuted : ∃ file : ℕ → List (Box 3 × ℝ), (∀ v, file v <+: file (v + 1)) ∧
    ¬ Agree (state demoLib (demoConf fun g _ => file g) [[demoDb 1], [demoDb 1]]
      (start demoLib (demoConf fun g _ => file g) [[demoDb 1], [demoDb 1]]) 1) := by
  classical
  refine ⟨fun v => if v = 0 then [] else [(unitCell, 1/2)], ?_, ?_⟩
  · intro v
    by_cases h : v = 0
    · subst h; simp
    · simp [h]
  · intro h
    set c := demoConf fun g _ => if g = 0 then [] else [(unitCell, 1/2)] with hc
    set dbs := [[demoDb 1], [demoDb 1]] with hdbs
    have hrun : ∃ G ∈ start demoLib c dbs, G.loop.time < c.cfg.duration :=
      ⟨⟨Driver.start c.cfg, [demoDb 1].map (startMember demoLib c)⟩, by simp [start, hdbs], by simp [Driver.start, hc, demoConf]⟩
    have hst : state demoLib c dbs (start demoLib c dbs) 1 =
        analyse demoLib 0 ((start demoLib c dbs).mapIdx fun g G => groupStep demoLib c (bounding c dbs g) (c.dep g 0) G) := by
      rw [state, step, state, if_pos hrun]
    rw [hst] at h
    have h' := agree_of_analyse demoLib 0 _ h
    have hs : start demoLib c dbs = [⟨Driver.start c.cfg, [startMember demoLib c (demoDb 1)]⟩, ⟨Driver.start c.cfg, [startMember demoLib c (demoDb 1)]⟩] := rfl
    rw [hs] at h'
    simp only [List.mapIdx_cons, List.mapIdx_nil] at h'
    have hlt : (Driver.start c.cfg).time < c.cfg.duration := by simp [Driver.start, hc, demoConf]
    have hm := (h' _ (List.mem_cons_self ..) _ (List.mem_cons_of_mem _ (List.mem_cons_self ..))).2
    simp only [groupStep, if_pos hlt, List.map_cons, List.map_nil, List.mem_singleton, forall_eq] at hm
    have hm' := congrFun (congrArg Mesh.material hm) unitCell
    rw [demo_material, demo_material] at hm'
    have hmat : (startMember demoLib c (demoDb 1)).mesh.material unitCell = false := by
      simp [startMember, unitCell, demoDb, hc, demoConf]
    have hd0 : c.dep 0 0 = [] := by simp [hc, demoConf]
    have hd1 : c.dep (0 + 1) 0 = [(unitCell, 1/2)] := by simp [hc, demoConf]
    have hself : unitCell.meets unitCell := fun d => by simp [unitCell]
    rw [hmat, hd0, hd1] at hm'
    simp [iter, Driver.start, hc, demoConf, Driver.lowerBound] at hm'
    norm_num at hm'
    exact hm' hself

end Verif.EnsembleLoop
