import Verif.HeatSource.Update
import Verif.Conformance.Deposition

/-!
# C135: moving and delaying a scan path

A part may be built anywhere on the plate and at any time: nothing in `source/ScanPath.cc`, `source/GoldakHeatSource.cc`,
`source/ElectronBeamHeatSource.cc` and `source/material_deposition.cc` should depend on the origin of the coordinates or of
the time.
-/

namespace Verif.HeatSource

open Verif.Quat Verif.ScanPath

/-! ## Specification -/

/-- The point `p` moved by `d`. -/
def movedPt (d p : Pt3 ℝ) : Pt3 ℝ := ⟨p.x + d.x, p.y + d.y, p.z + d.z⟩

/-- The same record at another place and at another time. -/
def movedSegment (d : Pt3 ℝ) (τ : ℝ) (s : Segment) : Segment :=
  ⟨s.endTime + τ, s.power, movedPt d s.endPoint, s.endRotation⟩

/-- The same path at another place and at another time. -/
def movedPath (d : Pt3 ℝ) (τ : ℝ) (segs : List Segment) : List Segment := segs.map (movedSegment d τ)

/-- The answer of a position query, moved. -/
def movedAnswer (d : Pt3 ℝ) : Answer (Pt3 ℝ) → Answer (Pt3 ℝ)
  | .value p => .value (movedPt d p)
  | .outOfDomain => .outOfDomain
  | .nan => .nan
  | .ub => .ub

/-- The beam after `update_time` was called for the times `ts`, one after the other. -/
noncomputable def beamAfter (k : Kind) (b : BeamProps) (segs : List Segment) (five : Bool) (ts : List ℝ) : Option Source :=
  ts.foldlM (fun s t => s.updateTime t) (Source.new k b ⟨segs, five, 0⟩)

/-- Time `t` is not in a first record that ends at time zero (before or after the delay). -/
def FirstOk (τ : ℝ) (segs : List Segment) (t : ℝ) : Prop :=
  ∀ f, segs.head? = some f → t ≤ f.endTime → f.endTime ≠ 0 ∧ f.endTime + τ ≠ 0

/-- A box moved by `d`. -/
def movedBox3 (d : Pt3 ℝ) (b : Deposition.Box 3) : Deposition.Box 3 where
  lo := ![b.lo 0 + d.x, b.lo 1 + d.y, b.lo 2 + d.z]
  hi := ![b.hi 0 + d.x, b.hi 1 + d.y, b.hi 2 + d.z]

/-- A box of a two-dimensional simulation moved by `d`. -/
def movedBox2 (d : Pt3 ℝ) (b : Deposition.Box 2) : Deposition.Box 2 where
  lo := ![b.lo 0 + d.x, b.lo 1 + d.y]
  hi := ![b.hi 0 + d.x, b.hi 1 + d.y]

/-- The deposition lists with the boxes moved and the times delayed. -/
def movedLists {β : Type} (mv : β → β) (τ : ℝ) (l : Deposition.Lists β) : Deposition.Lists β :=
  ⟨l.boxes.map mv, l.times.map fun t => t.map (· + τ), l.cosines, l.sines⟩

/-- The outcome of the deposition along a path, moved and delayed. -/
def movedGen {β : Type} (mv : β → β) (τ : ℝ) : Deposition.Gen β → Deposition.Gen β
  | .ok l => .ok (movedLists mv τ l)
  | .thrown => .thrown
  | .diverges => .diverges

/-! ## The scan path -/

/-- `P'` is `P` at another place and time, with the same cached segment. -/
structure Moved (d : Pt3 ℝ) (τ : ℝ) (P P' : Path) : Prop where
  segs : P'.segs = movedPath d τ P.segs
  five : P'.fiveAxis = P.fiveAxis
  old : P'.old = P.old

theorem search_moved (d : Pt3 ℝ) (τ : ℝ) (segs : List Segment) (t : ℝ) (i : ℕ) :
    search (movedPath d τ segs) (t + τ) i = search segs t i := by
  fun_induction search segs t i with
  | case1 i hi ht ih =>
    rw [search, dif_pos (by simpa [movedPath] using hi), if_pos]
    · exact ih
    · simpa [movedPath, movedSegment] using ht
  | case2 i hi ht =>
    rw [search, dif_pos (by simpa [movedPath] using hi), if_neg]
    simpa [movedPath, movedSegment] using ht
  | case3 i hi =>
    rw [search, dif_neg]
    simpa [movedPath] using hi

theorem current_moved {d : Pt3 ℝ} {τ : ℝ} {P P' : Path} (h : Moved d τ P P') (t : ℝ) :
    current P' (t + τ) = (current P t).map fun x => (x.1, movedSegment d τ x.2) := by
  unfold current
  rw [h.segs, h.old, search_moved]
  cases search P.segs t P.old with
  | none => rfl
  | some i =>
    simp only [movedPath, List.getElem?_map]
    cases P.segs[i]? <;> rfl

theorem last_moved {d : Pt3 ℝ} {τ : ℝ} {P P' : Path} (h : Moved d τ P P') :
    P'.segs.getLast? = P.segs.getLast?.map (movedSegment d τ) := by
  rw [h.segs, movedPath, List.getLast?_map]

theorem save_moved {d : Pt3 ℝ} {τ : ℝ} {P P' : Path} (h : Moved d τ P P') (b : Bool) (i : ℕ) :
    Moved d τ (P.save b i) (P'.save b i) := by
  cases b with
  | false => exact h
  | true => exact ⟨h.segs, h.five, rfl⟩

theorem lerp_moved (a b t0 t1 t c τ : ℝ) : lerp (a + c) (b + c) (t0 + τ) (t1 + τ) (t + τ) = lerp a b t0 t1 t + c := by
  unfold lerp
  rw [show b + c - (a + c) = b - a by ring, show t1 + τ - (t0 + τ) = t1 - t0 by ring,
    show t + τ - (t0 + τ) = t - t0 by ring]
  ring

theorem lerp_const (a t0 t1 t : ℝ) : lerp a a t0 t1 t = a := by simp [lerp]

theorem value_moved {d : Pt3 ℝ} {τ : ℝ} {P P' : Path} (h : Moved d τ P P') {t : ℝ} (hf : FirstOk τ P.segs t) (b : Bool) :
    (ScanPath.value P' (t + τ) b).1 = movedAnswer d (ScanPath.value P t b).1 ∧
      Moved d τ (ScanPath.value P t b).2 (ScanPath.value P' (t + τ) b).2 := by
  unfold ScanPath.value
  rw [last_moved h, current_moved h]
  cases P.segs.getLast? with
  | none => exact ⟨rfl, h⟩
  | some l =>
    simp only [Option.map_some]
    by_cases ht : t > l.endTime
    · rw [if_pos ht, if_pos (by simpa [movedSegment] using ht)]
      exact ⟨rfl, h⟩
    · rw [if_neg ht, if_neg (by simpa [movedSegment] using ht)]
      cases hc : current P t with
      | none => exact ⟨rfl, h⟩
      | some x =>
        obtain ⟨i, s⟩ := x
        obtain ⟨hs, hg⟩ := current_some hc
        obtain ⟨_, hk, hte, _⟩ := search_some hs
        have hse : P.segs[i] = s := by
          rw [List.getElem?_eq_getElem hk] at hg
          exact Option.some.inj hg
        simp only [Option.map_some]
        cases i with
        | zero =>
          have hfs := hf s (by rw [← hse]; rw [List.head?_eq_getElem?, List.getElem?_eq_getElem hk]) (hse ▸ hte)
          have e1 : s.endTime - (segStart P.segs 0 s).1 ≠ 0 := by simpa [segStart] using hfs.1
          have e2 : (movedSegment d τ s).endTime - (segStart P'.segs 0 (movedSegment d τ s)).1 ≠ 0 := by
            simpa [segStart, movedSegment] using hfs.2
          rw [if_neg e1, if_neg e2]
          refine ⟨?_, save_moved h b 0⟩
          simp only [segStart, movedAnswer, movedPt, lerp_const, movedSegment]
        | succ j =>
          have hj : j < P.segs.length := by omega
          have hj' : P'.segs[j]? = some (movedSegment d τ P.segs[j]) := by
            rw [h.segs, movedPath, List.getElem?_map, List.getElem?_eq_getElem hj]; rfl
          simp only [segStart, hj', List.getElem?_eq_getElem hj]
          by_cases h0 : s.endTime - P.segs[j].endTime = 0
          · rw [if_pos h0, if_pos (by simp only [movedSegment]; linarith)]
            exact ⟨rfl, save_moved h b (j + 1)⟩
          · rw [if_neg h0, if_neg (by simp only [movedSegment]; intro hh; apply h0; linarith)]
            refine ⟨?_, save_moved h b (j + 1)⟩
            simp only [movedAnswer, movedPt, movedSegment, lerp_moved]

theorem power_moved {d : Pt3 ℝ} {τ : ℝ} {P P' : Path} (h : Moved d τ P P') (t : ℝ) :
    (powerModifier P' (t + τ)).1 = (powerModifier P t).1 ∧
      Moved d τ (powerModifier P t).2 (powerModifier P' (t + τ)).2 := by
  unfold powerModifier
  rw [last_moved h, current_moved h]
  cases P.segs.getLast? with
  | none => exact ⟨rfl, h⟩
  | some l =>
    simp only [Option.map_some]
    by_cases ht : t > l.endTime
    · rw [if_pos ht, if_pos (by simpa [movedSegment] using ht)]
      exact ⟨rfl, h⟩
    · rw [if_neg ht, if_neg (by simpa [movedSegment] using ht)]
      cases current P t with
      | none => exact ⟨rfl, h⟩
      | some x => exact ⟨rfl, save_moved h true x.1⟩

theorem slerp_moved (a b : Q ℝ) (t0 t1 t τ : ℝ) : slerp a b (t0 + τ) (t1 + τ) (t + τ) = slerp a b t0 t1 t := by
  unfold slerp
  rw [show t1 + τ - (t0 + τ) = t1 - t0 by ring, show t + τ - (t0 + τ) = t - t0 by ring]

theorem slerp_same (a : Q ℝ) (t0 t1 t : ℝ) : slerp a a t0 t1 t = some a := by
  unfold slerp
  rw [if_pos rfl]

theorem quaternion_moved {d : Pt3 ℝ} {τ : ℝ} {P P' : Path} (h : Moved d τ P P') (t : ℝ) :
    ScanPath.quaternion P' (t + τ) = ScanPath.quaternion P t := by
  unfold ScanPath.quaternion
  rw [h.five, last_moved h, current_moved h]
  by_cases h5 : P.fiveAxis = false
  · rw [if_pos h5, if_pos h5]
  rw [if_neg h5, if_neg h5]
  cases P.segs.getLast? with
  | none => rfl
  | some l =>
    simp only [Option.map_some]
    by_cases ht : t > l.endTime
    · rw [if_pos ht, if_pos (by simpa [movedSegment] using ht)]
      rfl
    · rw [if_neg ht, if_neg (by simpa [movedSegment] using ht)]
      cases hc : current P t with
      | none => rfl
      | some x =>
        obtain ⟨i, s⟩ := x
        obtain ⟨hs, hg⟩ := current_some hc
        obtain ⟨_, hk, hte, _⟩ := search_some hs
        simp only [Option.map_some]
        cases i with
        | zero =>
          simp only [segStart, movedSegment]
          cases s.endRotation with
          | none => rfl
          | some q => simp only [slerp_same]
        | succ j =>
          have hj : j < P.segs.length := by omega
          have hj' : P'.segs[j]? = some (movedSegment d τ P.segs[j]) := by
            rw [h.segs, movedPath, List.getElem?_map, List.getElem?_eq_getElem hj]; rfl
          simp only [segStart, hj', List.getElem?_eq_getElem hj, movedSegment, slerp_moved]

/-! ## The beam -/

/-- `s'` is `s` with everything it knows at another place and time. -/
structure MovedSource (d : Pt3 ℝ) (τ : ℝ) (s s' : Source) : Prop where
  kind : s'.kind = s.kind
  props : s'.props = s.props
  path : Moved d τ s.path s'.path
  five : s'.fiveAxis = s.fiveAxis
  on : s'.sourceOn = s.sourceOn
  center : s'.center = movedAnswer d s.center
  quat : s'.quat = s.quat
  alpha : s'.alpha = s.alpha
  depth : s'.depth = s.depth
  radius : s'.radiusSq = s.radiusSq

theorem path_update {s s' : Source} {t : ℝ} (h : s.updateTime t = some s') : s'.path.segs = s.path.segs := by
  obtain ⟨m, _, _, _, _, _, _, _, _, _, _, hs⟩ := updateTime_spec h
  exact hs.segs

theorem update_moved {d : Pt3 ℝ} {τ : ℝ} {s s' : Source} (h : MovedSource d τ s s') {t : ℝ}
    (hf : FirstOk τ s.path.segs t) :
    match s.updateTime t, s'.updateTime (t + τ) with
    | some a, some b => MovedSource d τ a b
    | none, none => True
    | _, _ => False := by
  obtain ⟨hp, hP⟩ := power_moved h.path t
  have hsg : (powerModifier s.path t).2.segs = s.path.segs := (sameAt_power s.path t).segs
  have hv := value_moved hP (t := t) (by rw [hsg]; exact hf) true
  unfold Source.updateTime
  revert hp hP hv hsg
  cases powerModifier s.path t with
  | mk a p1 =>
    cases powerModifier s'.path (t + τ) with
    | mk a' p1' =>
      intro hp hP hsg hv
      simp only at hp hP hsg hv
      subst hp
      cases a' with
      | value m =>
        simp only
        refine ⟨h.kind, h.props, hv.2, h.five, rfl, hv.1, quaternion_moved hv.2 t, ?_, ?_, ?_⟩
        · simp only [h.kind, h.props]
        · simp only [h.props]
        · simp only [h.props]
      | outOfDomain => trivial
      | nan => trivial
      | ub => trivial

theorem beam_moved {d : Pt3 ℝ} {τ : ℝ} (ts : List ℝ) : ∀ {s s' : Source}, MovedSource d τ s s' →
    (∀ t ∈ ts, FirstOk τ s.path.segs t) →
    match ts.foldlM (fun s t => s.updateTime t) s, (ts.map (· + τ)).foldlM (fun s t => s.updateTime t) s' with
    | some a, some b => MovedSource d τ a b
    | none, none => True
    | _, _ => False := by
  induction ts with
  | nil => intro s s' h _; exact h
  | cons t ts ih =>
    intro s s' h hf
    simp only [List.map_cons, List.foldlM_cons]
    have hu := update_moved h (hf t (by simp))
    cases ha : s.updateTime t with
    | none =>
      rw [ha] at hu
      cases hb : s'.updateTime (t + τ) with
      | none => exact trivial
      | some b => rw [hb] at hu; exact hu.elim
    | some a =>
      rw [ha] at hu
      cases hb : s'.updateTime (t + τ) with
      | none => rw [hb] at hu; exact hu.elim
      | some b =>
        rw [hb] at hu
        exact ih hu fun t' ht' => by rw [path_update ha]; exact hf t' (by simp [ht'])

theorem new_moved (d : Pt3 ℝ) (τ : ℝ) (k : Kind) (b : BeamProps) (segs : List Segment) (five : Bool) :
    MovedSource d τ (Source.new k b ⟨segs, five, 0⟩) (Source.new k b ⟨movedPath d τ segs, five, 0⟩) :=
  ⟨rfl, rfl, ⟨rfl, rfl, rfl⟩, rfl, rfl, rfl, rfl, rfl, rfl, rfl⟩

theorem scalar_moved {d : Pt3 ℝ} {τ : ℝ} {s s' : Source} (h : MovedSource d τ s s') (rho2 z : ℝ) :
    s'.scalarAt rho2 z = s.scalarAt rho2 z := by
  unfold Source.scalarAt Source.cutoffRadiusSq
  rw [h.depth, h.kind, h.props, h.radius, h.alpha]

theorem lanes_moved {n : ℕ} {d : Pt3 ℝ} {τ : ℝ} {s s' : Source} (h : MovedSource d τ s s') (rho2 z : Fin n → ℝ) :
    s'.lanesAt rho2 z = s.lanesAt rho2 z := by
  unfold Source.lanesAt
  rw [h.depth, h.kind, h.radius, h.alpha]

theorem rho_moved (d c p : Pt3 ℝ) : rho2In3D (movedPt d c) (movedPt d p) = rho2In3D c p := by
  simp only [rho2In3D, movedPt]; ring

theorem value3_moved {d : Pt3 ℝ} {τ : ℝ} {s s' : Source} (h : MovedSource d τ s s') (h5 : s.fiveAxis = false)
    (p : Pt3 ℝ) : s'.value3 (movedPt d p) = s.value3 p := by
  unfold Source.value3 Source.inFrame
  rw [h.five, h5, h.center]
  simp only [Bool.false_eq_true, if_false]
  cases s.center with
  | value c =>
    simp only [movedAnswer, scalar_moved h, rho_moved]
    rw [show (movedPt d p).z - (movedPt d c).z = p.z - c.z by simp only [movedPt]; ring]
  | outOfDomain => rfl
  | nan => rfl
  | ub => rfl

theorem vector3_moved {n : ℕ} {d : Pt3 ℝ} {τ : ℝ} {s s' : Source} (h : MovedSource d τ s s') (h5 : s.fiveAxis = false)
    (p : Fin n → Pt3 ℝ) : (s'.vector3 fun i => movedPt d (p i)) = s.vector3 p := by
  unfold Source.vector3
  rw [h.five, h5, h.center]
  simp only [Bool.false_eq_true, if_false]
  cases s.center with
  | value c =>
    simp only [movedAnswer, lanes_moved h, rho_moved]
    congr 2
    funext i
    simp only [movedPt]; ring
  | outOfDomain => rfl
  | nan => rfl
  | ub => rfl

theorem value2_moved {d : Pt3 ℝ} {τ : ℝ} {s s' : Source} (h : MovedSource d τ s s') (x z : ℝ) :
    s'.value2 (x + d.x) (z + d.y) = s.value2 x z := by
  unfold Source.value2
  rw [h.center]
  cases s.center with
  | value c =>
    simp only [movedAnswer, scalar_moved h, movedPt]
    rw [show x + d.x - (c.x + d.x) = x - c.x by ring, show z + d.y - (c.y + d.y) = z - c.y by ring]
  | outOfDomain => rfl
  | nan => rfl
  | ub => rfl

theorem five_after {ts : List ℝ} : ∀ {s a : Source}, ts.foldlM (fun s t => s.updateTime t) s = some a →
    a.fiveAxis = s.fiveAxis ∧ a.path.fiveAxis = s.path.fiveAxis := by
  induction ts with
  | nil => intro s a h; cases h; exact ⟨rfl, rfl⟩
  | cons t ts ih =>
    intro s a h
    simp only [List.foldlM_cons] at h
    cases hu : s.updateTime t with
    | none => rw [hu] at h; cases h
    | some b =>
      rw [hu] at h
      obtain ⟨m, _, _, _, hf, _, _, _, _, _, _, hs⟩ := updateTime_spec hu
      have := ih h
      exact ⟨this.1.trans hf, this.2.trans hs.five⟩

theorem segs_after {ts : List ℝ} : ∀ {s a : Source}, ts.foldlM (fun s t => s.updateTime t) s = some a →
    a.path.segs = s.path.segs := by
  induction ts with
  | nil => intro s a h; cases h; rfl
  | cons t ts ih =>
    intro s a h
    simp only [List.foldlM_cons] at h
    cases hu : s.updateTime t with
    | none => rw [hu] at h; cases h
    | some b =>
      rw [hu] at h
      exact (ih h).trans (path_update hu)

theorem movedPt_zero (p : Pt3 ℝ) : movedPt ⟨0, 0, 0⟩ p = p := by
  simp [movedPt]

theorem movedAnswer_zero (a : Answer (Pt3 ℝ)) : movedAnswer ⟨0, 0, 0⟩ a = a := by
  cases a with
  | value p => simp only [movedAnswer, movedPt_zero]
  | outOfDomain => rfl
  | nan => rfl
  | ub => rfl

/-! ## The deposition -/

section Deposition

open Verif.Deposition

/-- `c'` is the context `c` of a segment without rotation at another place and time. -/
structure MovedCtx (d : Pt3 ℝ) (τ : ℝ) (c c' : SegCtx) : Prop where
  rot : c.seg.endRotation = none
  time : c'.startTime = c.startTime + τ
  start : c'.startPoint = movedPt d c.startPoint
  ref : c'.refStart = movedPt d c.refStart
  seg : c'.seg = movedSegment d τ c.seg

/-- A loop state at another place. -/
def movedState (d : Pt3 ℝ) (s : LoopState) : LoopState := ⟨movedPt d s.center, s.nbl⟩

theorem distance_moved (d a b : Pt3 ℝ) : distance (movedPt d a) (movedPt d b) = distance a b := by
  simp only [distance, movedPt]
  congr 1
  ring

section
variable {d : Pt3 ℝ} {τ : ℝ} {c c' : SegCtx} (h : MovedCtx d τ c c')
include h

theorem len_moved : c'.len = c.len := by
  unfold SegCtx.len
  rw [h.seg, h.start]
  exact distance_moved d _ _

theorem cos_moved : c'.cos = c.cos := by
  unfold SegCtx.cos
  rw [len_moved h, h.seg, h.start]
  simp only [movedSegment, movedPt, add_sub_add_right_eq_sub]

theorem sin_moved : c'.sin = c.sin := by
  unfold SegCtx.sin
  rw [len_moved h, h.seg, h.start]
  simp only [movedSegment, movedPt, add_sub_add_right_eq_sub]

theorem timeTo_moved (x : ℝ) : c'.timeTo x = c.timeTo x := by
  unfold SegCtx.timeTo
  rw [len_moved h, h.seg, h.time]
  simp only [movedSegment, add_sub_add_right_eq_sub]

theorem dist_moved (s : LoopState) : c'.dist (movedState d s) = c.dist s := by
  unfold SegCtx.dist
  rw [h.ref]
  exact distance_moved d _ _

theorem stops_moved (s : LoopState) : c'.stops (movedState d s) ↔ c.stops s := by
  unfold SegCtx.stops
  rw [dist_moved h, len_moved h]

theorem increment_moved (p : Params) (s : LoopState) : c'.increment p (movedState d s) = c.increment p s := by
  unfold SegCtx.increment
  rw [dist_moved h, len_moved h]

theorem next_moved (p : Params) (s : LoopState) : c'.next p (movedState d s) = movedState d (c.next p s) := by
  have hr : c'.seg.endRotation = none := by rw [h.seg]; exact h.rot
  unfold SegCtx.next
  rw [increment_moved h, dist_moved h, len_moved h, cos_moved h, sin_moved h, hr, h.rot]
  simp only [movedState, movedPt]
  congr 2 <;> ring

theorem state_moved (p : Params) (n : ℕ) : c'.state p n = movedState d (c.state p n) := by
  induction n with
  | zero => simp only [SegCtx.state, h.ref, movedState]
  | succ n ih => rw [SegCtx.state, ih, next_moved h, SegCtx.state]

theorem box3_moved (p : Params) (s : LoopState) : box3 p c' (movedState d s) = (box3 p c s).map (movedBox3 d) := by
  have hr : c'.seg.endRotation = none := by rw [h.seg]; exact h.rot
  unfold box3
  rw [hr, h.rot]
  simp only [Option.map_some, planarBox3, cos_moved h, sin_moved h, movedState, movedPt, movedBox3]
  congr 2
  · ext i
    fin_cases i <;> simp <;> ring
  · ext i
    fin_cases i <;> simp <;> ring

theorem box2_moved (p : Params) (s : LoopState) : box2 p c' (movedState d s) = (box2 p c s).map (movedBox2 d) := by
  have hr : c'.seg.endRotation = none := by rw [h.seg]; exact h.rot
  unfold box2
  rw [hr, h.rot]
  simp only [Option.map_some, movedState, movedPt, movedBox2]
  congr 2
  · ext i
    fin_cases i <;> simp <;> ring
  · ext i
    fin_cases i <;> simp <;> ring

end

/-- A deposition time and the delayed one: both are cut off at `eps`. -/
def DelayedTime (τ : ℝ) (a b : Option ℝ) : Prop :=
  (a = none ∧ b = none) ∨ ∃ x, a = some (max x eps) ∧ b = some (max (x + τ) eps)

/-- `l'` is `l` moved, with delayed times. -/
structure MovedL {β : Type} (mv : β → β) (τ : ℝ) (l l' : Lists β) : Prop where
  boxes : l'.boxes = l.boxes.map mv
  times : List.Forall₂ (DelayedTime τ) l.times l'.times
  cosines : l'.cosines = l.cosines
  sines : l'.sines = l.sines

/-- The outcomes correspond. -/
def MovedG {β : Type} (mv : β → β) (τ : ℝ) : Gen β → Gen β → Prop
  | .ok l, .ok l' => MovedL mv τ l l'
  | .thrown, .thrown => True
  | .diverges, .diverges => True
  | _, _ => False

/-- The way boxes are made commutes with the motion. -/
def Commutes {β : Type} (d : Pt3 ℝ) (τ : ℝ) (mv : β → β) (mk : Params → SegCtx → LoopState → Option β) : Prop :=
  ∀ p c c' s, MovedCtx d τ c c' → mk p c' (movedState d s) = (mk p c s).map mv

theorem pushTime_moved {d : Pt3 ℝ} {τ : ℝ} {c c' : SegCtx} (h : MovedCtx d τ c c') (p : Params) (x : ℝ) :
    DelayedTime τ (c.pushTime p x) (c'.pushTime p x) := by
  unfold SegCtx.pushTime
  rw [timeTo_moved h, h.time]
  cases c.timeTo x with
  | none => exact Or.inl ⟨rfl, rfl⟩
  | some t =>
    refine Or.inr ⟨c.startTime + t - p.lead, rfl, ?_⟩
    simp only [Option.map_some]
    congr 2
    ring

theorem pushAll_moved {β : Type} {d : Pt3 ℝ} {τ : ℝ} {mv : β → β} {mk : Params → SegCtx → LoopState → Option β}
    (hmk : Commutes d τ mv mk) {c c' : SegCtx} (h : MovedCtx d τ c c') (p : Params) (ss : List LoopState) :
    ∀ {l l' : Lists β}, MovedL mv τ l l' →
      match pushAll mk p c l ss, pushAll mk p c' l' (ss.map (movedState d)) with
      | some a, some b => MovedL mv τ a b
      | none, none => True
      | _, _ => False := by
  induction ss with
  | nil => intro l l' hl; exact hl
  | cons s ss ih =>
    intro l l' hl
    simp only [List.map_cons, pushAll, hmk p c c' s h]
    cases mk p c s with
    | none => trivial
    | some b =>
      simp only [Option.map_some]
      apply ih
      refine ⟨by simp [push, hl.boxes], ?_, by simp [push, hl.cosines, cos_moved h], by simp [push, hl.sines, sin_moved h]⟩
      simp only [push, dist_moved h]
      exact List.rel_append hl.times (List.Forall₂.cons (pushTime_moved h p _) List.Forall₂.nil)

theorem lastIndex_moved {d : Pt3 ℝ} {τ : ℝ} {c c' : SegCtx} (h : MovedCtx d τ c c') (p : Params)
    (e : ∃ n, c.stops (c.state p n)) (e' : ∃ n, c'.stops (c'.state p n)) : c'.lastIndex p e' = c.lastIndex p e := by
  unfold SegCtx.lastIndex
  congr 1
  funext n
  rw [state_moved h]
  exact propext (stops_moved h _)

theorem runSegment_moved {β : Type} {d : Pt3 ℝ} {τ : ℝ} {mv : β → β} {mk : Params → SegCtx → LoopState → Option β}
    (hmk : Commutes d τ mv mk) {c c' : SegCtx} (h : MovedCtx d τ c c') (p : Params) {l l' : Lists β}
    (hl : MovedL mv τ l l') : MovedG mv τ (runSegment mk p c l) (runSegment mk p c' l') := by
  unfold runSegment
  have hn : (mk p c' (c'.state p 0)).isNone = (mk p c (c.state p 0)).isNone := by
    rw [state_moved h, hmk p c c' _ h]
    cases mk p c (c.state p 0) <;> rfl
  rw [hn]
  by_cases h0 : (mk p c (c.state p 0)).isNone
  · rw [if_pos h0, if_pos h0]; trivial
  rw [if_neg h0, if_neg h0]
  by_cases e : ∃ n, c.stops (c.state p n)
  · have e' : ∃ n, c'.stops (c'.state p n) := by
      obtain ⟨n, hn⟩ := e
      exact ⟨n, by rw [state_moved h]; exact (stops_moved h _).mpr hn⟩
    rw [dif_pos e, dif_pos e', lastIndex_moved h p e e']
    have hm : (List.range (c.lastIndex p e + 1)).map (c'.state p) =
        ((List.range (c.lastIndex p e + 1)).map (c.state p)).map (movedState d) := by
      rw [List.map_map]
      exact List.map_congr_left fun n _ => state_moved h p n
    rw [hm]
    have := pushAll_moved hmk h p ((List.range (c.lastIndex p e + 1)).map (c.state p)) hl
    revert this
    cases pushAll mk p c l ((List.range (c.lastIndex p e + 1)).map (c.state p)) with
    | none =>
      cases pushAll mk p c' l' (((List.range (c.lastIndex p e + 1)).map (c.state p)).map (movedState d)) with
      | none => exact fun _ => trivial
      | some b => exact fun hh => hh
    | some a =>
      cases pushAll mk p c' l' (((List.range (c.lastIndex p e + 1)).map (c.state p)).map (movedState d)) with
      | none => exact fun hh => hh
      | some b => exact fun hh => hh
  · have e' : ¬∃ n, c'.stops (c'.state p n) := by
      rintro ⟨n, hn⟩
      rw [state_moved h] at hn
      exact e ⟨n, (stops_moved h _).mp hn⟩
    rw [dif_neg e, dif_neg e']
    trivial

theorem runSegments_moved {β : Type} {d : Pt3 ℝ} {τ : ℝ} {mv : β → β} {mk : Params → SegCtx → LoopState → Option β}
    (hmk : Commutes d τ mv mk) (p : Params) (segs : List Segment) :
    ∀ {t0 : ℝ} {p0 r0 : Pt3 ℝ} {l l' : Lists β}, (∀ s ∈ segs, s.endRotation = none) → MovedL mv τ l l' →
      MovedG mv τ (runSegments mk p t0 p0 r0 l segs)
        (runSegments mk p (t0 + τ) (movedPt d p0) (movedPt d r0) l' (movedPath d τ segs)) := by
  induction segs with
  | nil => intro t0 p0 r0 l l' _ hl; exact hl
  | cons s rest ih =>
    intro t0 p0 r0 l l' hr hl
    have hrs : s.endRotation = none := hr s (by simp)
    have hrr : ∀ s ∈ rest, s.endRotation = none := fun x hx => hr x (by simp [hx])
    have hb : buildRef (movedSegment d τ s).endRotation (movedSegment d τ s).endPoint =
        movedPt d (buildRef s.endRotation s.endPoint) := by
      simp only [movedSegment, hrs, buildRef]
    have hpow : (movedSegment d τ s).power = s.power := rfl
    simp only [movedPath, List.map_cons, runSegments, hb, hpow]
    by_cases hp : s.power > eps
    · rw [if_pos hp, if_pos hp]
      have := runSegment_moved hmk (c := ⟨t0, p0, r0, s⟩) (c' := ⟨t0 + τ, movedPt d p0, movedPt d r0, movedSegment d τ s⟩)
        ⟨hrs, rfl, rfl, rfl, rfl⟩ p hl
      revert this
      cases runSegment mk p ⟨t0, p0, r0, s⟩ l with
      | ok a =>
        cases runSegment mk p ⟨t0 + τ, movedPt d p0, movedPt d r0, movedSegment d τ s⟩ l' with
        | ok b => exact fun hh => ih hrr hh
        | thrown => exact fun hh => False.elim hh
        | diverges => exact fun hh => False.elim hh
      | thrown =>
        cases runSegment mk p ⟨t0 + τ, movedPt d p0, movedPt d r0, movedSegment d τ s⟩ l' with
        | ok b => exact fun hh => False.elim hh
        | thrown => exact fun hh => hh
        | diverges => exact fun hh => hh
      | diverges =>
        cases runSegment mk p ⟨t0 + τ, movedPt d p0, movedPt d r0, movedSegment d τ s⟩ l' with
        | ok b => exact fun hh => False.elim hh
        | thrown => exact fun hh => hh
        | diverges => exact fun hh => hh
    · rw [if_neg hp, if_neg hp]
      exact ih hrr hl

theorem along_moved {β : Type} {d : Pt3 ℝ} {τ : ℝ} {mv : β → β} {mk : Params → SegCtx → LoopState → Option β}
    (hmk : Commutes d τ mv mk) (p : Params) (segs : List Segment) (hr : ∀ s ∈ segs, s.endRotation = none)
    (hf : τ = 0 ∨ ∀ f, segs.head? = some f → f.power ≤ eps) :
    MovedG mv τ (alongScanPath mk p segs) (alongScanPath mk p (movedPath d τ segs)) := by
  cases segs with
  | nil => trivial
  | cons s rest =>
    have hrs : s.endRotation = none := hr s (by simp)
    have hb : buildRef (movedSegment d τ s).endRotation (movedSegment d τ s).endPoint =
        movedPt d (buildRef s.endRotation s.endPoint) := by
      simp only [movedSegment, hrs, buildRef]
    have he : MovedL mv τ (.empty : Lists β) .empty := ⟨rfl, List.Forall₂.nil, rfl, rfl⟩
    simp only [alongScanPath, movedPath, List.map_cons, hb]
    rcases hf with hτ | hf
    · have := runSegments_moved hmk p (s :: rest) (t0 := 0) (p0 := s.endPoint)
        (r0 := buildRef s.endRotation s.endPoint) hr he
      rw [hτ, add_zero] at this
      rw [hτ]
      exact this
    · have hp : ¬ s.power > eps := not_lt.mpr (hf s rfl)
      have hp' : ¬ (movedSegment d τ s).power > eps := hp
      simp only [runSegments]
      rw [if_neg hp, if_neg hp', hb]
      exact runSegments_moved hmk p rest (fun x hx => hr x (by simp [hx])) he

theorem times_still {ts ts' : List (Option ℝ)} (h : List.Forall₂ (DelayedTime 0) ts ts') :
    ts' = ts.map fun t => t.map (· + 0) := by
  induction h with
  | nil => rfl
  | cons hd _ ih =>
    rw [List.map_cons, ih]
    congr 1
    rcases hd with ⟨rfl, rfl⟩ | ⟨x, rfl, rfl⟩
    · rfl
    · simp

theorem times_late {τ : ℝ} (hτ : 0 ≤ τ) {ts ts' : List (Option ℝ)} (h : List.Forall₂ (DelayedTime τ) ts ts')
    (hl : ∀ x : ℝ, some x ∈ ts → eps < x) : ts' = ts.map fun t => t.map (· + τ) := by
  induction h with
  | nil => rfl
  | cons hd _ ih =>
    rw [List.map_cons, ih fun x hx => hl x (by simp [hx])]
    congr 1
    rcases hd with ⟨rfl, rfl⟩ | ⟨x, rfl, rfl⟩
    · rfl
    · have := hl (max x eps) (by simp)
      have hx : eps < x := by
        rcases lt_max_iff.mp this with h1 | h1
        · exact h1
        · exact absurd h1 (lt_irrefl _)
      simp only [Option.map_some]
      rw [max_eq_left hx.le, max_eq_left (by linarith)]

theorem gen_still {β : Type} {mv : β → β} {g g' : Gen β} (h : MovedG mv 0 g g') : g' = movedGen mv 0 g := by
  cases g with
  | ok l =>
    cases g' with
    | ok l' =>
      have h' : MovedL mv 0 l l' := h
      obtain ⟨b', t', c', s'⟩ := l'
      obtain ⟨hb, ht, hc, hs⟩ := h'
      simp only at hb ht hc hs
      simp only [movedGen, movedLists, hb, times_still ht, hc, hs]
    | thrown => exact False.elim h
    | diverges => exact False.elim h
  | thrown =>
    cases g' with
    | ok l' => exact False.elim h
    | thrown => rfl
    | diverges => exact False.elim h
  | diverges =>
    cases g' with
    | ok l' => exact False.elim h
    | thrown => exact False.elim h
    | diverges => rfl

theorem gen_late {β : Type} {mv : β → β} {τ : ℝ} (hτ : 0 ≤ τ) {l : Lists β} {g' : Gen β} (h : MovedG mv τ (.ok l) g')
    (hl : ∀ x : ℝ, some x ∈ l.times → eps < x) : g' = .ok (movedLists mv τ l) := by
  cases g' with
  | ok l' =>
    have h' : MovedL mv τ l l' := h
    obtain ⟨b', t', c', s'⟩ := l'
    obtain ⟨hb, ht, hc, hs⟩ := h'
    simp only at hb ht hc hs
    simp only [movedLists, hb, times_late hτ ht hl, hc, hs]
  | thrown => exact False.elim h
  | diverges => exact False.elim h

end Deposition

/-! ## C135 -/

/-- The heat of a beam that follows the moved and delayed path is the moved and delayed heat: for every history of
`update_time` calls (in any order), every point and every set of points (vectorised), in 3D and in 2D. -/
theorem C135_heat (d : Pt3 ℝ) (τ : ℝ) (k : Kind) (b : BeamProps) (segs : List Segment) (ts : List ℝ)
    (hf : ∀ t ∈ ts, FirstOk τ segs t) :
    (∀ p, (beamAfter k b (movedPath d τ segs) false (ts.map (· + τ))).map (·.value3 (movedPt d p)) =
      (beamAfter k b segs false ts).map (·.value3 p)) ∧
    (∀ (n : ℕ) (p : Fin n → Pt3 ℝ),
      (beamAfter k b (movedPath d τ segs) false (ts.map (· + τ))).map (·.vector3 fun i => movedPt d (p i)) =
        (beamAfter k b segs false ts).map (·.vector3 p)) ∧
    ∀ x z : ℝ, (beamAfter k b (movedPath d τ segs) false (ts.map (· + τ))).map (·.value2 (x + d.x) (z + d.y)) =
      (beamAfter k b segs false ts).map (·.value2 x z) := by
  have h := beam_moved ts (new_moved d τ k b segs false) hf
  simp only [beamAfter]
  cases ha : ts.foldlM (fun s t => s.updateTime t) (Source.new k b ⟨segs, false, 0⟩) with
  | none =>
    rw [ha] at h
    cases hb : (ts.map (· + τ)).foldlM (fun s t => s.updateTime t) (Source.new k b ⟨movedPath d τ segs, false, 0⟩) with
    | none => exact ⟨fun _ => rfl, fun _ _ => rfl, fun _ _ => rfl⟩
    | some b' => rw [hb] at h; exact h.elim
  | some a =>
    rw [ha] at h
    cases hb : (ts.map (· + τ)).foldlM (fun s t => s.updateTime t) (Source.new k b ⟨movedPath d τ segs, false, 0⟩) with
    | none => rw [hb] at h; exact h.elim
    | some b' =>
      rw [hb] at h
      have h5 : a.fiveAxis = false := (five_after ha).1
      exact ⟨fun p => congrArg some (value3_moved h h5 p), fun n p => congrArg some (vector3_moved h h5 p),
        fun x z => congrArg some (value2_moved h x z)⟩

/-- Delaying a path delays the heat, for five-axis paths too. -/
theorem C135_delay (τ : ℝ) (k : Kind) (b : BeamProps) (segs : List Segment) (five : Bool) (ts : List ℝ)
    (hf : ∀ t ∈ ts, FirstOk τ segs t) (p : Pt3 ℝ) :
    (beamAfter k b (movedPath ⟨0, 0, 0⟩ τ segs) five (ts.map (· + τ))).map (·.value3 p) =
      (beamAfter k b segs five ts).map (·.value3 p) := by
  have h := beam_moved ts (new_moved ⟨0, 0, 0⟩ τ k b segs five) hf
  simp only [beamAfter]
  cases ha : ts.foldlM (fun s t => s.updateTime t) (Source.new k b ⟨segs, five, 0⟩) with
  | none =>
    rw [ha] at h
    cases hb : (ts.map (· + τ)).foldlM (fun s t => s.updateTime t)
        (Source.new k b ⟨movedPath ⟨0, 0, 0⟩ τ segs, five, 0⟩) with
    | none => rfl
    | some b' => rw [hb] at h; exact h.elim
  | some a =>
    rw [ha] at h
    cases hb : (ts.map (· + τ)).foldlM (fun s t => s.updateTime t)
        (Source.new k b ⟨movedPath ⟨0, 0, 0⟩ τ segs, five, 0⟩) with
    | none => rw [hb] at h; exact h.elim
    | some b' =>
      rw [hb] at h
      simp only [Option.map_some]
      congr 1
      unfold Source.value3 Source.inFrame
      rw [h.five, h.quat, h.center, movedAnswer_zero]
      simp only [scalar_moved h]

/-- The boxes refined around the beam move with it. -/
theorem C135_box (d : Pt3 ℝ) (τ : ℝ) (k : Kind) (b : BeamProps) (segs : List Segment) (ts : List ℝ) (t scaling : ℝ)
    (hf : ∀ t' ∈ ts, FirstOk τ segs t') (ht : FirstOk τ segs t) :
    (beamAfter k b (movedPath d τ segs) false (ts.map (· + τ))).map (·.boundingBox3 (t + τ) scaling) =
      (beamAfter k b segs false ts).map fun s => (s.boundingBox3 t scaling).map fun B =>
        ⟨movedPt d B.lo, movedPt d B.hi⟩ := by
  have h := beam_moved ts (new_moved d τ k b segs false) hf
  simp only [beamAfter]
  cases ha : ts.foldlM (fun s t => s.updateTime t) (Source.new k b ⟨segs, false, 0⟩) with
  | none =>
    rw [ha] at h
    cases hb : (ts.map (· + τ)).foldlM (fun s t => s.updateTime t) (Source.new k b ⟨movedPath d τ segs, false, 0⟩) with
    | none => rfl
    | some b' => rw [hb] at h; exact h.elim
  | some a =>
    rw [ha] at h
    cases hb : (ts.map (· + τ)).foldlM (fun s t => s.updateTime t) (Source.new k b ⟨movedPath d τ segs, false, 0⟩) with
    | none => rw [hb] at h; exact h.elim
    | some b' =>
      rw [hb] at h
      have h5 : a.path.fiveAxis = false := (five_after ha).2
      have hs : a.path.segs = segs := segs_after ha
      simp only [Option.map_some]
      congr 1
      unfold Source.boundingBox3
      rw [(value_moved h.path (by rw [hs]; exact ht) false).1, h.path.five, h5]
      cases (ScanPath.value a.path t false).1 with
      | value c =>
        simp only [movedAnswer, Bool.false_eq_true, if_false, Option.map_some, boxAround, h.props, movedPt]
        congr 2 <;> ring_nf
      | outOfDomain => rfl
      | nan => rfl
      | ub => rfl

/-- Moving a path (without rotations) moves the boxes of the deposition and changes nothing else, also when the generation
throws or does not end. -/
theorem C135_deposition (d : Pt3 ℝ) (p : Deposition.Params) (segs : List Segment)
    (hr : ∀ s ∈ segs, s.endRotation = none) :
    Deposition.alongScanPath Deposition.box3 p (movedPath d 0 segs) =
      movedGen (movedBox3 d) 0 (Deposition.alongScanPath Deposition.box3 p segs) ∧
    Deposition.alongScanPath Deposition.box2 p (movedPath d 0 segs) =
      movedGen (movedBox2 d) 0 (Deposition.alongScanPath Deposition.box2 p segs) :=
  ⟨gen_still (along_moved (fun p _ _ s h => box3_moved h p s) p segs hr (Or.inl rfl)),
    gen_still (along_moved (fun p _ _ s h => box2_moved h p s) p segs hr (Or.inl rfl))⟩

/-- Delaying a path whose first record has no power delays the deposition, if no time is cut off at the beginning. -/
theorem C135_deposition_delay_partial (d : Pt3 ℝ) (τ : ℝ) (hτ : 0 ≤ τ) (p : Deposition.Params) (segs : List Segment)
    (hr : ∀ s ∈ segs, s.endRotation = none) (hf : ∀ f, segs.head? = some f → f.power ≤ 1e-10)
    (l : Deposition.Lists (Deposition.Box 3)) (hl : Deposition.alongScanPath Deposition.box3 p segs = .ok l)
    (hpos : ∀ x : ℝ, some x ∈ l.times → 1e-10 < x) :
    Deposition.alongScanPath Deposition.box3 p (movedPath d τ segs) = .ok (movedLists (movedBox3 d) τ l) := by
  have h := along_moved (d := d) (τ := τ) (mv := movedBox3 d) (fun p _ _ s h => box3_moved h p s) p segs hr
    (Or.inr hf)
  rw [hl] at h
  exact gen_late hτ h hpos

theorem current_first (f : Segment) (rest : List Segment) (five : Bool) (t : ℝ) (h : t ≤ f.endTime) :
    current ⟨f :: rest, five, 0⟩ t = some (0, f) := by
  have : search (f :: rest) t 0 = some 0 := search_intro le_rfl (by simp) h (by intro j _ _ hj; omega)
  simp [current, this]

/-- A path whose first record ends at time zero has no position at time zero, but has one when it is delayed. -/
theorem C135_first_refuted :
    ∃ (k : Kind) (b : BeamProps) (segs : List Segment) (p : Pt3 ℝ) (v : ℝ),
      (beamAfter k b segs false [0]).map (·.value3 p) = some none ∧
        (beamAfter k b (movedPath ⟨0, 0, 0⟩ 1 segs) false [0 + 1]).map (·.value3 p) = some (some v) := by
  have c1 := current_first ⟨0, 0, ⟨0, 0, 0⟩, none⟩ [⟨1, 1, ⟨1, 0, 0⟩, none⟩] false 0 le_rfl
  have c2 := current_first ⟨1, 0, ⟨0, 0, 0⟩, none⟩ [⟨2, 1, ⟨1, 0, 0⟩, none⟩] false 1 le_rfl
  have n1 : ¬ (1 : ℝ) < 0 := by norm_num
  have n2 : ¬ (2 : ℝ) < 1 := by norm_num
  have h1 : (beamAfter .goldak ⟨1, 1, 1, 1, 1⟩ [⟨0, 0, ⟨0, 0, 0⟩, none⟩, ⟨1, 1, ⟨1, 0, 0⟩, none⟩] false [0]).map
      (·.value3 ⟨0, 0, 0⟩) = some none := by
    simp [beamAfter, Source.updateTime, Source.new, powerModifier, ScanPath.value, c1, n1, Path.save, segStart,
      Source.value3, Source.inFrame]
  have e : movedPath ⟨0, 0, 0⟩ 1 [⟨0, 0, ⟨0, 0, 0⟩, none⟩, ⟨1, 1, ⟨1, 0, 0⟩, none⟩] =
      [⟨1, 0, ⟨0, 0, 0⟩, none⟩, ⟨2, 1, ⟨1, 0, 0⟩, none⟩] := by
    simp [movedPath, movedSegment, movedPt]; norm_num
  have h2 : (beamAfter .goldak ⟨1, 1, 1, 1, 1⟩ [⟨1, 0, ⟨0, 0, 0⟩, none⟩, ⟨2, 1, ⟨1, 0, 0⟩, none⟩] false [0 + 1]).map
      (·.value3 ⟨0, 0, 0⟩) = some (some 0) := by
    simp [beamAfter, Source.updateTime, Source.new, powerModifier, ScanPath.value, c2, n2, Path.save, segStart,
      Source.value3, Source.inFrame, lerp, Source.scalarAt, coefficient]
  exact ⟨.goldak, ⟨1, 1, 1, 1, 1⟩, _, ⟨0, 0, 0⟩, _, h1, by rw [e]; exact h2⟩

/-- A first record with power is deposited at once, however late the path is: its deposition time is not delayed. -/
theorem C135_first_power_refuted :
    ∃ (p : Deposition.Params) (segs : List Segment) (b : Deposition.Box 3),
      Deposition.alongScanPath Deposition.box3 p segs = .ok ⟨[b], [some 1e-10], [1], [0]⟩ ∧
        Deposition.alongScanPath Deposition.box3 p (movedPath ⟨0, 0, 0⟩ 100 segs) = .ok ⟨[b], [some 1e-10], [1], [0]⟩ := by
  have key : ∀ t : ℝ, 0 < t → Deposition.alongScanPath Deposition.box3 ⟨1, 1, 1, 0⟩ [⟨t, 1, ⟨0, 0, 0⟩, none⟩] =
      .ok ⟨[⟨![-0.5, -0.5, -1], ![0.5, 0.5, 0]⟩], [some 1e-10], [1], [0]⟩ := by
    intro t ht
    set c : Deposition.SegCtx := ⟨0, ⟨0, 0, 0⟩, ⟨0, 0, 0⟩, ⟨t, 1, ⟨0, 0, 0⟩, none⟩⟩ with hc
    have hlen : c.len = 0 := by simp [hc, Deposition.SegCtx.len, distance]
    have hcos : c.cos = 1 := by simp [Deposition.SegCtx.cos, hlen]
    have hsin : c.sin = 0 := by simp [Deposition.SegCtx.sin, hlen]
    have hdist : c.dist (c.state ⟨1, 1, 1, 0⟩ 0) = 0 := by simp [hc, Deposition.SegCtx.dist, Deposition.SegCtx.state, distance]
    have hst : c.stops (c.state ⟨1, 1, 1, 0⟩ 0) := by
      simp only [Deposition.SegCtx.stops, hdist, hlen, Deposition.eps]; norm_num
    have hex : ∃ n, c.stops (c.state ⟨1, 1, 1, 0⟩ n) := ⟨0, hst⟩
    have hli : c.lastIndex ⟨1, 1, 1, 0⟩ hex = 0 := by
      unfold Deposition.SegCtx.lastIndex
      exact (@Nat.find_eq_zero _ (_) hex).mpr hst
    have htime : c.pushTime ⟨1, 1, 1, 0⟩ 0 = some 1e-10 := by
      have : c.timeTo 0 = some 0 := by
        unfold Deposition.SegCtx.timeTo
        rw [hlen]
        simp
        intro h
        simp [hc] at h
        exact absurd h ht.ne'
      unfold Deposition.SegCtx.pushTime
      rw [this]
      simp [hc, Deposition.eps]
      norm_num
    have hrun : Deposition.runSegment Deposition.box3 ⟨1, 1, 1, 0⟩ c .empty =
        .ok ⟨[⟨![-0.5, -0.5, -1], ![0.5, 0.5, 0]⟩], [some 1e-10], [1], [0]⟩ := by
      unfold Deposition.runSegment
      rw [if_neg (by simp [Deposition.box3]), dif_pos hex, hli]
      have hr : c.seg.endRotation = none := rfl
      simp [Deposition.pushAll, Deposition.box3, hr, Deposition.push, Deposition.Lists.empty, hdist, hcos, hsin, htime,
        Deposition.planarBox3]
      simp [hc, Deposition.SegCtx.state]
    have hpow : (1 : ℝ) > Deposition.eps := by simp only [Deposition.eps]; norm_num
    simp only [Deposition.alongScanPath, Deposition.runSegments, Deposition.buildRef]
    rw [if_pos hpow, ← hc, hrun]
  exact ⟨⟨1, 1, 1, 0⟩, [⟨1, 1, ⟨0, 0, 0⟩, none⟩], _, key 1 one_pos, by
    have := key (1 + 100) (by norm_num)
    simpa [movedPath, movedSegment, movedPt] using this⟩

/-- The scan path of the project's tests moved by `(1, 2, 3)` and delayed by `10`: the last box and the times. -/
example : ∃ l : Deposition.Lists (Deposition.Box 3),
    Deposition.alongScanPath Deposition.box3 Conformance.testParams (movedPath ⟨1, 2, 3⟩ 10 Conformance.scanPathSegments) = .ok l ∧
      l.boxes[4]? = some ⟨![1.00175, 2.05, 3], ![1.00225, 2.15, 3.1]⟩ ∧
      l.times = [some 10.000001, some 10.000626, some 10.001251, some 10.001876, some 10.002501] := by
  obtain ⟨l, hl, _, _, h4, ht, _⟩ := Conformance.conformance_deposition_3d
  refine ⟨_, C135_deposition_delay_partial ⟨1, 2, 3⟩ 10 (by norm_num) _ _ ?_ ?_ l hl ?_, ?_, ?_⟩
  · intro s hs
    simp only [Conformance.scanPathSegments, List.mem_cons, List.not_mem_nil, or_false] at hs
    rcases hs with rfl | rfl <;> rfl
  · intro f hf
    simp only [Conformance.scanPathSegments, List.head?_cons, Option.some.injEq] at hf
    subst hf
    norm_num
  · intro x hx
    rw [ht] at hx
    simp only [List.mem_cons, Option.some.injEq, List.not_mem_nil, or_false] at hx
    rcases hx with rfl | rfl | rfl | rfl | rfl <;> norm_num
  · simp only [movedLists, List.getElem?_map, h4, Option.map_some, movedBox3]
    norm_num
    constructor
    · rfl
    · change (1 / 10 : ℝ) + 3 = 31 / 10
      norm_num
  · simp only [movedLists, ht, List.map_cons, Option.map_some, List.map_nil]
    norm_num

/-- A heated point of the same path, moved and delayed. -/
example (k : Kind) (b : BeamProps) (p : Pt3 ℝ) :
    (beamAfter k b (movedPath ⟨1, 2, 3⟩ 10 Conformance.scanPathSegments) false [0.0005 + 10, 0.002 + 10]).map
        (·.value3 ⟨p.x + 1, p.y + 2, p.z + 3⟩) =
      (beamAfter k b Conformance.scanPathSegments false [0.0005, 0.002]).map (·.value3 p) := by
  refine (C135_heat ⟨1, 2, 3⟩ 10 k b Conformance.scanPathSegments [0.0005, 0.002] ?_).1 p
  intro t ht f hf _
  simp only [Conformance.scanPathSegments, List.head?_cons, Option.some.injEq] at hf
  subst hf
  constructor <;> norm_num

end Verif.HeatSource
