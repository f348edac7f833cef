import Verif.Deposition.Coverage
import Verif.Quaternion.Props

/-!
# C119: deposition along five-axis paths

The scan path of a five-axis process is recorded in the frame of the machine (the beam moves, the table turns); the material
is deposited in the frame of the part.  A heat source finds the machine position of a point of the part with
`Quaternion::rotate` (`GoldakHeatSource.cc:50-57`, `ElectronBeamHeatSource.cc:51-58`), so a machine position is brought
into the frame of the part with `inv_rotate`, as `material_deposition.cc:162-165, 174-178, 317-320` does for the end points of a
segment.
-/

namespace Verif.Deposition

open Verif.Quat Verif.ScanPath

/-! ## Specification -/

/-- The orientation of the table at the start of segment `i`. -/
def startRot (segs : List Segment) (i : ℕ) (s : Segment) : Option (Q ℝ) := (segStart segs i s).2.2

/-- The table does not turn during segment `i`: its orientation at the start and at the end is the unit rotation `q`. -/
def Steady (segs : List Segment) (i : ℕ) (s : Segment) (q : Q ℝ) : Prop :=
  startRot segs i s = some q ∧ s.endRotation = some q ∧ q.IsUnit

/-- The point of the part that is at the machine position `x` when the table has orientation `q`. -/
def OnPart (q : Q ℝ) (part x : Pt3 ℝ) : Prop := q.rotate part = x

/-- Half the size in `x` and in `y` of a bead of length `len` in the machine frame. -/
noncomputable def halfX (c s len width : ℝ) : ℝ := (|c| * len + |s| * width) / 2

/-- Half the size in `y`. -/
noncomputable def halfY (c s len width : ℝ) : ℝ := (|c| * width + |s| * len) / 2

/-- The box with opposite corners `m + a` and `m + b`. -/
noncomputable def cornerBox (m a b : Pt3 ℝ) : Box 3 where
  lo := ![m.x + min a.x b.x, m.y + min a.y b.y, m.z + min a.z b.z]
  hi := ![m.x + max a.x b.x, m.y + max a.y b.y, m.z + max a.z b.z]

/-- Every point of the box is at machine height at most `z` when the table has orientation `q`. -/
def Below (q : Q ℝ) (b : Box 3) (z : ℝ) : Prop := ∀ x, b.Has x → (q.rotate x).z ≤ z

/-- Every point of the box is at machine height at least `z`. -/
def Above (q : Q ℝ) (b : Box 3) (z : ℝ) : Prop := ∀ x, b.Has x → z ≤ (q.rotate x).z

/-! ## Lemmas -/

theorem distance_eq_of_distSq {a b c d : Pt3 ℝ} (h : distSq a b = distSq c d) : distance a b = distance c d := by
  have h1 : ∀ u v : Pt3 ℝ, distance u v = Real.sqrt (distSq u v) := by
    intro u v
    unfold distance distSq
    congr 1
  rw [h1, h1, h]

theorem rotate_distance (q : Q ℝ) (hq : q.IsUnit) (a b : Pt3 ℝ) : distance (q.rotate a) (q.rotate b) = distance a b :=
  distance_eq_of_distSq (C01_rotate_isometry q hq a b)

theorem invRotate_distance (q : Q ℝ) (hq : q.IsUnit) (a b : Pt3 ℝ) :
    distance (q.invRotate a) (q.invRotate b) = distance a b := by
  rw [← rotate_distance q hq, C01_rotate_inv_rotate q hq, C01_rotate_inv_rotate q hq]

theorem invRotate_along (q : Q ℝ) (hq : q.IsUnit) (a b : Pt3 ℝ) (d : ℝ) :
    q.invRotate (along a b d) = along (q.invRotate a) (q.invRotate b) d := by
  unfold along
  rw [invRotate_distance q hq]
  simp only [Q.invRotate, Mat3.apply, Pt3.mk.injEq]
  refine ⟨?_, ?_, ?_⟩ <;> ring

theorem distance_along (a b : Pt3 ℝ) (d : ℝ) (hd : 0 ≤ d) (h0 : distance b a = 0 → d = 0) :
    distance (along a b d) a = d := by
  by_cases hl : distance b a = 0
  · rw [h0 hl]
    have : along a b 0 = a := by simp [along]
    rw [this, distance_self]
  · have := distance_ray a ⟨(b.x - a.x) / distance b a, (b.y - a.y) / distance b a, (b.z - a.z) / distance b a⟩ d hd 1
      zero_le_one (by
        dsimp only
        rw [div_pow, div_pow, div_pow, ← add_div, ← add_div, ← distance_sq, div_self (pow_ne_zero 2 hl), one_pow])
    rw [one_mul] at this
    exact this

theorem along_step (a b : Pt3 ℝ) (d i : ℝ) (hd : d < distance b a) :
    (let dir : Pt3 ℝ := ⟨b.x - (along a b d).x, b.y - (along a b d).y, b.z - (along a b d).z⟩
     (⟨(along a b d).x + i * (dir.x / norm dir), (along a b d).y + i * (dir.y / norm dir),
       (along a b d).z + i * (dir.z / norm dir)⟩ : Pt3 ℝ)) = along a b (d + i) := by
  have hl0 : 0 ≤ distance b a := Real.sqrt_nonneg _
  by_cases hlz : distance b a = 0
  · have hsq := distance_sq b a
    rw [hlz] at hsq
    have hx : b.x - a.x = 0 := by nlinarith [sq_nonneg (b.x - a.x), sq_nonneg (b.y - a.y), sq_nonneg (b.z - a.z)]
    have hy : b.y - a.y = 0 := by nlinarith [sq_nonneg (b.x - a.x), sq_nonneg (b.y - a.y), sq_nonneg (b.z - a.z)]
    have hz : b.z - a.z = 0 := by nlinarith [sq_nonneg (b.x - a.x), sq_nonneg (b.y - a.y), sq_nonneg (b.z - a.z)]
    simp [along, hx, hy, hz]
  · have hl : 0 < distance b a := lt_of_le_of_ne hl0 (Ne.symm hlz)
    have hsq := distance_sq b a
    have hn : norm ⟨b.x - (along a b d).x, b.y - (along a b d).y, b.z - (along a b d).z⟩ = distance b a - d := by
      unfold norm along
      have : (b.x - (a.x + (b.x - a.x) / distance b a * d)) ^ 2 + (b.y - (a.y + (b.y - a.y) / distance b a * d)) ^ 2 +
          (b.z - (a.z + (b.z - a.z) / distance b a * d)) ^ 2 = (distance b a - d) ^ 2 := by
        have e : ∀ u : ℝ, ∀ v : ℝ, u - (v + (u - v) / distance b a * d) = (u - v) * ((distance b a - d) / distance b a) := by
          intro u v; field_simp; ring
        rw [e, e, e, mul_pow, mul_pow, mul_pow, ← add_mul, ← add_mul, ← hsq, ← mul_pow, mul_div_cancel₀ _ hlz]
      simp only [this]
      exact Real.sqrt_sq (by linarith)
    dsimp only
    rw [hn]
    have hnz : distance b a - d ≠ 0 := by linarith
    simp only [along, Pt3.mk.injEq]
    refine ⟨?_, ?_, ?_⟩ <;> field_simp <;> ring

/-- What is needed of a context whose rotation is steady. -/
structure SteadyCtx (c : SegCtx) (q : Q ℝ) : Prop where
  unit : q.IsUnit
  rot : c.seg.endRotation = some q
  ref : c.refStart = q.invRotate c.startPoint

theorem ctxOf_steady (segs : List Segment) (i : ℕ) (s : Segment) (q : Q ℝ) (h : Steady segs i s q) :
    SteadyCtx (ctxOf segs i s) q := by
  refine ⟨h.2.2, h.2.1, ?_⟩
  have : (segStart segs i s).2.2 = some q := h.1
  simp [ctxOf, this, buildRef]

theorem SteadyCtx.end_distance {c : SegCtx} {q : Q ℝ} (h : SteadyCtx c q) :
    distance (q.invRotate c.seg.endPoint) c.refStart = c.len := by
  rw [h.ref, invRotate_distance q h.unit]; rfl

/-- The distance of the end points of the segment in the frame of the part. -/
noncomputable def SegCtx.chord (c : SegCtx) (q : Q ℝ) : ℝ := distance (q.invRotate c.seg.endPoint) c.refStart

/-- Closed form of the loop on a segment that is not shorter in the frame of the part than in that of the machine. -/
theorem chord_closed (c : SegCtx) (q : Q ℝ) (hrot : c.seg.endRotation = some q) (hD : c.len ≤ c.chord q) (p : Params)
    (hL : 0 < p.length) (n : ℕ) (hn : ∀ m < n, ¬ c.stops (c.state p m)) :
    c.state p n = ⟨along c.refStart (q.invRotate c.seg.endPoint) (min (n * p.length) c.len), beadLength p.length c.len n⟩ ∧
      c.dist (c.state p n) = min (n * p.length) c.len := by
  have key : ∀ (k : ℕ) (nbl : ℝ),
      c.dist ⟨along c.refStart (q.invRotate c.seg.endPoint) (min (k * p.length) c.len), nbl⟩ =
      min (k * p.length) c.len := by
    intro k nbl
    unfold SegCtx.dist
    dsimp only
    exact distance_along _ _ _ (le_min (by positivity) (len_nonneg c))
      (fun h0 => by
        have h1 : c.chord q = 0 := h0
        have : c.len = 0 := le_antisymm (by linarith) (len_nonneg c)
        rw [this]; exact min_eq_right (by positivity))
  suffices h : c.state p n = ⟨along c.refStart (q.invRotate c.seg.endPoint) (min (n * p.length) c.len),
      beadLength p.length c.len n⟩ by
    refine ⟨h, ?_⟩
    rw [h, key]
  induction n with
  | zero => simp [SegCtx.state, beadLength, len_nonneg c, along]
  | succ n ih =>
    have ih := ih fun m hm => hn m (by omega)
    have hnot := hn n (by omega)
    rw [SegCtx.stops, ih, key] at hnot
    have he := eps_pos
    have hlt : (n : ℝ) * p.length < c.len := by
      by_contra hcon
      rw [min_eq_right (not_lt.1 hcon)] at hnot
      linarith
    have hb : beadLength p.length c.len n = p.length := by simp [beadLength, hlt.le]
    have hd := key n (beadLength p.length c.len n)
    rw [SegCtx.state, ih]
    unfold SegCtx.next
    simp only [hd, SegCtx.increment, hrot]
    rw [min_eq_left hlt.le, hb]
    have hstep := along_step c.refStart (q.invRotate c.seg.endPoint) ((n : ℝ) * p.length)
      (if (n : ℝ) * p.length + p.length > c.len then c.len - (n : ℝ) * p.length else p.length)
      (lt_of_lt_of_le hlt hD)
    dsimp only at hstep
    rw [hstep]
    unfold beadLength
    push_cast
    by_cases hcmp : (n : ℝ) * p.length + p.length > c.len
    · have h1 : ¬ ((n : ℝ) + 1) * p.length ≤ c.len := by linarith
      rw [if_pos hcmp, if_neg h1, min_eq_right (by linarith)]
      congr 1 <;> ring_nf
    · have h1 : ((n : ℝ) + 1) * p.length ≤ c.len := by linarith
      rw [if_neg hcmp, if_pos h1, min_eq_left h1]
      congr 1; ring_nf

theorem chord_stops (c : SegCtx) (q : Q ℝ) (hrot : c.seg.endRotation = some q) (hD : c.len ≤ c.chord q) (p : Params)
    (hL : 0 < p.length) : ∃ n, c.stops (c.state p n) := by
  by_contra hno
  push Not at hno
  obtain ⟨n, hn⟩ := exists_nat_gt (c.len / p.length)
  rw [div_lt_iff₀ hL] at hn
  have h := hno n
  rw [SegCtx.stops, (chord_closed c q hrot hD p hL n (fun m _ => hno m)).2, min_eq_right hn.le] at h
  have := eps_pos
  linarith

/-- Closed form of the loop on a segment during which the table does not turn. -/
theorem steady_closed (c : SegCtx) (q : Q ℝ) (hc : SteadyCtx c q) (p : Params) (hL : 0 < p.length) (n : ℕ)
    (hn : ∀ m < n, ¬ c.stops (c.state p m)) :
    c.state p n = ⟨q.invRotate (along c.startPoint c.seg.endPoint (min (n * p.length) c.len)),
      beadLength p.length c.len n⟩ ∧ c.dist (c.state p n) = min (n * p.length) c.len := by
  have h := chord_closed c q hc.rot (le_of_eq hc.end_distance.symm) p hL n hn
  refine ⟨?_, h.2⟩
  rw [h.1, invRotate_along q hc.unit, hc.ref]

theorem steady_stops (c : SegCtx) (q : Q ℝ) (hc : SteadyCtx c q) (p : Params) (hL : 0 < p.length) :
    ∃ n, c.stops (c.state p n) := chord_stops c q hc.rot (le_of_eq hc.end_distance.symm) p hL

theorem rotatedBox3_eq (q : Q ℝ) (p : Params) (c : SegCtx) (st : LoopState) :
    rotatedBox3 q p c st = cornerBox st.center
      (q.rotate ⟨halfX c.cos c.sin st.nbl p.width, halfY c.cos c.sin st.nbl p.width, 0⟩)
      (q.rotate ⟨-halfX c.cos c.sin st.nbl p.width, -halfY c.cos c.sin st.nbl p.width, -p.height⟩) := by
  unfold rotatedBox3 cornerBox halfX halfY
  dsimp only
  rw [neg_div, neg_div]

/-! ## Theorems -/

/-- The powered segment is not shorter on the part than in the machine: the points of the part under the beam at its start and at
its end are at least as far apart as the positions of the beam. -/
def NotShorter (segs : List Segment) (i : ℕ) (s : Segment) : Prop :=
  ∃ q₀ q₁ : Q ℝ, startRot segs i s = some q₀ ∧ s.endRotation = some q₁ ∧ q₀.IsUnit ∧ q₁.IsUnit ∧
    ∀ a e : Pt3 ℝ, OnPart q₀ a (startPt segs i s) → OnPart q₁ e s.endPoint →
      distance s.endPoint (startPt segs i s) ≤ distance e a

theorem notShorter_of_steady (segs : List Segment) (i : ℕ) (s : Segment) (q : Q ℝ) (h : Steady segs i s q) :
    NotShorter segs i s := by
  refine ⟨q, q, h.1, h.2.1, h.2.2, h.2.2, ?_⟩
  intro a e ha he
  rw [← ha, ← he, rotate_distance q h.2.2]

/-- C119 (termination): the generation ends for every five-axis path none of whose powered segments is shorter on the part than in
the machine; in particular if the table stands still during the powered segments (`notShorter_of_steady`), which may
go straight up.  Missing: segments that are shorter on the part (`C12_five_axis_refuted`: the generation need not end). -/
theorem C119_terminates_partial (p : Params) (segs : List Segment) (hne : segs ≠ []) (hL : 0 < p.length)
    (hst : ∀ (i : ℕ) (s : Segment), segs[i]? = some s → s.power > 1e-10 → NotShorter segs i s) :
    ∃ l, alongScanPath box3 p segs = .ok l := by
  have hmk := fun i s (_ : segs[i]? = some s) st => box3_total p (ctxOf segs i s) st
  obtain ⟨h1, _⟩ := alongScanPath_eq box3 boxFun p segs hne hmk
  refine ⟨_, h1 ?_⟩
  intro i s hs hp
  obtain ⟨q₀, q₁, e0, e1, hu0, hu1, hd⟩ := hst i s hs hp
  have e0' : (segStart segs i s).2.2 = some q₀ := e0
  refine chord_stops (ctxOf segs i s) q₁ e1 ?_ p hL
  have := hd (q₀.invRotate (startPt segs i s)) (q₁.invRotate s.endPoint) (C01_rotate_inv_rotate q₀ hu0 _)
    (C01_rotate_inv_rotate q₁ hu1 _)
  simpa [SegCtx.chord, SegCtx.len, ctxOf, e0', buildRef, startPt] using this

/-- C119: while the beam stands still (in the machine), a powered segment leaves exactly one box, however far the table turns
meanwhile. -/
theorem C119_turning_spot (p : Params) (segs : List Segment) (hne : segs ≠ []) (l : Lists (Box 3))
    (h : alongScanPath box3 p segs = .ok l) :
    ∃ blocks : List (List (Box 3 × Option ℝ × ℝ × ℝ)),
      blocks.length = segs.length ∧ rows l = blocks.flatten ∧
      ∀ (i : ℕ) (s : Segment) (blk : List (Box 3 × Option ℝ × ℝ × ℝ)), segs[i]? = some s → blocks[i]? = some blk →
        (s.power ≤ 1e-10 → blk = []) ∧
        ∀ (q₀ q₁ : Q ℝ), s.power > 1e-10 → s.endPoint = startPt segs i s →
        startRot segs i s = some q₀ → s.endRotation = some q₁ → q₀.IsUnit →
        ∃ m r, blk = [r] ∧ OnPart q₀ m s.endPoint ∧
          r.1 = cornerBox m (q₁.rotate ⟨p.length / 2, p.width / 2, 0⟩) (q₁.rotate ⟨-(p.length / 2), -(p.width / 2), -p.height⟩) := by
  have hmk := fun i s (_ : segs[i]? = some s) st => box3_total p (ctxOf segs i s) st
  obtain ⟨hall, rfl⟩ := ok_iff_allStop box3 boxFun p segs hne hmk l h
  obtain ⟨hr, hp⟩ := rows_appendRows_empty (β := Box 3) ((pathContexts segs).flatMap (block boxFun p))
  refine ⟨(pathContexts segs).map (block boxFun p), by simp [pathContexts_length], by rw [hr, List.flatMap_def], ?_⟩
  intro i s blk hs hb
  rw [List.getElem?_map, pathContexts_get segs i s hs] at hb
  simp only [Option.map_some, Option.some.injEq] at hb
  set c := ctxOf segs i s with hc
  constructor
  · intro hoff
    have hp' : ¬ c.seg.power > eps := not_lt.2 hoff
    rw [← hb, block, if_neg hp']
  intro q₀ q₁ hpow hpt e0 e1 hu
  have hrot : c.seg.endRotation = some q₁ := e1
  have hlen : c.len = 0 := by
    have : c.len = distance s.endPoint (startPt segs i s) := rfl
    rw [this, hpt, distance_self]
  have hstop0 : c.stops (c.state p 0) := by
    simp only [SegCtx.stops, SegCtx.dist, SegCtx.state, distance_self, hlen]
    have := eps_pos
    linarith
  have hex : ∃ n, c.stops (c.state p n) := ⟨0, hstop0⟩
  have hli : c.lastIndex p hex = 0 := by
    unfold SegCtx.lastIndex; classical exact (Nat.find_eq_zero hex).2 hstop0
  have hp' : c.seg.power > eps := hpow
  have hcos : c.cos = 1 := by simp [SegCtx.cos, hlen]
  have hsin : c.sin = 0 := by simp [SegCtx.sin, hlen]
  have hbox : boxFun p c (c.state p 0) = rotatedBox3 q₁ p c (c.state p 0) := by simp only [boxFun, hrot]
  have href : c.refStart = q₀.invRotate s.endPoint := by
    have e0' : (segStart segs i s).2.2 = some q₀ := e0
    have : c.refStart = q₀.invRotate (startPt segs i s) := by simp [hc, ctxOf, e0', buildRef, startPt]
    rw [this, ← hpt]
  refine ⟨q₀.invRotate s.endPoint, (boxFun p c (c.state p 0), c.pushTime p (c.dist (c.state p 0)), c.cos, c.sin), ?_,
    C01_rotate_inv_rotate q₀ hu _, ?_⟩
  · rw [← hb, block, if_pos hp', dif_pos hex, hli]; rfl
  · dsimp only
    rw [hbox, rotatedBox3_eq, hcos, hsin]
    simp only [halfX, halfY, SegCtx.state, href, abs_one, abs_zero, one_mul, zero_mul, add_zero]

/-- How C119 describes a row of a segment with steady orientation `q`: at distance `d` from its start the box of a bead of length
`len` is placed at the point of the part under the beam, and it is deposited when the beam is there, less the lead time. -/
def FiveRow (p : Params) (q : Q ℝ) (t0 : ℝ) (a : Pt3 ℝ) (s : Segment) (d len : ℝ) (r : Box 3 × Option ℝ × ℝ × ℝ) : Prop :=
  (∃ m, OnPart q m (along a s.endPoint d) ∧
    r.1 = cornerBox m (q.rotate ⟨halfX r.2.2.1 r.2.2.2 len p.width, halfY r.2.2.1 r.2.2.2 len p.width, 0⟩)
      (q.rotate ⟨-halfX r.2.2.1 r.2.2.2 len p.width, -halfY r.2.2.1 r.2.2.2 len p.width, -p.height⟩)) ∧
  r.2.1 = some (max (t0 + d * (s.endTime - t0) / distance s.endPoint a - p.lead) 1e-10) ∧
  (distance s.endPoint a ≠ 0 →
    r.2.2.1 = (s.endPoint.x - a.x) / distance s.endPoint a ∧ r.2.2.2 = (s.endPoint.y - a.y) / distance s.endPoint a) ∧
  (distance s.endPoint a = 0 → r.2.2.1 = 1 ∧ r.2.2.2 = 0)

/-- C119 (placement): the rows of a powered segment of positive duration during which the table stands still are given by
beads whose distances along the segment start at 0, increase by at most the deposition length and end within `1e-10`
of its end; every box is placed at the point of the part that is under the beam, at the time the beam gets there less the lead
time.  Missing: segments during which the table turns. -/
theorem C119_rows_partial (p : Params) (segs : List Segment) (hne : segs ≠ []) (hL : 0 < p.length) (l : Lists (Box 3))
    (h : alongScanPath box3 p segs = .ok l) :
    ∃ blocks : List (List (Box 3 × Option ℝ × ℝ × ℝ)),
      blocks.length = segs.length ∧ rows l = blocks.flatten ∧
      ∀ (i : ℕ) (s : Segment) (blk : List (Box 3 × Option ℝ × ℝ × ℝ)) (q : Q ℝ), segs[i]? = some s → blocks[i]? = some blk →
        Steady segs i s q → startT segs i s < s.endTime →
        (blk ≠ [] ↔ s.power > 1e-10) ∧
        (s.power > 1e-10 → ∃ beads : List (ℝ × ℝ),
          List.Forall₂ (fun (b : ℝ × ℝ) r => FiveRow p q (startT segs i s) (startPt segs i s) s b.1 b.2 r) beads blk ∧
          (∀ (k : ℕ) (b : ℝ × ℝ), beads[k]? = some b → b.1 = min (k * p.length) (distance s.endPoint (startPt segs i s))) ∧
          (∀ b ∈ beads, 0 < b.2 ∧ b.2 ≤ p.length) ∧
          (∀ b, beads.getLast? = some b → distance s.endPoint (startPt segs i s) < b.1 + 1e-10) ∧
          (beads.map Prod.snd).sum ≤ distance s.endPoint (startPt segs i s) + p.length ∧
          distance s.endPoint (startPt segs i s) + p.length < (beads.map Prod.snd).sum + 1e-10) := by
  have hmk := fun i s (_ : segs[i]? = some s) st => box3_total p (ctxOf segs i s) st
  obtain ⟨hall, rfl⟩ := ok_iff_allStop box3 boxFun p segs hne hmk l h
  obtain ⟨hr, hp⟩ := rows_appendRows_empty (β := Box 3) ((pathContexts segs).flatMap (block boxFun p))
  refine ⟨(pathContexts segs).map (block boxFun p), by simp [pathContexts_length], by rw [hr, List.flatMap_def], ?_⟩
  intro i s blk q hs hb hsteady hdur
  rw [List.getElem?_map, pathContexts_get segs i s hs] at hb
  simp only [Option.map_some, Option.some.injEq] at hb
  have hc := ctxOf_steady segs i s q hsteady
  set c := ctxOf segs i s with hcdef
  have hend : c.seg = s := rfl
  have hsp : c.startPoint = startPt segs i s := rfl
  have hlen : c.len = distance s.endPoint (startPt segs i s) := rfl
  by_cases hpow : s.power > 1e-10
  swap
  · have hblk : blk = [] := by
      have hp' : ¬ c.seg.power > eps := hpow
      rw [← hb, block, if_neg hp']
    exact ⟨⟨fun hne' => absurd hblk hne', fun h => absurd h hpow⟩, fun h => absurd h hpow⟩
  have hex := steady_stops c q hc p hL
  have he := eps_pos
  obtain ⟨hls, hlm⟩ := lastIndex_spec c p hex
  have hl1 : min ((c.lastIndex p hex : ℝ) * p.length) c.len + eps > c.len := by
    rw [SegCtx.stops, (steady_closed c q hc p hL _ hlm).2] at hls
    exact hls
  have hl2 : ∀ m < c.lastIndex p hex, (m : ℝ) * p.length + eps ≤ c.len := by
    intro m hm
    have h3 := hlm m hm
    rw [SegCtx.stops, (steady_closed c q hc p hL m (fun k hk => hlm k (by omega))).2] at h3
    rcases le_total ((m : ℝ) * p.length) c.len with h4 | h4
    · rw [min_eq_left h4] at h3; linarith
    · rw [min_eq_right h4] at h3; linarith
  have hblk : blk = (List.range (c.lastIndex p hex + 1)).map fun n =>
      (boxFun p c (c.state p n), c.pushTime p (c.dist (c.state p n)), c.cos, c.sin) := by
    have hp' : c.seg.power > eps := hpow
    rw [← hb, block, if_pos hp', dif_pos hex]
  refine ⟨⟨fun _ => hpow, fun _ hn => ?_⟩, fun _ => ⟨(List.range (c.lastIndex p hex + 1)).map fun n : ℕ =>
    (min ((n : ℝ) * p.length) c.len, beadLength p.length c.len n), ?_, ?_, ?_, ?_, ?_⟩⟩
  · rw [hn] at hblk; simp at hblk
  · rw [hblk, List.forall₂_map_left_iff, List.forall₂_map_right_iff, List.forall₂_same]
    intro n hn
    have hn' := List.mem_range.1 hn
    obtain ⟨hstate, hdist⟩ := steady_closed c q hc p hL n (fun m hm => hlm m (by omega))
    have h1 : boxFun p c (c.state p n) = rotatedBox3 q p c (c.state p n) := by simp only [boxFun, hc.rot]
    refine ⟨⟨(c.state p n).center, ?_, ?_⟩, ?_, ?_, ?_⟩
    · rw [hstate]
      exact C01_rotate_inv_rotate q hc.unit _
    · dsimp only
      rw [h1, rotatedBox3_eq, hstate]
    · dsimp only
      rw [hdist, SegCtx.pushTime, timeTo_eq c _ hdur (by
        intro h0; rw [h0]; exact min_eq_right (by positivity))]
      rfl
    · intro hl
      have hl' : c.len ≠ 0 := hl
      simp only [SegCtx.cos, SegCtx.sin, ne_eq, hl', not_false_eq_true, if_true]
      exact ⟨rfl, rfl⟩
    · intro hl
      have hl' : c.len = 0 := hl
      simp [SegCtx.cos, SegCtx.sin, hl']
  · intro k b hk
    rw [List.getElem?_map] at hk
    obtain ⟨n, hn1, hn2⟩ := Option.map_eq_some_iff.1 hk
    obtain ⟨hlt, hn3⟩ := List.getElem?_eq_some_iff.1 hn1
    rw [List.getElem_range] at hn3
    rw [← hn2, hn3, hlen]
  · intro b hb
    simp only [List.mem_map, List.mem_range] at hb
    obtain ⟨n, hn, rfl⟩ := hb
    constructor
    · simp only [beadLength]
      split
      · exact hL
      · rename_i hcon
        cases n with
        | zero => simp at hcon; linarith [len_nonneg c]
        | succ m =>
          have := hl2 m (by omega)
          push_cast
          linarith
    · simp only [beadLength]
      split
      · exact le_rfl
      · rename_i hcon; linarith
  · intro b hb
    rw [List.range_succ, List.map_append, List.map_singleton, List.getLast?_concat, Option.some.injEq] at hb
    rw [← hb, ← hlen]
    have he' : eps = 1e-10 := rfl
    rw [← he']
    exact hl1
  · rw [List.map_map]
    have hsum := beadLength_sum p.length c.len (c.lastIndex p hex) (fun m hm => by linarith [hl2 m hm])
    have hfun : (Prod.snd ∘ fun n : ℕ => (min ((n : ℝ) * p.length) c.len, beadLength p.length c.len n)) =
        beadLength p.length c.len := rfl
    rw [hfun, hsum]
    have hm : min ((c.lastIndex p hex : ℝ) * p.length) c.len ≤ c.len := min_le_right _ _
    have he' : eps = 1e-10 := rfl
    rw [← hlen]
    constructor <;> linarith

/-- A rotation about the vertical axis (only the table turns, no tilt). -/
def NoTilt (q : Q ℝ) : Prop := q.i = 0 ∧ q.j = 0

/-- C119 (no tilt): if the table has only been turned about the vertical axis, the box placed at a point contains that point, lies
below it, reaches exactly the deposition height below it and is exactly that thick. -/
theorem C119_no_tilt (q : Q ℝ) (hq : q.IsUnit) (hz : NoTilt q) (m : Pt3 ℝ) (hx hy h : ℝ) (h0 : 0 ≤ h) :
    let b := cornerBox m (q.rotate ⟨hx, hy, 0⟩) (q.rotate ⟨-hx, -hy, -h⟩)
    b.Has m ∧ b.lo 2 = m.z - h ∧ b.hi 2 = m.z ∧
    Below q b (q.rotate m).z ∧
    (b.lo 0 + b.hi 0) / 2 = m.x ∧ (b.lo 1 + b.hi 1) / 2 = m.y := by
  obtain ⟨hi, hj⟩ := hz
  have e1 : q.rotate ⟨hx, hy, 0⟩ = ⟨(1 - 2 * (q.k * q.k)) * hx - 2 * (q.k * q.r) * hy,
      2 * (q.k * q.r) * hx + (1 - 2 * (q.k * q.k)) * hy, 0⟩ := by
    simp only [Q.rotate, Q.rotationMatrix, Mat3.apply, hi, hj, Pt3.mk.injEq]
    refine ⟨?_, ?_, ?_⟩ <;> ring
  have e2 : q.rotate ⟨-hx, -hy, -h⟩ = ⟨-((1 - 2 * (q.k * q.k)) * hx - 2 * (q.k * q.r) * hy),
      -(2 * (q.k * q.r) * hx + (1 - 2 * (q.k * q.k)) * hy), -h⟩ := by
    simp only [Q.rotate, Q.rotationMatrix, Mat3.apply, hi, hj, Pt3.mk.injEq]
    refine ⟨?_, ?_, ?_⟩ <;> ring
  have ez : ∀ x : Pt3 ℝ, (q.rotate x).z = x.z := by
    intro x
    simp only [Q.rotate, Q.rotationMatrix, Mat3.apply, hi, hj]; ring
  generalize (1 - 2 * (q.k * q.k)) * hx - 2 * (q.k * q.r) * hy = u at e1 e2
  generalize 2 * (q.k * q.r) * hx + (1 - 2 * (q.k * q.k)) * hy = v at e1 e2
  have hu1 : min u (-u) ≤ 0 := by rcases le_total 0 u with h | h <;> [exact (min_le_right _ _).trans (by linarith); exact (min_le_left _ _).trans h]
  have hv1 : min v (-v) ≤ 0 := by rcases le_total 0 v with h | h <;> [exact (min_le_right _ _).trans (by linarith); exact (min_le_left _ _).trans h]
  have hu3 : min u (-u) + max u (-u) = 0 := by rw [min_add_max]; ring
  have hv3 : min v (-v) + max v (-v) = 0 := by rw [min_add_max]; ring
  dsimp only
  rw [e1, e2]
  simp only [cornerBox, Box.Has, Below, Matrix.cons_val_zero, Matrix.cons_val_one, Matrix.cons_val_two, Matrix.tail_cons,
    Matrix.head_cons, ez, Matrix.cons_val]
  rw [min_eq_right (by linarith : -h ≤ (0 : ℝ)), max_eq_left (by linarith : -h ≤ (0 : ℝ))]
  refine ⟨⟨by linarith, by linarith, by linarith, by linarith, by linarith, by linarith⟩, by ring, by ring, ?_, by linarith,
    by linarith⟩
  rintro x ⟨-, -, -, -, -, hx⟩
  linarith

/-- C119 (identity): with the identity rotation the box is the bead box of a path without rotations. -/
theorem C119_identity (m : Pt3 ℝ) (c s len width height : ℝ) (hl : 0 ≤ len) (hw : 0 ≤ width) (hh : 0 ≤ height) :
    cornerBox m ((⟨1, 0, 0, 0⟩ : Q ℝ).rotate ⟨halfX c s len width, halfY c s len width, 0⟩)
      ((⟨1, 0, 0, 0⟩ : Q ℝ).rotate ⟨-halfX c s len width, -halfY c s len width, -height⟩) =
    beadBox m c s len width height := by
  have e : ∀ x : Pt3 ℝ, (⟨1, 0, 0, 0⟩ : Q ℝ).rotate x = x := by
    intro x
    simp [Q.rotate, Q.rotationMatrix, Mat3.apply]
  have hx : 0 ≤ halfX c s len width := by unfold halfX; positivity
  have hy : 0 ≤ halfY c s len width := by unfold halfY; positivity
  rw [e, e]
  unfold cornerBox beadBox
  dsimp only
  rw [min_eq_right (by linarith : -halfX c s len width ≤ halfX c s len width),
    max_eq_left (by linarith : -halfX c s len width ≤ halfX c s len width),
    min_eq_right (by linarith : -halfY c s len width ≤ halfY c s len width),
    max_eq_left (by linarith : -halfY c s len width ≤ halfY c s len width),
    min_eq_right (by linarith : -height ≤ 0), max_eq_left (by linarith : -height ≤ 0)]
  unfold halfX halfY
  congr 1 <;> funext i <;> fin_cases i <;> simp <;> ring

/-- A unit rotation that tilts the table by a quarter turn about the `x` axis. -/
noncomputable def quarterX : Q ℝ := ⟨Real.sqrt 2 / 2, Real.sqrt 2 / 2, 0, 0⟩

theorem quarterX_unit : quarterX.IsUnit := by
  have : Real.sqrt 2 * Real.sqrt 2 = 2 := Real.mul_self_sqrt (by norm_num)
  unfold Q.IsUnit quarterX
  dsimp only
  nlinarith

theorem quarterX_rotate (x : Pt3 ℝ) : quarterX.rotate x = ⟨x.x, -x.z, x.y⟩ := by
  have : Real.sqrt 2 / 2 * (Real.sqrt 2 / 2) = 1 / 2 := by
    have : Real.sqrt 2 * Real.sqrt 2 = 2 := Real.mul_self_sqrt (by norm_num)
    nlinarith
  simp only [Q.rotate, Q.rotationMatrix, Mat3.apply, quarterX, this, Pt3.mk.injEq]
  refine ⟨?_, ?_, ?_⟩ <;> ring

/-- C119 is violated: the corners of the box are turned with `rotate` where `inv_rotate` is needed.  For a table tilted by a
quarter turn about `x` the box at the point `m` under the beam lies entirely **above** the beam and reaches up to the deposition
height above it, whatever the size of the bead. -/
theorem C119_wrong_side_refuted (m : Pt3 ℝ) (hx hy h : ℝ) (h0 : 0 ≤ hx) (h1 : 0 ≤ hy) (h2 : 0 < h) :
    let b := cornerBox m (quarterX.rotate ⟨hx, hy, 0⟩) (quarterX.rotate ⟨-hx, -hy, -h⟩)
    Above quarterX b (quarterX.rotate m).z ∧
    (∃ x, b.Has x ∧ (quarterX.rotate x).z = (quarterX.rotate m).z + h) ∧
    ¬ Below quarterX b (quarterX.rotate m).z := by
  dsimp only
  simp only [quarterX_rotate]
  simp only [cornerBox, Box.Has, Below, Above, quarterX_rotate, Matrix.cons_val_zero, Matrix.cons_val_one, Matrix.cons_val_two,
    Matrix.tail_cons, Matrix.head_cons, Matrix.cons_val, neg_neg, neg_zero]
  rw [min_eq_right (by linarith : -hx ≤ hx), max_eq_left (by linarith : -hx ≤ hx), min_eq_left h2.le, max_eq_right h2.le,
    min_eq_right (by linarith : -hy ≤ hy), max_eq_left (by linarith : -hy ≤ hy)]
  refine ⟨fun x hx' => by linarith [hx'.2.2.1], ⟨⟨m.x, m.y + h, m.z⟩, ?_, rfl⟩, ?_⟩
  · refine ⟨?_, ?_, ?_, ?_, ?_, ?_⟩ <;> dsimp only <;> linarith
  · intro hcon
    have := hcon ⟨m.x, m.y + h, m.z⟩ ⟨by dsimp only; linarith, by dsimp only; linarith, by dsimp only; linarith,
      by dsimp only; linarith, by dsimp only; linarith, by dsimp only; linarith⟩
    dsimp only at this
    linarith

/-- C119 is violated: only two opposite corners of the box are turned.  For a table tilted about `x` by an angle with cosine `c` and
sine `t` such that `0 < c · (half the width) < t · height`, the box placed at the point under the beam does not contain this
point. -/
theorem C119_beam_outside_refuted (q : Q ℝ) (hj : q.j = 0) (hk : q.k = 0) (m : Pt3 ℝ) (hx hy h : ℝ)
    (h1 : 0 < (1 - 2 * q.i ^ 2) * hy) (h2 : (1 - 2 * q.i ^ 2) * hy < 2 * (q.i * q.r) * h) :
    ¬ (cornerBox m (q.rotate ⟨hx, hy, 0⟩) (q.rotate ⟨-hx, -hy, -h⟩)).Has m := by
  rintro ⟨-, -, hy1, -⟩
  simp only [cornerBox, Q.rotate, Q.rotationMatrix, Mat3.apply, hj, hk, Matrix.cons_val_one, Matrix.cons_val_zero] at hy1
  have : min (2 * (q.i * 0 + 0 * q.r) * hx + (1 - 2 * (q.i * q.i + 0 * 0)) * hy + 2 * (0 * 0 - q.i * q.r) * 0)
      (2 * (q.i * 0 + 0 * q.r) * -hx + (1 - 2 * (q.i * q.i + 0 * 0)) * -hy + 2 * (0 * 0 - q.i * q.r) * -h) ≤ 0 := by
    linarith
  rcases min_le_iff.1 this with h3 | h3 <;> nlinarith

/-- A table tilted by an angle with cosine 0.6 and sine 0.8 and a bead as high as wide meet the hypotheses of
`C119_beam_outside_refuted`. -/
example : ∃ q : Q ℝ, q.IsUnit ∧ q.j = 0 ∧ q.k = 0 ∧ (0 : ℝ) < (1 - 2 * q.i ^ 2) * 0.5 ∧
    (1 - 2 * q.i ^ 2) * 0.5 < 2 * (q.i * q.r) * 1 := by
  have h5 : Real.sqrt 5 * Real.sqrt 5 = 5 := Real.mul_self_sqrt (by norm_num)
  refine ⟨⟨2 * Real.sqrt 5 / 5, Real.sqrt 5 / 5, 0, 0⟩, ?_, rfl, rfl, ?_, ?_⟩
  · unfold Q.IsUnit; dsimp only; nlinarith
  · dsimp only; nlinarith
  · dsimp only; nlinarith

/-- A path along `x` on a table tilted by a quarter turn. -/
noncomputable def tiltedPath : List Segment :=
  [⟨1, 0, ⟨0, 0, 0⟩, some quarterX⟩, ⟨2, 1, ⟨1, 0, 0⟩, some quarterX⟩]

theorem tiltedPath_steady : ∀ (i : ℕ) (s : Segment), tiltedPath[i]? = some s → Steady tiltedPath i s quarterX := by
  intro i s hs
  match i with
  | 0 => simp [tiltedPath] at hs; subst hs; exact ⟨rfl, rfl, quarterX_unit⟩
  | 1 => simp [tiltedPath] at hs; subst hs; exact ⟨rfl, rfl, quarterX_unit⟩
  | i + 2 => simp [tiltedPath] at hs

/-- C119 is violated, end to end: along `tiltedPath` the beam stays at machine height 0, but every box of material generated for it
lies above it. -/
theorem C119_tilted_path_refuted : ∃ l, alongScanPath box3 ⟨0.3, 0.1, 0.2, 0⟩ tiltedPath = .ok l ∧ l.boxes ≠ [] ∧
    ∀ b ∈ l.boxes, Above quarterX b 0 := by
  obtain ⟨l, hl⟩ := C119_terminates_partial ⟨0.3, 0.1, 0.2, 0⟩ tiltedPath (by simp [tiltedPath]) (by norm_num)
    (fun i s hs _ => notShorter_of_steady _ _ _ _ (tiltedPath_steady i s hs))
  obtain ⟨blocks, hbl, hrows, hall⟩ := C119_rows_partial _ _ (by simp [tiltedPath]) (by norm_num) l hl
  obtain ⟨hpar, -, -⟩ := C13_blocks _ _ (by simp [tiltedPath]) l hl
  have hboxes : l.boxes = blocks.flatten.map (·.1) := by
    rw [← hrows, rows]
    rw [List.map_fst_zip]
    obtain ⟨h1, h2, h3⟩ := hpar
    simp [h1, h2, h3]
  obtain ⟨b0, b1, rfl⟩ := List.length_eq_two.1 (show blocks.length = 2 from hbl)
  · obtain ⟨h0, -⟩ := hall 0 _ b0 quarterX rfl rfl (tiltedPath_steady 0 _ rfl) (by norm_num [startT, segStart, tiltedPath])
    obtain ⟨h1, h2⟩ := hall 1 _ b1 quarterX rfl rfl (tiltedPath_steady 1 _ rfl) (by norm_num [startT, segStart, tiltedPath])
    have hb0 : b0 = [] := by
      by_contra hcon
      have := h0.1 hcon
      norm_num at this
    have hb1 : b1 ≠ [] := h1.2 (by norm_num)
    obtain ⟨beads, hf, -, hpos, -⟩ := h2 (by norm_num)
    refine ⟨l, hl, ?_, ?_⟩
    · rw [hboxes, hb0]; simpa using hb1
    · intro b hb
      rw [hboxes, hb0] at hb
      simp only [List.flatten_cons, List.flatten_nil, List.append_nil, List.nil_append, List.mem_map] at hb
      obtain ⟨r, hr, rfl⟩ := hb
      have hex : ∃ bead ∈ beads, FiveRow ⟨0.3, 0.1, 0.2, 0⟩ quarterX (startT tiltedPath 1 ⟨2, 1, ⟨1, 0, 0⟩, some quarterX⟩)
          (startPt tiltedPath 1 ⟨2, 1, ⟨1, 0, 0⟩, some quarterX⟩) ⟨2, 1, ⟨1, 0, 0⟩, some quarterX⟩ bead.1 bead.2 r := by
        obtain ⟨hg1, hg2⟩ := List.forall₂_iff_get.1 hf
        obtain ⟨k, hk, rfl⟩ := List.getElem_of_mem hr
        exact ⟨beads[k]'(by rw [hg1]; exact hk), List.getElem_mem _, hg2 k (by rw [hg1]; exact hk) hk⟩
      obtain ⟨bead, hbead, ⟨m, hm, hbox⟩, -⟩ := hex
      have hz : (quarterX.rotate m).z = 0 := by
        rw [hm]; simp [along, startPt, segStart, tiltedPath]
      have hp := (hpos bead hbead).1
      have hab := (C119_wrong_side_refuted m (halfX r.2.2.1 r.2.2.2 bead.2 0.2) (halfY r.2.2.1 r.2.2.2 bead.2 0.2) 0.1
        ?_ ?_ ?_).1
      · rw [hz] at hab
        rw [hbox]
        exact hab
      · unfold halfX; positivity
      · unfold halfY; positivity
      · norm_num

/-- The beam stands still at `(1,0,0)` with the power on while the table makes half a turn. -/
noncomputable def turntable : List Segment :=
  [⟨1, 0, ⟨1, 0, 0⟩, some ⟨1, 0, 0, 0⟩⟩, ⟨2, 1, ⟨1, 0, 0⟩, some ⟨0, 0, 0, 1⟩⟩]

/-- C119 is violated when the table turns: on `turntable` the beam draws half a circle on the part, but there is only one box; the point
of the part under the beam at the end, `(-1,0,0)`, is in no box. -/
theorem C119_turntable_refuted : ∃ l, alongScanPath box3 ⟨0.2, 0.1, 0.2, 0⟩ turntable = .ok l ∧ l.boxes.length = 1 ∧
    OnPart ⟨0, 0, 0, 1⟩ ⟨-1, 0, 0⟩ ⟨1, 0, 0⟩ ∧ ∀ b ∈ l.boxes, ¬ b.Has ⟨-1, 0, 0⟩ := by
  have hns : ∀ (i : ℕ) (s : Segment), turntable[i]? = some s → s.power > 1e-10 → NotShorter turntable i s := by
    intro i s hs hp
    match i with
    | 0 => simp [turntable] at hs; subst hs; norm_num at hp
    | 1 =>
      simp [turntable] at hs; subst hs
      refine ⟨⟨1, 0, 0, 0⟩, ⟨0, 0, 0, 1⟩, rfl, rfl, by norm_num [Q.IsUnit], by norm_num [Q.IsUnit], ?_⟩
      intro a e _ _
      have : startPt turntable 1 ⟨2, 1, ⟨1, 0, 0⟩, some ⟨0, 0, 0, 1⟩⟩ = ⟨1, 0, 0⟩ := rfl
      rw [this, distance_self]
      exact dist_nonneg' _ _
    | i + 2 => simp [turntable] at hs
  obtain ⟨l, hl⟩ := C119_terminates_partial ⟨0.2, 0.1, 0.2, 0⟩ turntable (by simp [turntable]) (by norm_num) hns
  obtain ⟨blocks, hbl, hrows, hall⟩ := C119_turning_spot _ _ (by simp [turntable]) l hl
  obtain ⟨hpar, -, -⟩ := C13_blocks _ _ (by simp [turntable]) l hl
  have hboxes : l.boxes = blocks.flatten.map (·.1) := by
    rw [← hrows, rows]
    rw [List.map_fst_zip]
    obtain ⟨h1, h2, h3⟩ := hpar
    simp [h1, h2, h3]
  obtain ⟨b0, b1, rfl⟩ := List.length_eq_two.1 (show blocks.length = 2 from hbl)
  have hb0 : b0 = [] := (hall 0 _ b0 rfl rfl).1 (by norm_num)
  obtain ⟨m, r, hb1, hm, hbox⟩ := (hall 1 _ b1 rfl rfl).2 ⟨1, 0, 0, 0⟩ ⟨0, 0, 0, 1⟩ (by norm_num) rfl rfl rfl
    (by norm_num [Q.IsUnit])
  have hone : l.boxes = [r.1] := by rw [hboxes, hb0, hb1]; rfl
  refine ⟨l, hl, by rw [hone]; rfl, ?_, ?_⟩
  · simp only [OnPart, Q.rotate, Q.rotationMatrix, Mat3.apply, Pt3.mk.injEq]; norm_num
  · intro b hb
    rw [hone, List.mem_singleton] at hb
    have hmx : m.x = 1 := by
      have := congrArg Pt3.x hm
      simpa [Q.rotate, Q.rotationMatrix, Mat3.apply] using this
    rw [hb, hbox]
    rintro ⟨h1, -⟩
    simp only [cornerBox, Q.rotate, Q.rotationMatrix, Mat3.apply, Matrix.cons_val_zero, hmx] at h1
    have h2 : (1 : ℝ) + min (-0.1) 0.1 ≤ -1 := by
      refine le_trans (le_of_eq ?_) h1
      norm_num
    rw [min_eq_left (by norm_num)] at h2
    norm_num at h2

/-- The hypotheses of `C119_terminates_partial` are met by a path that rises with the power on. -/
example : ∃ l, alongScanPath box3 ⟨0.1, 0.1, 0.1, 0⟩
    [⟨1, 0, ⟨0, 0, 0⟩, some ⟨1, 0, 0, 0⟩⟩, ⟨2, 1, ⟨0, 0, 1⟩, some ⟨1, 0, 0, 0⟩⟩] = .ok l := by
  refine C119_terminates_partial _ _ (by simp) (by norm_num) ?_
  intro i s hs _
  match i with
  | 0 => simp at hs; subst hs; exact notShorter_of_steady _ _ _ ⟨1, 0, 0, 0⟩ ⟨rfl, rfl, by norm_num [Q.IsUnit]⟩
  | 1 => simp at hs; subst hs; exact notShorter_of_steady _ _ _ ⟨1, 0, 0, 0⟩ ⟨rfl, rfl, by norm_num [Q.IsUnit]⟩
  | i + 2 => simp at hs

end Verif.Deposition
