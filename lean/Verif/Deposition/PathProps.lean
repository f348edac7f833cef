import Verif.Deposition.PathLemmas
import Mathlib.Tactic.FieldSimp

/-!
# C12, C13, C14: deposition along a scan path
-/

namespace Verif.Deposition

open Verif.Quat Verif.ScanPath

/-! ## Specification -/

/-- No segment has a rotation (not a five-axis path). -/
def Unrotated (segs : List Segment) : Prop := ∀ s ∈ segs, s.endRotation = none

/-- Where segment `i` starts. -/
def startPt (segs : List Segment) (i : ℕ) (s : Segment) : Pt3 ℝ := (segStart segs i s).2.1

/-- When segment `i` starts. -/
def startT (segs : List Segment) (i : ℕ) (s : Segment) : ℝ := (segStart segs i s).1

/-- The segment goes straight up or down and is not shorter than the tolerance. -/
def Vertical (segs : List Segment) (i : ℕ) (s : Segment) : Prop :=
  s.endPoint.x = (startPt segs i s).x ∧ s.endPoint.y = (startPt segs i s).y ∧
    1e-10 ≤ distance s.endPoint (startPt segs i s)

/-- The box with top centre `q` for a bead of the given length, width and height whose direction has cosine `c` and sine
`s`. -/
noncomputable def beadBox (q : Pt3 ℝ) (c s length width height : ℝ) : Box 3 where
  lo := ![q.x - (|c| * length + |s| * width) / 2, q.y - (|c| * width + |s| * length) / 2, q.z - height]
  hi := ![q.x + (|c| * length + |s| * width) / 2, q.y + (|c| * width + |s| * length) / 2, q.z]

/-- The point lies in the box. -/
def Box.Has (b : Box 3) (q : Pt3 ℝ) : Prop :=
  b.lo 0 ≤ q.x ∧ q.x ≤ b.hi 0 ∧ b.lo 1 ≤ q.y ∧ q.y ≤ b.hi 1 ∧ b.lo 2 ≤ q.z ∧ q.z ≤ b.hi 2

/-- The point of the segment from `a` to `b` at distance `d` from `a`. -/
noncomputable def along (a b : Pt3 ℝ) (d : ℝ) : Pt3 ℝ :=
  ⟨a.x + (b.x - a.x) / distance b a * d, a.y + (b.y - a.y) / distance b a * d, a.z + (b.z - a.z) / distance b a * d⟩

/-! ## C12 -/

theorem ctxOf_unrotated (segs : List Segment) (i : ℕ) (s : Segment) (h : Unrotated segs) (hs : segs[i]? = some s) :
    (ctxOf segs i s).seg.endRotation = none ∧ (ctxOf segs i s).refStart = startPt segs i s ∧
    (ctxOf segs i s).startPoint = startPt segs i s ∧ (ctxOf segs i s).startTime = startT segs i s := by
  have h1 : s.endRotation = none := h s (List.mem_of_getElem? hs)
  refine ⟨h1, ?_, rfl, rfl⟩
  have h2 : (segStart segs i s).2.2 = none := by
    unfold segStart
    cases i with
    | zero => exact h1
    | succ j =>
      cases hj : segs[j]? with
      | none => simp [hj, h1]
      | some a => simp [hj, h a (List.mem_of_getElem? hj)]
  simp [ctxOf, h2, buildRef, startPt]

/-- The box built for a state. -/
noncomputable def boxFun (p : Params) (c : SegCtx) (st : LoopState) : Box 3 :=
  match c.seg.endRotation with
  | some q => rotatedBox3 q p c st
  | none => planarBox3 p c st

theorem box3_total (p : Params) (c : SegCtx) (st : LoopState) : box3 p c st = some (boxFun p c st) := rfl

/-- C12 (three dimensions, paths without rotations): with a positive deposition length the generation ends **exactly**
if no powered segment is vertical.  Missing: five-axis paths (see `C12_five_axis_refuted`). -/
theorem C12_terminates_iff_partial (p : Params) (segs : List Segment) (hne : segs ≠ []) (hun : Unrotated segs)
    (hL : 0 < p.length) :
    (∃ l, alongScanPath box3 p segs = .ok l) ↔
      ∀ i s, segs[i]? = some s → s.power > 1e-10 → ¬ Vertical segs i s := by
  have hmk := fun i s (_ : segs[i]? = some s) st => box3_total p (ctxOf segs i s) st
  obtain ⟨h1, h2⟩ := alongScanPath_eq box3 boxFun p segs hne hmk
  have hall : AllStop p segs ↔ ∀ i s, segs[i]? = some s → s.power > 1e-10 → ¬ Vertical segs i s := by
    constructor
    · intro h i s hs hp hv
      obtain ⟨ha, hb, hc, hd⟩ := ctxOf_unrotated segs i s hun hs
      refine not_stops_of_vertical (ctxOf segs i s) p ha ?_ ?_ ?_ (h i s hs hp)
      · exact hv.2.2
      · exact hv.1
      · exact hv.2.1
    · intro h i s hs hp
      obtain ⟨ha, hb, hc, hd⟩ := ctxOf_unrotated segs i s hun hs
      have hnv := h i s hs hp
      by_cases hshort : (ctxOf segs i s).len < eps
      · refine ⟨0, ?_⟩
        unfold SegCtx.stops SegCtx.dist SegCtx.state
        rw [distance_self]; linarith
      · refine stops_of_slope_pos (ctxOf segs i s) p ha hL (slope_pos _ ?_)
        right
        by_contra hcon
        push Not at hcon
        exact hnv ⟨hcon.1, hcon.2, not_lt.1 hshort⟩
  rw [← hall]
  constructor
  · rintro ⟨l, hl⟩
    by_contra hn
    rw [h2 hn] at hl; cases hl
  · intro h
    exact ⟨_, h1 h⟩

/-- A path that goes up with the power on: the first segment is a point, the second rises by 1. -/
noncomputable def risingPath : List Segment :=
  [⟨1, 0, ⟨0, 0, 0⟩, none⟩, ⟨2, 1, ⟨0, 0, 1⟩, none⟩]

/-- C12 is violated: for a path with a powered vertical segment the generation never ends. -/
theorem C12_vertical_refuted :
    ¬ ∃ l, alongScanPath box3 ⟨0.1, 0.1, 0.1, 0⟩ risingPath = .ok l := by
  rw [C12_terminates_iff_partial _ _ (by simp [risingPath]) (by simp [Unrotated, risingPath]) (by norm_num)]
  push Not
  refine ⟨1, ⟨2, 1, ⟨0, 0, 1⟩, none⟩, rfl, by norm_num, ?_⟩
  simp only [Vertical, startPt, segStart, risingPath, distance]
  norm_num

/-- A planar path for which the generation ends. -/
noncomputable def squarePath : List Segment :=
  [⟨1, 0, ⟨0, 0, 0⟩, none⟩, ⟨2, 1, ⟨1, 0, 0⟩, none⟩, ⟨3, 0, ⟨1, 1, 0⟩, none⟩, ⟨5, 1, ⟨0, 1, 0.5⟩, none⟩]

example : ∃ l, alongScanPath box3 ⟨0.3, 0.1, 0.1, 0⟩ squarePath = .ok l := by
  rw [C12_terminates_iff_partial _ _ (by simp [squarePath]) (by simp [Unrotated, squarePath]) (by norm_num)]
  intro i s hs hp
  match i with
  | 0 => simp [squarePath] at hs; subst hs; norm_num at hp
  | 1 => simp [squarePath] at hs; subst hs; simp [Vertical, startPt, segStart, squarePath]
  | 2 => simp [squarePath] at hs; subst hs; norm_num at hp
  | 3 => simp [squarePath] at hs; subst hs; simp [Vertical, startPt, segStart, squarePath]
  | i + 4 => simp [squarePath] at hs

/-- A five-axis path: the table turns by 180° about the z axis while the tool moves from `(4,0,0)` to `(-5.5,0,0)`.
In the build frame this is a short move from `(4,0,0)` to `(5.5,0,0)`. -/
noncomputable def turningPath : List Segment :=
  [⟨1, 0, ⟨4, 0, 0⟩, some ⟨1, 0, 0, 0⟩⟩, ⟨2, 1, ⟨-5.5, 0, 0⟩, some ⟨0, 0, 0, 1⟩⟩]

/-- C12 is violated for five-axis paths: the loop measures the progress in the build frame but compares it with the length
of the segment in the machine frame; the box centre then oscillates about the end point for ever. -/
theorem C12_five_axis_refuted :
    ¬ ∃ l, alongScanPath box3 ⟨1, 0.1, 0.1, 0⟩ turningPath = .ok l := by
  have hmk := fun i s (_ : turningPath[i]? = some s) st => box3_total ⟨1, 0.1, 0.1, 0⟩ (ctxOf turningPath i s) st
  obtain ⟨h1, h2⟩ := alongScanPath_eq box3 boxFun ⟨1, 0.1, 0.1, 0⟩ turningPath (by simp [turningPath]) hmk
  rintro ⟨l, hl⟩
  suffices h : ¬ AllStop ⟨1, 0.1, 0.1, 0⟩ turningPath by rw [h2 h] at hl; cases hl
  intro hall
  obtain ⟨n, hn⟩ := hall 1 ⟨2, 1, ⟨-5.5, 0, 0⟩, some ⟨0, 0, 0, 1⟩⟩ rfl (by norm_num [eps])
  set c := ctxOf turningPath 1 ⟨2, 1, ⟨-5.5, 0, 0⟩, some ⟨0, 0, 0, 1⟩⟩ with hc
  set p : Params := ⟨1, 0.1, 0.1, 0⟩ with hp
  have hstart : c.refStart = ⟨4, 0, 0⟩ := by
    simp [hc, ctxOf, segStart, turningPath, buildRef, Q.invRotate, Q.invRotationMatrix, Mat3.apply]
  have hrot : c.seg.endRotation = some ⟨0, 0, 0, 1⟩ := rfl
  have hend : c.seg.endPoint = ⟨-5.5, 0, 0⟩ := rfl
  have hinv : (⟨0, 0, 0, 1⟩ : Q ℝ).invRotate ⟨-5.5, 0, 0⟩ = ⟨5.5, 0, 0⟩ := by
    simp only [Q.invRotate, Q.invRotationMatrix, Mat3.apply, Pt3.mk.injEq]; norm_num
  have hlen : c.len = 9.5 := by
    have : c.len = distance ⟨-5.5, 0, 0⟩ ⟨4, 0, 0⟩ := by
      simp [SegCtx.len, hc, ctxOf, segStart, turningPath]
    rw [this]; unfold distance
    rw [show ((-5.5 : ℝ) - 4) ^ 2 + (0 - 0) ^ 2 + (0 - 0) ^ 2 = 9.5 ^ 2 by norm_num, Real.sqrt_sq (by norm_num)]
  have hdist : ∀ (x nbl : ℝ), 4 ≤ x → c.dist ⟨⟨x, 0, 0⟩, nbl⟩ = x - 4 := by
    intro x nbl hx
    unfold SegCtx.dist distance
    rw [hstart]
    simp only [sub_self]
    rw [show (x - 4) ^ 2 + (0 : ℝ) ^ 2 + 0 ^ 2 = (x - 4) ^ 2 by ring, Real.sqrt_sq (by linarith)]
  have hnext : ∀ (x nbl : ℝ), 4 ≤ x → x ≤ 6 → x ≠ 5.5 →
      c.next p ⟨⟨x, 0, 0⟩, nbl⟩ = ⟨⟨x + (5.5 - x) / |5.5 - x|, 0, 0⟩, nbl⟩ := by
    intro x nbl h4 h6 h55
    have hcond : ¬ (c.dist ⟨⟨x, 0, 0⟩, nbl⟩ + p.length > c.len) := by
      rw [hdist x nbl h4, hlen]; simp only [hp]; linarith
    have hnorm : norm ⟨5.5 - x, 0 - 0, 0 - 0⟩ = |5.5 - x| := by
      unfold norm
      rw [show (5.5 - x) ^ 2 + ((0 : ℝ) - 0) ^ 2 + (0 - 0) ^ 2 = (5.5 - x) ^ 2 by ring, Real.sqrt_sq_eq_abs]
    have hinc : c.increment p ⟨⟨x, 0, 0⟩, nbl⟩ = 1 := by
      simp only [SegCtx.increment, if_neg hcond]; rfl
    unfold SegCtx.next
    simp only [if_neg hcond, hrot, hend, hinv, hinc, hnorm]
    simp
  have hstate : ∀ n, ∃ nbl, c.state p n = ⟨⟨4, 0, 0⟩, nbl⟩ ∨ c.state p n = ⟨⟨5, 0, 0⟩, nbl⟩ ∨
      c.state p n = ⟨⟨6, 0, 0⟩, nbl⟩ := by
    intro n
    induction n with
    | zero => exact ⟨p.length, Or.inl (by simp only [SegCtx.state, hstart])⟩
    | succ n ih =>
      obtain ⟨nbl, h | h | h⟩ := ih
      · refine ⟨nbl, Or.inr (Or.inl ?_)⟩
        rw [SegCtx.state, h, hnext 4 nbl (by norm_num) (by norm_num) (by norm_num)]
        rw [abs_of_nonneg (by norm_num)]; norm_num
      · refine ⟨nbl, Or.inr (Or.inr ?_)⟩
        rw [SegCtx.state, h, hnext 5 nbl (by norm_num) (by norm_num) (by norm_num)]
        rw [abs_of_nonneg (by norm_num)]; norm_num
      · refine ⟨nbl, Or.inr (Or.inl ?_)⟩
        rw [SegCtx.state, h, hnext 6 nbl (by norm_num) (by norm_num) (by norm_num)]
        rw [abs_of_neg (by norm_num)]; norm_num
  unfold SegCtx.stops at hn
  rw [hlen] at hn
  obtain ⟨nbl, h | h | h⟩ := hstate n <;> rw [h, hdist _ nbl (by norm_num)] at hn <;> norm_num [eps] at hn

/-! ## C13 -/

theorem block_mem_time {β : Type} (f : Params → SegCtx → LoopState → β) (p : Params) (c : SegCtx)
    (r : β × Option ℝ × ℝ × ℝ) (hr : r ∈ block f p c) :
    c.seg.power > eps ∧ ∃ n, r = (f p c (c.state p n), c.pushTime p (c.dist (c.state p n)), c.cos, c.sin) ∧
      ∀ m < n, ¬ c.stops (c.state p m) := by
  unfold block at hr
  split at hr
  · rename_i hp
    refine ⟨hp, ?_⟩
    split at hr
    · rename_i h
      simp only [List.mem_map, List.mem_range] at hr
      obtain ⟨n, hn, rfl⟩ := hr
      refine ⟨n, rfl, fun m hm => ?_⟩
      classical
      exact Nat.find_min h (by unfold SegCtx.lastIndex at hn; omega)
    · cases hr
  · cases hr

/-- C13, every scan path: the four lists have the same length; they are the concatenation of one block per segment; the block of
a segment without power is empty and that of a powered one is not; every time that is a number is at least 1e-10. -/
theorem C13_blocks (p : Params) (segs : List Segment) (hne : segs ≠ []) (l : Lists (Box 3))
    (h : alongScanPath box3 p segs = .ok l) :
    Parallel l ∧ (∀ t, some t ∈ l.times → 1e-10 ≤ t) ∧
    ∃ blocks : List (List (Box 3 × Option ℝ × ℝ × ℝ)),
      blocks.length = segs.length ∧ rows l = blocks.flatten ∧
      ∀ (i : ℕ) (s : Segment) (blk : List (Box 3 × Option ℝ × ℝ × ℝ)), segs[i]? = some s → blocks[i]? = some blk → (blk ≠ [] ↔ s.power > 1e-10) := by
  have hmk := fun i s (_ : segs[i]? = some s) st => box3_total p (ctxOf segs i s) st
  obtain ⟨hall, rfl⟩ := ok_iff_allStop box3 boxFun p segs hne hmk l h
  obtain ⟨hr, hp⟩ := rows_appendRows_empty (β := Box 3) ((pathContexts segs).flatMap (block boxFun p))
  refine ⟨hp, ?_, (pathContexts segs).map (block boxFun p), by simp [pathContexts_length], by rw [hr, List.flatMap_def], ?_⟩
  · intro t ht
    simp only [appendRows, Lists.empty, List.nil_append, List.mem_map, List.mem_flatMap] at ht
    obtain ⟨r, ⟨c, _, hrc⟩, hrt⟩ := ht
    obtain ⟨_, n, rfl, _⟩ := block_mem_time _ p c r hrc
    simp only [SegCtx.pushTime, Option.map_eq_some_iff] at hrt
    obtain ⟨_, _, rfl⟩ := hrt
    exact le_max_right _ _
  · intro i s blk hs hb
    rw [List.getElem?_map, pathContexts_get segs i s hs] at hb
    simp only [Option.map_some, Option.some.injEq] at hb
    constructor
    · intro hblk
      obtain ⟨r, hr⟩ := List.exists_mem_of_ne_nil _ hblk
      rw [← hb] at hr
      exact (block_mem_time _ p _ r hr).1
    · intro hpow hnil
      have hst := hall i s hs hpow
      rw [hnil] at hb
      have hp' : (ctxOf segs i s).seg.power > eps := hpow
      rw [block, if_pos hp', dif_pos hst] at hb
      simp at hb

/-- How C13 describes row `r` of a segment: the box is a bead whose top centre `q` is at distance `d` from the start of the
segment, and the time is the start time plus the time the beam, which covers the segment's length in its duration, needs for
`d`, minus the lead time, but at least `1e-10`. -/
def RowOf (p : Params) (t0 : ℝ) (a : Pt3 ℝ) (s : Segment) (d : ℝ) (r : Box 3 × Option ℝ × ℝ × ℝ) : Prop :=
  (∃ q len, distance q a = d ∧ r.1 = beadBox q r.2.2.1 r.2.2.2 len p.width p.height) ∧
  r.2.1 = some (max (t0 + d * (s.endTime - t0) / distance s.endPoint a - p.lead) 1e-10) ∧
  (distance s.endPoint a ≠ 0 →
    r.2.2.1 = (s.endPoint.x - a.x) / distance s.endPoint a ∧ r.2.2.2 = (s.endPoint.y - a.y) / distance s.endPoint a) ∧
  (distance s.endPoint a = 0 → r.2.2.1 = 1 ∧ r.2.2.2 = 0)

theorem planarBox3_eq (p : Params) (c : SegCtx) (st : LoopState) :
    planarBox3 p c st = beadBox st.center c.cos c.sin st.nbl p.width p.height := by
  unfold planarBox3 beadBox
  congr 1 <;> funext i <;> fin_cases i <;> simp <;> ring

theorem timeTo_eq (c : SegCtx) (d : ℝ) (hdur : c.startTime < c.seg.endTime) (hd : c.len = 0 → d = 0) :
    c.timeTo d = some (d * (c.seg.endTime - c.startTime) / c.len) := by
  have hne : c.seg.endTime - c.startTime ≠ 0 := by linarith
  unfold SegCtx.timeTo
  rw [if_neg hne]
  by_cases hl : c.len = 0
  · simp [hl]
  · have hv : c.len / (c.seg.endTime - c.startTime) ≠ 0 := div_ne_zero hl hne
    simp only [ne_eq, hv, not_false_eq_true, if_true, Option.some.injEq]
    field_simp

/-- C13 for paths without rotation whose segments have a positive duration: the rows of segment `i` are described by
`RowOf` with distances that start at 0, do not decrease and do not exceed the length of the segment.
Missing: five-axis paths; segments of zero duration (`C13_zero_duration_refuted`). -/
theorem C13_rows_partial (p : Params) (segs : List Segment) (hne : segs ≠ []) (hun : Unrotated segs)
    (hL : 0 < p.length) (hdur : ∀ i s, segs[i]? = some s → startT segs i s < s.endTime) (l : Lists (Box 3))
    (h : alongScanPath box3 p segs = .ok l) :
    ∃ blocks : List (List (Box 3 × Option ℝ × ℝ × ℝ)),
      blocks.length = segs.length ∧ rows l = blocks.flatten ∧
      ∀ (i : ℕ) (s : Segment) (blk : List (Box 3 × Option ℝ × ℝ × ℝ)), segs[i]? = some s → blocks[i]? = some blk →
        (blk ≠ [] ↔ s.power > 1e-10) ∧
        ∃ ds : List ℝ, List.Forall₂ (RowOf p (startT segs i s) (startPt segs i s) s) ds blk ∧
          ds.Pairwise (· ≤ ·) ∧ (∀ d ∈ ds, 0 ≤ d ∧ d ≤ distance s.endPoint (startPt segs i s)) ∧
          (∀ d, ds.head? = some d → d = 0) := by
  have hmk := fun i s (_ : segs[i]? = some s) st => box3_total p (ctxOf segs i s) st
  obtain ⟨hall, rfl⟩ := ok_iff_allStop box3 boxFun p segs hne hmk l h
  obtain ⟨hr, hp⟩ := rows_appendRows_empty (β := Box 3) ((pathContexts segs).flatMap (block boxFun p))
  refine ⟨(pathContexts segs).map (block boxFun p), by simp [pathContexts_length], by rw [hr, List.flatMap_def], ?_⟩
  intro i s blk hs hb
  rw [List.getElem?_map, pathContexts_get segs i s hs] at hb
  simp only [Option.map_some, Option.some.injEq] at hb
  obtain ⟨hrot, hrs, hsp, hst⟩ := ctxOf_unrotated segs i s hun hs
  have hlen : (ctxOf segs i s).len = distance s.endPoint (startPt segs i s) := rfl
  by_cases hpow : s.power > 1e-10
  · have hex := hall i s hs hpow
    have hblk : blk = (List.range ((ctxOf segs i s).lastIndex p hex + 1)).map fun n =>
        (boxFun p (ctxOf segs i s) ((ctxOf segs i s).state p n),
          (ctxOf segs i s).pushTime p ((ctxOf segs i s).dist ((ctxOf segs i s).state p n)),
          (ctxOf segs i s).cos, (ctxOf segs i s).sin) := by
      have hp' : (ctxOf segs i s).seg.power > eps := hpow
      rw [← hb, block, if_pos hp', dif_pos hex]
    refine ⟨⟨fun _ => hpow, fun _ hn => ?_⟩,
      (List.range ((ctxOf segs i s).lastIndex p hex + 1)).map fun n => (ctxOf segs i s).dist ((ctxOf segs i s).state p n),
      ?_, ?_, ?_, ?_⟩
    · rw [hn] at hblk; simp at hblk
    · rw [hblk, List.forall₂_map_left_iff, List.forall₂_map_right_iff, List.forall₂_same]
      intro n _
      have hd := (state_dist_succ (ctxOf segs i s) p hrot hL.le n)
      refine ⟨⟨((ctxOf segs i s).state p n).center, ((ctxOf segs i s).state p n).nbl, ?_, ?_⟩, ?_, ?_, ?_⟩
      · rw [SegCtx.dist, hrs]
      · simp only [boxFun, hrot]
        exact planarBox3_eq _ _ _
      · simp only [SegCtx.pushTime]
        rw [timeTo_eq _ _ (hdur i s hs) (by intro h0; linarith [hd.2.1, hd.2.2])]
        rfl
      · intro hl
        have hl' : (ctxOf segs i s).len ≠ 0 := hl
        simp only [SegCtx.cos, SegCtx.sin, ne_eq, hl', not_false_eq_true, if_true]
        exact ⟨rfl, rfl⟩
      · intro hl
        have hl' : (ctxOf segs i s).len = 0 := hl
        simp [SegCtx.cos, SegCtx.sin, hl']
    · rw [List.pairwise_map]
      refine List.Pairwise.imp ?_ List.pairwise_lt_range
      intro m n hmn
      have hmono : Monotone fun n => (ctxOf segs i s).dist ((ctxOf segs i s).state p n) := by
        apply monotone_nat_of_le_succ
        intro n
        obtain ⟨e, h0, h1⟩ := state_dist_succ (ctxOf segs i s) p hrot hL.le n
        rw [e]
        have : 0 ≤ (ctxOf segs i s).slope *
            min p.length ((ctxOf segs i s).len - (ctxOf segs i s).dist ((ctxOf segs i s).state p n)) :=
          mul_nonneg (slope_nonneg _) (le_min hL.le (by linarith))
        linarith
      exact hmono hmn.le
    · intro d hd
      simp only [List.mem_map] at hd
      obtain ⟨n, _, rfl⟩ := hd
      exact (state_dist_succ (ctxOf segs i s) p hrot hL.le n).2
    · intro d hd
      simp only [List.range_succ_eq_map, List.map_cons, List.head?_cons, Option.some.injEq] at hd
      rw [← hd, SegCtx.dist, SegCtx.state, distance_self]
  · have hblk : blk = [] := by
      have hp' : ¬ (ctxOf segs i s).seg.power > eps := hpow
      rw [← hb, block, if_neg hp']
    refine ⟨⟨fun hne' => absurd hblk hne', fun h => absurd h hpow⟩, [], ?_, List.Pairwise.nil, by simp, by simp⟩
    rw [hblk]; exact List.Forall₂.nil

/-- C13 is violated for a powered spot without duration: its deposition time is NaN. -/
theorem C13_zero_duration_refuted :
    ∃ l, alongScanPath box3 ⟨1, 1, 1, 0⟩ [⟨0, 1, ⟨0, 0, 0⟩, none⟩] = .ok l ∧ l.times = [none] := by
  have hmk := fun i s (_ : [(⟨0, 1, ⟨0, 0, 0⟩, none⟩ : Segment)][i]? = some s) st =>
    box3_total ⟨1, 1, 1, 0⟩ (ctxOf [⟨0, 1, ⟨0, 0, 0⟩, none⟩] i s) st
  obtain ⟨h1, h2⟩ := alongScanPath_eq box3 boxFun ⟨1, 1, 1, 0⟩ [⟨0, 1, ⟨0, 0, 0⟩, none⟩] (by simp) hmk
  set p : Params := ⟨1, 1, 1, 0⟩ with hp
  set c : SegCtx := ⟨0, ⟨0, 0, 0⟩, ⟨0, 0, 0⟩, ⟨0, 1, ⟨0, 0, 0⟩, none⟩⟩ with hc
  have hlen : c.len = 0 := by simp [hc, SegCtx.len, distance_self]
  have hstop0 : c.stops (c.state p 0) := by
    simp only [SegCtx.stops, SegCtx.dist, SegCtx.state, distance_self, hlen]
    norm_num [eps]
  have hall : AllStop p [⟨0, 1, ⟨0, 0, 0⟩, none⟩] := by
    intro i s hs _
    match i with
    | 0 => simp at hs; subst hs; exact ⟨0, hstop0⟩
    | i + 1 => simp at hs
  refine ⟨_, h1 hall, ?_⟩
  have hctx : pathContexts [⟨0, 1, ⟨0, 0, 0⟩, none⟩] = [c] := rfl
  have hex : ∃ n, c.stops (c.state p n) := ⟨0, hstop0⟩
  have hli : c.lastIndex p hex = 0 := by
    unfold SegCtx.lastIndex; classical exact (Nat.find_eq_zero hex).2 hstop0
  have hpow : c.seg.power > eps := by norm_num [hc, eps]
  rw [hctx]
  simp only [List.flatMap_cons, List.flatMap_nil, List.append_nil, block, if_pos hpow, dif_pos hex, hli, appendRows,
    Lists.empty, List.nil_append, zero_add, List.range_one, List.map_cons, List.map_nil, List.cons.injEq, and_true]
  have hdt : c.seg.endTime - c.startTime = 0 := by simp [hc]
  rw [SegCtx.pushTime, SegCtx.timeTo, if_pos hdt, if_pos hlen]; rfl

/-- The hypotheses of `C13_rows_partial` hold for `squarePath`. -/
example : squarePath ≠ [] ∧ Unrotated squarePath ∧
    ∀ i s, squarePath[i]? = some s → startT squarePath i s < s.endTime := by
  refine ⟨by simp [squarePath], by simp [Unrotated, squarePath], ?_⟩
  intro i s hs
  match i with
  | 0 => simp [squarePath] at hs; subst hs; norm_num [startT, segStart, squarePath]
  | 1 => simp [squarePath] at hs; subst hs; norm_num [startT, segStart, squarePath]
  | 2 => simp [squarePath] at hs; subst hs; norm_num [startT, segStart, squarePath]
  | 3 => simp [squarePath] at hs; subst hs; norm_num [startT, segStart, squarePath]
  | i + 4 => simp [squarePath] at hs

end Verif.Deposition
