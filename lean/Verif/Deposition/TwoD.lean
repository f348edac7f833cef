import Verif.Deposition.Coverage

/-!
# C12, C13, C14 in two dimensions

In two dimensions the vertical direction is the second coordinate (`types.hh:171-177`, `axis<2>::z = 1`); the third coordinate of the scan
path is not used, except in the length of a segment.
-/

namespace Verif.Deposition

open Verif.Quat Verif.ScanPath

/-! ## Specification -/

/-- The two-dimensional box with top centre `(q.x, q.y)` for a bead of the given length and height. -/
noncomputable def beadBox2 (q : Pt3 ℝ) (length height : ℝ) : Box 2 where
  lo := ![q.x - length / 2, q.y - height]
  hi := ![q.x + length / 2, q.y]

/-- The point lies in the two-dimensional box. -/
def Box.Has2 (b : Box 2) (q : Pt3 ℝ) : Prop :=
  b.lo 0 ≤ q.x ∧ q.x ≤ b.hi 0 ∧ b.lo 1 ≤ q.y ∧ q.y ≤ b.hi 1

/-- The third coordinate, which has no meaning in two dimensions, is the same for all segments. -/
def Flat (segs : List Segment) : Prop := ∀ s ∈ segs, ∀ t ∈ segs, s.endPoint.z = t.endPoint.z

/-! ## Lemmas -/

/-- The box built for a state of an unrotated segment. -/
noncomputable def boxFun2 (p : Params) (_c : SegCtx) (st : LoopState) : Box 2 :=
  { lo := ![st.center.x - 0.5 * st.nbl, st.center.y - p.height]
    hi := ![st.center.x + 0.5 * st.nbl, st.center.y] }

theorem box2_total (p : Params) (segs : List Segment) (hun : Unrotated segs) (i : ℕ) (s : Segment) (hs : segs[i]? = some s)
    (st : LoopState) : box2 p (ctxOf segs i s) st = some (boxFun2 p (ctxOf segs i s) st) := by
  have h : (ctxOf segs i s).seg.endRotation = none := hun s (List.mem_of_getElem? hs)
  unfold box2 boxFun2
  simp only [h]

theorem boxFun2_eq (p : Params) (c : SegCtx) (st : LoopState) : boxFun2 p c st = beadBox2 st.center st.nbl p.height := by
  unfold boxFun2 beadBox2
  congr 1 <;> funext i <;> fin_cases i <;> simp <;> ring

theorem flat_planar (segs : List Segment) (h : Flat segs) (i : ℕ) (s : Segment) (hs : segs[i]? = some s) :
    s.endPoint.z = (startPt segs i s).z := by
  have hm := List.mem_of_getElem? hs
  unfold startPt segStart
  cases i with
  | zero =>
    cases segs with
    | nil => simp at hs
    | cons a rest => simp at hs; subst hs; rfl
  | succ j =>
    cases hj : segs[j]? with
    | none => simp [hj]
    | some a => simpa [hj] using h s hm a (List.mem_of_getElem? hj)

/-! ## Theorems -/

/-- C12 in two dimensions: for every path without rotations and with a positive deposition length the generation ends. -/
theorem C12_terminates_2d (p : Params) (segs : List Segment) (hne : segs ≠ []) (hun : Unrotated segs) (hf : Flat segs)
    (hL : 0 < p.length) : ∃ l, alongScanPath box2 p segs = .ok l := by
  obtain ⟨h1, _⟩ := alongScanPath_eq box2 boxFun2 p segs hne (box2_total p segs hun)
  refine ⟨_, h1 ?_⟩
  intro i s hs hp
  obtain ⟨ha, hb, hc, hd⟩ := ctxOf_unrotated segs i s hun hs
  refine stops_of_slope_pos (ctxOf segs i s) p ha hL ?_
  rw [slope_planar (ctxOf segs i s) (by rw [hc]; exact flat_planar segs hf i s hs)]
  exact zero_lt_one

/-- C12 in two dimensions: a path whose first powered segment has a rotation is refused (`ASSERT_THROW_NOT_IMPLEMENTED`). -/
theorem C12_rotation_2d (p : Params) (s : Segment) (rest : List Segment) (q : Q ℝ) (hq : s.endRotation = some q)
    (hp : s.power > 1e-10) : alongScanPath box2 p (s :: rest) = .thrown := by
  have hp' : s.power > eps := hp
  simp only [alongScanPath, runSegments, if_pos hp', runSegment, box2, hq, Option.isNone_none, if_true]

/-- C13 and C14 in two dimensions, for every path without rotations: one block of rows per segment, none for a segment without power;
the rows of a powered segment are beads with top centre on the segment, the first at its start, the `k`-th a further
`k` deposition lengths on or at the end, with the time at which the beam is there less the lead time, with lengths that do not exceed the deposition
length and add up to the length of the segment plus one deposition length, up to the tolerance `1e-10`. -/
theorem C14_beads_2d (p : Params) (segs : List Segment) (hne : segs ≠ []) (hun : Unrotated segs) (hf : Flat segs)
    (hL : 0 < p.length) (l : Lists (Box 2)) (h : alongScanPath box2 p segs = .ok l) :
    Parallel l ∧
    ∃ blocks : List (List (Box 2 × Option ℝ × ℝ × ℝ)),
      blocks.length = segs.length ∧ rows l = blocks.flatten ∧
      ∀ (i : ℕ) (s : Segment) (blk : List (Box 2 × Option ℝ × ℝ × ℝ)), segs[i]? = some s → blocks[i]? = some blk →
        (blk ≠ [] ↔ s.power > 1e-10) ∧
        (s.power > 1e-10 → startT segs i s < s.endTime →
        ∃ beads : List (ℝ × ℝ),
          List.Forall₂ (fun (b : ℝ × ℝ) (r : Box 2 × Option ℝ × ℝ × ℝ) =>
            r.1 = beadBox2 (along (startPt segs i s) s.endPoint b.1) b.2 p.height ∧
            r.2.1 = some (max (startT segs i s + b.1 * (s.endTime - startT segs i s) /
              distance s.endPoint (startPt segs i s) - p.lead) 1e-10)) beads blk ∧
          (∀ (k : ℕ) (b : ℝ × ℝ), beads[k]? = some b → b.1 = min (k * p.length) (distance s.endPoint (startPt segs i s))) ∧
          (∀ b ∈ beads, 0 < b.2 ∧ b.2 ≤ p.length) ∧
          (beads.map Prod.snd).sum ≤ distance s.endPoint (startPt segs i s) + p.length ∧
          distance s.endPoint (startPt segs i s) + p.length < (beads.map Prod.snd).sum + 1e-10) := by
  obtain ⟨hall, rfl⟩ := ok_iff_allStop box2 boxFun2 p segs hne (box2_total p segs hun) l h
  obtain ⟨hr, hp⟩ := rows_appendRows_empty (β := Box 2) ((pathContexts segs).flatMap (block boxFun2 p))
  refine ⟨hp, (pathContexts segs).map (block boxFun2 p), by simp [pathContexts_length], by rw [hr, List.flatMap_def], ?_⟩
  intro i s blk hs hb
  rw [List.getElem?_map, pathContexts_get segs i s hs] at hb
  simp only [Option.map_some, Option.some.injEq] at hb
  obtain ⟨hrot, hrs, hsp, hst⟩ := ctxOf_unrotated segs i s hun hs
  have hz := flat_planar segs hf i s hs
  set c := ctxOf segs i s with hc
  have hend : c.seg = s := rfl
  have hlen : c.len = distance s.endPoint (startPt segs i s) := rfl
  have hslope : c.slope = 1 := slope_planar c (by rw [hend, hsp]; exact hz)
  by_cases hpow : s.power > 1e-10
  swap
  · have hblk : blk = [] := by
      have hp' : ¬ c.seg.power > eps := hpow
      rw [← hb, block, if_neg hp']
    exact ⟨⟨fun hne' => absurd hblk hne', fun h => absurd h hpow⟩, fun h => absurd h hpow⟩
  have hex := hall i s hs hpow
  have he := eps_pos
  obtain ⟨hl1, hl2⟩ := last_spec c p hrot hslope hL hex
  have hblk : blk = (List.range (c.lastIndex p hex + 1)).map fun n =>
      (boxFun2 p c (c.state p n), c.pushTime p (c.dist (c.state p n)), c.cos, c.sin) := by
    have hp' : c.seg.power > eps := hpow
    rw [← hb, block, if_pos hp', dif_pos hex]
  refine ⟨⟨fun _ => hpow, fun _ hn => ?_⟩, fun _ hdur => ⟨(List.range (c.lastIndex p hex + 1)).map fun n : ℕ =>
    (min ((n : ℝ) * p.length) c.len, beadLength p.length c.len n), ?_, ?_, ?_, ?_⟩⟩
  · rw [hn] at hblk; simp at hblk
  · rw [hblk, List.forall₂_map_left_iff, List.forall₂_map_right_iff, List.forall₂_same]
    intro n hn
    have hn' := List.mem_range.1 hn
    have hstate := state_closed c p hrot hslope hL n (fun m hm => (lastIndex_spec c p hex).2 m (by omega))
    have hmin0 : 0 ≤ min ((n : ℝ) * p.length) c.len := le_min (by positivity) (len_nonneg c)
    have hdist : c.dist (c.state p n) = min ((n : ℝ) * p.length) c.len := by
      rw [hstate, rayState_dist c _ _ hmin0, hslope, one_mul]
    have h0 : c.len = 0 → min ((n : ℝ) * p.length) c.len = 0 := by
      intro h0; rw [h0]; exact min_eq_right (by positivity)
    dsimp only
    constructor
    · rw [boxFun2_eq, hstate, along_eq c (by rw [hrs, hsp]) (by rw [hend, hsp]; exact hz) _ h0]
      rfl
    · rw [hdist, SegCtx.pushTime, timeTo_eq c _ hdur h0]
      rfl
  · intro k b hk
    rw [List.getElem?_map] at hk
    obtain ⟨n, hn1, hn2⟩ := Option.map_eq_some_iff.1 hk
    obtain ⟨hlt, hn3⟩ := List.getElem?_eq_some_iff.1 hn1
    rw [List.getElem_range] at hn3
    rw [← hn2, hn3, hlen]
  · intro b hb
    simp only [List.mem_map, List.mem_range] at hb
    obtain ⟨n, hn, rfl⟩ := hb
    constructor
    · simp only [beadLength]
      split
      · exact hL
      · rename_i hcon
        cases n with
        | zero => simp at hcon; linarith [len_nonneg c]
        | succ m =>
          have := hl2 m (by omega)
          push_cast
          linarith
    · simp only [beadLength]
      split
      · exact le_rfl
      · rename_i hcon; linarith
  · rw [List.map_map]
    have hsum := beadLength_sum p.length c.len (c.lastIndex p hex) (fun m hm => by linarith [hl2 m hm])
    have hfun : (Prod.snd ∘ fun n : ℕ => (min ((n : ℝ) * p.length) c.len, beadLength p.length c.len n)) =
        beadLength p.length c.len := rfl
    rw [hfun, hsum]
    have hm : min ((c.lastIndex p hex : ℝ) * p.length) c.len ≤ c.len := min_le_right _ _
    have he' : eps = 1e-10 := rfl
    rw [← hlen]
    constructor <;> linarith

/-- C14 in two dimensions: every point of every powered horizontal segment lies in a box. -/
theorem C14_cover_2d (p : Params) (segs : List Segment) (hne : segs ≠ []) (hun : Unrotated segs) (hf : Flat segs)
    (hL : 2e-10 ≤ p.length) (hh : 0 ≤ p.height) (l : Lists (Box 2))
    (h : alongScanPath box2 p segs = .ok l) (i : ℕ) (s : Segment) (hs : segs[i]? = some s) (hpow : s.power > 1e-10)
    (hy : s.endPoint.y = (startPt segs i s).y)
    (d : ℝ) (hd0 : 0 ≤ d) (hd1 : d ≤ distance s.endPoint (startPt segs i s)) :
    ∃ b ∈ l.boxes, b.Has2 (along (startPt segs i s) s.endPoint d) := by
  obtain ⟨hall, rfl⟩ := ok_iff_allStop box2 boxFun2 p segs hne (box2_total p segs hun) l h
  obtain ⟨hrot, hrs, hsp, hst⟩ := ctxOf_unrotated segs i s hun hs
  have hz := flat_planar segs hf i s hs
  set c := ctxOf segs i s with hc
  have hend : c.seg = s := rfl
  have hslope : c.slope = 1 := slope_planar c (by rw [hend, hsp]; exact hz)
  have hex := hall i s hs hpow
  have he := eps_pos
  have hL' : 2 * eps ≤ p.length := by have : 2 * eps = 2e-10 := by norm_num [eps]
                                      linarith
  have hLp : 0 < p.length := by linarith
  obtain ⟨n, hn, hnd⟩ := exists_pass c p hrot hslope hL' hex d hd0 hd1
  have hstate := state_closed c p hrot hslope hLp n (fun m hm => (lastIndex_spec c p hex).2 m (by omega))
  set σ := min ((n : ℝ) * p.length) c.len with hσ
  set b := beadLength p.length c.len n with hb
  have hmem := mem_block boxFun2 p c (by rw [hend]; exact hpow) hex n hn
  refine ⟨boxFun2 p c (c.state p n), ?_, ?_⟩
  · simp only [appendRows, Lists.empty, List.nil_append, List.mem_map]
    exact ⟨_, List.mem_flatMap.2 ⟨c, List.mem_of_getElem? (pathContexts_get segs i s hs), hmem⟩, rfl⟩
  · have hpt : along (startPt segs i s) s.endPoint d = (rayState c d 0).center := by
      rw [along_eq c (by rw [hrs, hsp]) (by rw [hend, hsp]; exact hz) d (by
        intro h0
        have : c.len = distance s.endPoint (startPt segs i s) := rfl
        linarith)]
      rfl
    rw [boxFun2_eq, hstate, hpt]
    have hsin : c.sin = 0 := by
      unfold SegCtx.sin
      rw [hend, hsp, hy, sub_self, zero_div]
      simp
    have hcos : c.cos ^ 2 = 1 := by
      have := slope_sq c
      rw [hslope, hsin] at this
      linarith
    have hx : |c.cos * (d - σ)| ≤ b / 2 := by
      have h1 : |c.cos| = 1 := by
        have h2 : |c.cos| ^ 2 = 1 := by rw [sq_abs, hcos]
        nlinarith [abs_nonneg c.cos]
      rw [abs_mul, h1, one_mul]
      exact hnd
    rw [abs_le] at hx
    refine ⟨?_, ?_, ?_, ?_⟩ <;>
      simp only [beadBox2, rayState, Matrix.cons_val_zero, Matrix.cons_val_one, hsin] <;> linarith

/-- The hypotheses are met by a path with a sloped and a horizontal powered segment. -/
example : ∃ l, alongScanPath box2 ⟨0.3, 0.1, 0, 0⟩
    [⟨1, 0, ⟨0, 0, 0⟩, none⟩, ⟨2, 1, ⟨1, 0, 0⟩, none⟩, ⟨3, 1, ⟨2, 1, 0⟩, none⟩] = .ok l :=
  C12_terminates_2d _ _ (by simp) (by simp [Unrotated]) (by simp [Flat]) (by norm_num)

end Verif.Deposition
