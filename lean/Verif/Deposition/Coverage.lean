import Verif.Deposition.PathProps

/-!
# C14: the boxes cover every powered planar segment
-/

namespace Verif.Deposition

open Verif.Quat Verif.ScanPath

/-- Box length of pass `n`. -/
noncomputable def beadLength (L len : ℝ) (n : ℕ) : ℝ := if (n : ℝ) * L ≤ len then L else len - ((n : ℝ) - 1) * L

/-- Closed form of the loop on a planar unrotated segment up to the pass in which it stops. -/
theorem state_closed (c : SegCtx) (p : Params) (hrot : c.seg.endRotation = none) (hs : c.slope = 1)
    (hL : 0 < p.length) (n : ℕ) (hn : ∀ m < n, ¬ c.stops (c.state p m)) :
    c.state p n = rayState c (min (n * p.length) c.len) (beadLength p.length c.len n) := by
  induction n with
  | zero => simp [SegCtx.state, rayState, beadLength, len_nonneg c]
  | succ n ih =>
    have ih := ih fun m hm => hn m (by omega)
    have hnot := hn n (by omega)
    have h0 : 0 ≤ min ((n : ℝ) * p.length) c.len := le_min (by positivity) (len_nonneg c)
    rw [SegCtx.stops, ih, rayState_dist c _ _ h0, hs, one_mul] at hnot
    have he := eps_pos
    have hlt : (n : ℝ) * p.length < c.len := by
      by_contra hcon
      rw [min_eq_right (not_lt.1 hcon)] at hnot
      linarith
    have hb : beadLength p.length c.len n = p.length := by simp [beadLength, hlt.le]
    rw [SegCtx.state, ih, rayState_next c p hrot _ _ h0, hs, one_mul, min_eq_left hlt.le, hb]
    unfold beadLength
    push_cast
    by_cases hcmp : (n : ℝ) * p.length + p.length > c.len
    · have h1 : ¬ ((n : ℝ) + 1) * p.length ≤ c.len := by linarith
      rw [if_pos hcmp, if_neg h1, min_eq_right (by linarith)]
      congr 1 <;> ring
    · have h1 : ((n : ℝ) + 1) * p.length ≤ c.len := by linarith
      rw [if_neg hcmp, if_pos h1, min_eq_left h1]
      congr 1; ring

theorem lastIndex_spec (c : SegCtx) (p : Params) (h : ∃ n, c.stops (c.state p n)) :
    c.stops (c.state p (c.lastIndex p h)) ∧ ∀ m < c.lastIndex p h, ¬ c.stops (c.state p m) := by
  classical
  unfold SegCtx.lastIndex
  exact ⟨Nat.find_spec h, fun m hm => Nat.find_min h hm⟩

/-- The last pass: either the centre is exactly at the end, or the remaining distance is below the tolerance. -/
theorem last_spec (c : SegCtx) (p : Params) (hrot : c.seg.endRotation = none) (hs : c.slope = 1)
    (hL : 0 < p.length) (h : ∃ n, c.stops (c.state p n)) :
    min ((c.lastIndex p h : ℝ) * p.length) c.len + eps > c.len ∧
    ∀ m < c.lastIndex p h, (m : ℝ) * p.length + eps ≤ c.len := by
  obtain ⟨h1, h2⟩ := lastIndex_spec c p h
  constructor
  · rw [SegCtx.stops, state_closed c p hrot hs hL _ h2,
      rayState_dist c _ _ (le_min (by positivity) (len_nonneg c)), hs, one_mul] at h1
    exact h1
  · intro m hm
    have h3 := h2 m hm
    rw [SegCtx.stops, state_closed c p hrot hs hL m (fun k hk => h2 k (by omega)),
      rayState_dist c _ _ (le_min (by positivity) (len_nonneg c)), hs, one_mul] at h3
    have he := eps_pos
    rcases le_total ((m : ℝ) * p.length) c.len with h4 | h4
    · rw [min_eq_left h4] at h3; linarith
    · rw [min_eq_right h4] at h3; linarith

theorem mem_block {β : Type} (f : Params → SegCtx → LoopState → β) (p : Params) (c : SegCtx)
    (hpow : c.seg.power > eps) (h : ∃ n, c.stops (c.state p n)) (n : ℕ) (hn : n ≤ c.lastIndex p h) :
    (f p c (c.state p n), c.pushTime p (c.dist (c.state p n)), c.cos, c.sin) ∈ block f p c := by
  rw [block, if_pos hpow, dif_pos h]
  exact List.mem_map.2 ⟨n, List.mem_range.2 (by omega), rfl⟩

theorem along_eq (c : SegCtx) (hrs : c.refStart = c.startPoint) (hz : c.seg.endPoint.z = c.startPoint.z) (d : ℝ)
    (hd : c.len = 0 → d = 0) (nbl : ℝ) :
    (rayState c d nbl).center = along c.startPoint c.seg.endPoint d := by
  unfold rayState along
  rw [hrs]
  by_cases hl : c.len = 0
  · simp [hd hl]
  · have hl' : distance c.seg.endPoint c.startPoint ≠ 0 := hl
    simp only [SegCtx.cos, SegCtx.sin, ne_eq, hl, not_false_eq_true, if_true, hz, sub_self, zero_div, Pt3.mk.injEq]
    exact ⟨rfl, rfl, trivial⟩

/-- Some pass of the loop has its centre within half its length of any given distance on the segment. -/
theorem exists_pass (c : SegCtx) (p : Params) (hrot : c.seg.endRotation = none) (hs : c.slope = 1)
    (hL : 2 * eps ≤ p.length) (h : ∃ n, c.stops (c.state p n)) (d : ℝ) (hd0 : 0 ≤ d) (hd1 : d ≤ c.len) :
    ∃ n, n ≤ c.lastIndex p h ∧ |d - min ((n : ℝ) * p.length) c.len| ≤ beadLength p.length c.len n / 2 := by
  have he := eps_pos
  have hLp : 0 < p.length := by linarith
  obtain ⟨h1, h2⟩ := last_spec c p hrot hs hLp h
  set N := c.lastIndex p h with hN
  -- the pass whose centre is closest from below
  by_cases hcase : ∃ n, n ≤ N ∧ (n : ℝ) * p.length ≤ c.len ∧ |d - n * p.length| ≤ p.length / 2
  · obtain ⟨n, hn, hnl, hnd⟩ := hcase
    refine ⟨n, hn, ?_⟩
    rw [min_eq_left hnl, beadLength, if_pos hnl]
    exact hnd
  · -- then the last pass was cut off and contains `d`
    push Not at hcase
    -- nearest multiple
    obtain ⟨k, hk1, hk2⟩ : ∃ k : ℕ, (k : ℝ) * p.length ≤ d + p.length / 2 ∧ d + p.length / 2 < (k + 1) * p.length := by
      refine ⟨⌊(d + p.length / 2) / p.length⌋₊, ?_, ?_⟩
      · have := Nat.floor_le (a := (d + p.length / 2) / p.length) (by positivity)
        rwa [le_div_iff₀ hLp] at this
      · have := Nat.lt_floor_add_one ((d + p.length / 2) / p.length)
        rwa [div_lt_iff₀ hLp] at this
    have habs : |d - k * p.length| ≤ p.length / 2 := by
      rw [abs_le]; constructor <;> nlinarith
    have hkbad : ¬ (k ≤ N ∧ (k : ℝ) * p.length ≤ c.len) := by
      rintro ⟨ha, hb⟩
      exact absurd habs (not_le.2 (hcase k ha hb))
    have hNlen : c.len < (N : ℝ) * p.length := by
      by_contra hcon
      rw [not_lt] at hcon
      rw [min_eq_left hcon] at h1
      -- d ≤ len < N L + eps, so k ≤ N or d within half a length of N L
      by_cases hkN : k ≤ N
      · exact hkbad ⟨hkN, le_trans (mul_le_mul_of_nonneg_right (by exact_mod_cast hkN) hLp.le) hcon⟩
      · have hk : (N : ℝ) + 1 ≤ k := by exact_mod_cast (by omega : N + 1 ≤ k)
        have := mul_le_mul_of_nonneg_right hk hLp.le
        have hb := hcase N le_rfl hcon
        rw [lt_abs] at hb
        rcases hb with hb | hb <;> nlinarith
    have hNpos : 0 < N := by
      rcases Nat.eq_zero_or_pos N with h0 | h0
      · rw [h0] at hNlen; simp at hNlen; linarith [len_nonneg c]
      · exact h0
    obtain ⟨M, hM⟩ : ∃ M, N = M + 1 := ⟨N - 1, by omega⟩
    have hMlen := h2 M (by omega)
    have hMbad := hcase M (by omega) (by linarith)
    have hcast : (N : ℝ) = M + 1 := by rw [hM]; push_cast; ring
    have hkN : N ≤ k := by
      by_contra hcon
      have : (k : ℝ) ≤ M := by exact_mod_cast (by omega : k ≤ M)
      have := mul_le_mul_of_nonneg_right this hLp.le
      exact hkbad ⟨by omega, by linarith⟩
    have hkr : (M : ℝ) + 1 ≤ k := by rw [← hcast]; exact_mod_cast hkN
    have hkL := mul_le_mul_of_nonneg_right hkr hLp.le
    refine ⟨N, le_rfl, ?_⟩
    have hnle : ¬ (N : ℝ) * p.length ≤ c.len := not_le.2 hNlen
    rw [min_eq_right hNlen.le, beadLength, if_neg hnle, hcast]
    rw [hcast] at hNlen
    rw [abs_le]
    constructor <;> nlinarith

/-- C14: every point of every powered planar segment lies in a box; the box is deposited no later than the lead time before
the beam has travelled half a box beyond the point (so with a lead time of at least half a box's travel time the material is
there before the beam). -/
theorem C14_cover (p : Params) (segs : List Segment) (hne : segs ≠ []) (hun : Unrotated segs)
    (hL : 2e-10 ≤ p.length) (hw : 0 ≤ p.width) (hh : 0 ≤ p.height) (l : Lists (Box 3))
    (h : alongScanPath box3 p segs = .ok l) (i : ℕ) (s : Segment) (hs : segs[i]? = some s) (hpow : s.power > 1e-10)
    (hz : s.endPoint.z = (startPt segs i s).z) (hdur : startT segs i s < s.endTime)
    (d : ℝ) (hd0 : 0 ≤ d) (hd1 : d ≤ distance s.endPoint (startPt segs i s)) :
    ∃ (j : ℕ) (b : Box 3) (t : ℝ), l.boxes[j]? = some b ∧ l.times[j]? = some (some t) ∧ b.Has (along (startPt segs i s) s.endPoint d) ∧
      t ≤ max (startT segs i s + (d + p.length / 2) * (s.endTime - startT segs i s) /
        distance s.endPoint (startPt segs i s) - p.lead) 1e-10 := by
  have hmk := fun i s (_ : segs[i]? = some s) st => box3_total p (ctxOf segs i s) st
  obtain ⟨hall, rfl⟩ := ok_iff_allStop box3 boxFun p segs hne hmk l h
  obtain ⟨hrot, hrs, hsp, hst⟩ := ctxOf_unrotated segs i s hun hs
  set c := ctxOf segs i s with hc
  have hend : c.seg = s := rfl
  have hlen : c.len = distance s.endPoint (startPt segs i s) := rfl
  have hslope : c.slope = 1 := slope_planar c (by rw [hend, hsp]; exact hz)
  have hex := hall i s hs hpow
  have he := eps_pos
  have hL' : 2 * eps ≤ p.length := by have : 2 * eps = 2e-10 := by norm_num [eps]
                                      linarith
  have hLp : 0 < p.length := by linarith
  obtain ⟨n, hn, hnd⟩ := exists_pass c p hrot hslope hL' hex d hd0 hd1
  have hmin0 : 0 ≤ min ((n : ℝ) * p.length) c.len := le_min (by positivity) (len_nonneg c)
  have hstate := state_closed c p hrot hslope hLp n (fun m hm => (lastIndex_spec c p hex).2 m (by omega))
  have hdist : c.dist (c.state p n) = min ((n : ℝ) * p.length) c.len := by
    rw [hstate, rayState_dist c _ _ hmin0, hslope, one_mul]
  set σ := min ((n : ℝ) * p.length) c.len with hσ
  set b := beadLength p.length c.len n with hb
  have hb0 : 0 ≤ b := by have := abs_nonneg (d - σ); linarith
  have hbL : b ≤ p.length := by
    rw [hb, beadLength]
    split
    · exact le_rfl
    · rename_i hcon
      have : (n : ℝ) * p.length > c.len := not_le.1 hcon
      nlinarith
  have hmem := mem_block boxFun p c (by rw [hend]; exact hpow) hex n hn
  have hmem' : (boxFun p c (c.state p n), c.pushTime p (c.dist (c.state p n)), c.cos, c.sin) ∈
      (pathContexts segs).flatMap (block boxFun p) :=
    List.mem_flatMap.2 ⟨c, List.mem_of_getElem? (pathContexts_get segs i s hs), hmem⟩
  obtain ⟨j, hj⟩ := List.getElem?_of_mem hmem'
  have htime : c.pushTime p (c.dist (c.state p n)) =
      some (max (c.startTime + σ * (s.endTime - c.startTime) / c.len - p.lead) eps) := by
    rw [hdist, SegCtx.pushTime, timeTo_eq c σ hdur (by
      intro h0
      have : σ ≤ c.len := min_le_right _ _
      linarith)]
    rfl
  refine ⟨j, boxFun p c (c.state p n), max (c.startTime + σ * (s.endTime - c.startTime) / c.len - p.lead) eps, ?_, ?_, ?_, ?_⟩
  · simp only [appendRows, Lists.empty, List.nil_append, List.getElem?_map, hj, Option.map_some]
  · simp only [appendRows, Lists.empty, List.nil_append, List.getElem?_map, hj, Option.map_some, htime]
  · have hbox : boxFun p c (c.state p n) = beadBox (along c.startPoint c.seg.endPoint σ) c.cos c.sin b p.width p.height := by
      have h1 : boxFun p c (c.state p n) = planarBox3 p c (c.state p n) := by simp only [boxFun, hrot]
      rw [h1, planarBox3_eq, hstate]
      rw [along_eq c (by rw [hrs, hsp]) (by rw [hend, hsp]; exact hz) σ
        (by intro h0; have : σ ≤ c.len := min_le_right _ _; linarith)]
      rfl
    have hpt : along (startPt segs i s) s.endPoint d = (rayState c d 0).center := by
      rw [along_eq c (by rw [hrs, hsp]) (by rw [hend, hsp]; exact hz) d (by intro h0; linarith)]
      rfl
    have hpt2 : along c.startPoint c.seg.endPoint σ = (rayState c σ 0).center := by
      rw [along_eq c (by rw [hrs, hsp]) (by rw [hend, hsp]; exact hz) σ
        (by intro h0; have : σ ≤ c.len := min_le_right _ _; linarith)]
    rw [hbox, hpt, hpt2]
    have hca := abs_nonneg c.cos
    have hsa := abs_nonneg c.sin
    have hx : |c.cos * (d - σ)| ≤ |c.cos| * (b / 2) := by
      rw [abs_mul]; exact mul_le_mul_of_nonneg_left hnd hca
    have hy : |c.sin * (d - σ)| ≤ |c.sin| * (b / 2) := by
      rw [abs_mul]; exact mul_le_mul_of_nonneg_left hnd hsa
    rw [abs_le] at hx hy
    have hcw : 0 ≤ |c.cos| * p.width := mul_nonneg hca hw
    have hsw : 0 ≤ |c.sin| * p.width := mul_nonneg hsa hw
    refine ⟨?_, ?_, ?_, ?_, ?_, ?_⟩ <;>
      simp only [beadBox, rayState, Matrix.cons_val_zero, Matrix.cons_val_one, Matrix.cons_val] <;> nlinarith
  · refine max_le_max ?_ le_rfl
    have h1 : σ ≤ d + p.length / 2 := by
      have := (abs_le.1 hnd).1; linarith
    have h2 : σ * (s.endTime - c.startTime) / c.len ≤ (d + p.length / 2) * (s.endTime - c.startTime) / c.len := by
      apply div_le_div_of_nonneg_right _ (len_nonneg c)
      apply mul_le_mul_of_nonneg_right h1
      have : c.startTime < s.endTime := hdur
      linarith
    have h3 : c.startTime = startT segs i s := rfl
    rw [← h3, ← hlen]
    linarith

theorem beadLength_sum (L len : ℝ) (N : ℕ) (h : ∀ m < N, (m : ℝ) * L ≤ len) :
    ((List.range (N + 1)).map (beadLength L len)).sum = L + min ((N : ℝ) * L) len := by
  have hpre : ∀ M ≤ N, ((List.range M).map (beadLength L len)).sum = M * L := by
    intro M hM
    induction M with
    | zero => simp
    | succ M ih =>
      rw [List.range_succ, List.map_append, List.sum_append, ih (by omega)]
      simp [beadLength, h M (by omega)]
      ring
  rw [List.range_succ, List.map_append, List.sum_append, hpre N le_rfl]
  simp only [List.map_cons, List.map_nil, List.sum_cons, List.sum_nil, add_zero, beadLength]
  split
  · rename_i hle; rw [min_eq_left hle]; ring
  · rename_i hle; rw [min_eq_right (not_le.1 hle).le]; ring

/-- C14: the boxes of a powered planar segment are beads with centres on the segment, the first at its start; their lengths
do not exceed the deposition length and add up to the length of the segment plus one deposition length, up to the tolerance
1e-10; consecutive beads are not further apart than a deposition length. -/
theorem C14_beads (p : Params) (segs : List Segment) (hne : segs ≠ []) (hun : Unrotated segs)
    (hL : 0 < p.length) (l : Lists (Box 3)) (h : alongScanPath box3 p segs = .ok l) :
    ∃ blocks : List (List (Box 3 × Option ℝ × ℝ × ℝ)),
      blocks.length = segs.length ∧ rows l = blocks.flatten ∧
      ∀ (i : ℕ) (s : Segment) (blk : List (Box 3 × Option ℝ × ℝ × ℝ)), segs[i]? = some s → blocks[i]? = some blk →
        s.power > 1e-10 → s.endPoint.z = (startPt segs i s).z →
        ∃ beads : List (ℝ × ℝ),
          List.Forall₂ (fun (b : ℝ × ℝ) (r : Box 3 × Option ℝ × ℝ × ℝ) =>
            r.1 = beadBox (along (startPt segs i s) s.endPoint b.1) r.2.2.1 r.2.2.2 b.2 p.width p.height) beads blk ∧
          (∀ b ∈ beads, 0 ≤ b.1 ∧ b.1 ≤ distance s.endPoint (startPt segs i s) ∧ 0 < b.2 ∧ b.2 ≤ p.length) ∧
          (∀ b, beads.head? = some b → b.1 = 0) ∧
          (beads.map Prod.snd).sum ≤ distance s.endPoint (startPt segs i s) + p.length ∧
          distance s.endPoint (startPt segs i s) + p.length < (beads.map Prod.snd).sum + 1e-10 := by
  have hmk := fun i s (_ : segs[i]? = some s) st => box3_total p (ctxOf segs i s) st
  obtain ⟨hall, rfl⟩ := ok_iff_allStop box3 boxFun p segs hne hmk l h
  obtain ⟨hr, hp⟩ := rows_appendRows_empty (β := Box 3) ((pathContexts segs).flatMap (block boxFun p))
  refine ⟨(pathContexts segs).map (block boxFun p), by simp [pathContexts_length], by rw [hr, List.flatMap_def], ?_⟩
  intro i s blk hs hb hpow hz
  rw [List.getElem?_map, pathContexts_get segs i s hs] at hb
  simp only [Option.map_some, Option.some.injEq] at hb
  obtain ⟨hrot, hrs, hsp, hst⟩ := ctxOf_unrotated segs i s hun hs
  set c := ctxOf segs i s with hc
  have hend : c.seg = s := rfl
  have hlen : c.len = distance s.endPoint (startPt segs i s) := rfl
  have hslope : c.slope = 1 := slope_planar c (by rw [hend, hsp]; exact hz)
  have hex := hall i s hs hpow
  have he := eps_pos
  obtain ⟨hl1, hl2⟩ := last_spec c p hrot hslope hL hex
  have hblk : blk = (List.range (c.lastIndex p hex + 1)).map fun n =>
      (boxFun p c (c.state p n), c.pushTime p (c.dist (c.state p n)), c.cos, c.sin) := by
    have hp' : c.seg.power > eps := hpow
    rw [← hb, block, if_pos hp', dif_pos hex]
  refine ⟨(List.range (c.lastIndex p hex + 1)).map fun n : ℕ =>
    (min ((n : ℝ) * p.length) c.len, beadLength p.length c.len n), ?_, ?_, ?_, ?_⟩
  · rw [hblk, List.forall₂_map_left_iff, List.forall₂_map_right_iff, List.forall₂_same]
    intro n hn
    have hn' := List.mem_range.1 hn
    have hstate := state_closed c p hrot hslope hL n (fun m hm => (lastIndex_spec c p hex).2 m (by omega))
    have h1 : boxFun p c (c.state p n) = planarBox3 p c (c.state p n) := by simp only [boxFun, hrot]
    dsimp only
    rw [h1, planarBox3_eq, hstate]
    rw [along_eq c (by rw [hrs, hsp]) (by rw [hend, hsp]; exact hz) _
      (by intro h0; rw [h0]; exact min_eq_right (by positivity))]
    rfl
  · intro b hb
    simp only [List.mem_map, List.mem_range] at hb
    obtain ⟨n, hn, rfl⟩ := hb
    refine ⟨le_min (by positivity) (len_nonneg c), min_le_right _ _, ?_, ?_⟩
    · simp only [beadLength]
      split
      · exact hL
      · rename_i hcon
        cases n with
        | zero => simp at hcon; linarith [len_nonneg c]
        | succ m =>
          have := hl2 m (by omega)
          push_cast
          linarith
    · simp only [beadLength]
      split
      · exact le_rfl
      · rename_i hcon; linarith
  · intro b hb'
    simp only [List.range_succ_eq_map, List.map_cons, List.head?_cons, Option.some.injEq] at hb'
    rw [← hb']
    simp [len_nonneg c]
  · rw [List.map_map]
    have hsum := beadLength_sum p.length c.len (c.lastIndex p hex) (fun m hm => by linarith [hl2 m hm])
    have hfun : (Prod.snd ∘ fun n : ℕ => (min ((n : ℝ) * p.length) c.len, beadLength p.length c.len n)) =
        beadLength p.length c.len := rfl
    rw [hfun, hsum]
    have hm : min ((c.lastIndex p hex : ℝ) * p.length) c.len ≤ c.len := min_le_right _ _
    have he' : eps = 1e-10 := rfl
    rw [← hlen]
    constructor <;> linarith

/-- The hypotheses of C14 hold for the second segment of `squarePath`. -/
example : ∃ l, alongScanPath box3 ⟨0.3, 0.1, 0.1, 0⟩ [⟨1, 0, ⟨0, 0, 0⟩, none⟩, ⟨2, 1, ⟨1, 0, 0⟩, none⟩] = .ok l := by
  rw [C12_terminates_iff_partial _ _ (by simp) (by simp [Unrotated]) (by norm_num)]
  intro i s hs hp
  match i with
  | 0 => simp at hs; subst hs; norm_num at hp
  | 1 => simp at hs; subst hs; simp [Vertical, startPt, segStart]
  | i + 2 => simp at hs

/-- A sloped segment: rises 1 over a horizontal distance of 1 with power on. -/
noncomputable def slopedPath : List Segment :=
  [⟨1, 0, ⟨0, 0, 0⟩, none⟩, ⟨2, 1, ⟨1, 0, 1⟩, none⟩]

/-- The generated boxes of a non-planar segment do not follow it: the centre never leaves the starting height, so the end
point of `slopedPath` is in no box (with height 0.1). C14 is therefore restricted to planar segments. -/
theorem C14_sloped_not_covered :
    ∃ l, alongScanPath box3 ⟨0.3, 0.1, 0.1, 0⟩ slopedPath = .ok l ∧ ∀ b ∈ l.boxes, ¬ b.Has ⟨1, 0, 1⟩ := by
  have hne : slopedPath ≠ [] := by simp [slopedPath]
  have hun : Unrotated slopedPath := by simp [Unrotated, slopedPath]
  obtain ⟨l, hl⟩ := (C12_terminates_iff_partial ⟨0.3, 0.1, 0.1, 0⟩ slopedPath hne hun (by norm_num)).2 (by
    intro i s hs hp
    match i with
    | 0 => simp [slopedPath] at hs; subst hs; norm_num at hp
    | 1 => simp [slopedPath] at hs; subst hs; simp [Vertical, startPt, segStart, slopedPath]
    | i + 2 => simp [slopedPath] at hs)
  refine ⟨l, hl, ?_⟩
  have hmk := fun i s (_ : slopedPath[i]? = some s) st =>
    box3_total ⟨0.3, 0.1, 0.1, 0⟩ (ctxOf slopedPath i s) st
  obtain ⟨hall, rfl⟩ := ok_iff_allStop box3 boxFun _ slopedPath hne hmk l hl
  intro b hb hhas
  simp only [appendRows, Lists.empty, List.nil_append, List.mem_map, List.mem_flatMap] at hb
  obtain ⟨r, ⟨c, hc, hrc⟩, rfl⟩ := hb
  obtain ⟨hpow, n, rfl, _⟩ := block_mem_time boxFun _ c r hrc
  obtain ⟨i, hi, hci⟩ := mem_pathContexts _ c hc
  obtain ⟨hrot, hrs, hsp, hst⟩ := ctxOf_unrotated slopedPath i c.seg hun hi
  rw [← hci] at hrot hrs
  obtain ⟨σ, nbl, h0, h1, h2⟩ := state_ray c ⟨0.3, 0.1, 0.1, 0⟩ hrot (by norm_num) n
  have hz : c.refStart.z = 0 := by
    rw [hrs]
    match i, hi with
    | 0, hi =>
      exfalso
      have : c.seg = ⟨1, 0, ⟨0, 0, 0⟩, none⟩ := by simpa [slopedPath] using hi.symm
      rw [this] at hpow; norm_num [eps] at hpow
    | 1, hi => simp [startPt, segStart, slopedPath]
    | i + 2, hi => simp [slopedPath] at hi
  have hbox : boxFun ⟨0.3, 0.1, 0.1, 0⟩ c (c.state ⟨0.3, 0.1, 0.1, 0⟩ n) =
      planarBox3 ⟨0.3, 0.1, 0.1, 0⟩ c (c.state ⟨0.3, 0.1, 0.1, 0⟩ n) := by simp only [boxFun, hrot]
  have hhi := hhas.2.2.2.2.2
  have hhi2 : (boxFun ⟨0.3, 0.1, 0.1, 0⟩ c (c.state ⟨0.3, 0.1, 0.1, 0⟩ n)).hi 2 = 0 := by
    rw [hbox, h2]
    show c.refStart.z + 0 * σ = 0
    rw [hz]; ring
  rw [hhi2] at hhi
  norm_num at hhi

end Verif.Deposition
