import Verif.Deposition.ListProps
import Mathlib.Tactic.Linarith
import Mathlib.Tactic.Positivity

/-!
# Lemmas about the deposition loop
-/

namespace Verif.Deposition

open Verif.Quat Verif.ScanPath

/-! ## The loop over segments -/

/-- The contexts the loop over the segments goes through. -/
noncomputable def contexts : ℝ → Pt3 ℝ → Pt3 ℝ → List Segment → List SegCtx
  | _, _, _, [] => []
  | t0, p0, r0, s :: rest =>
    ⟨t0, p0, r0, s⟩ :: contexts s.endTime s.endPoint (buildRef s.endRotation s.endPoint) rest

/-- All contexts of a path. -/
noncomputable def pathContexts (segs : List Segment) : List SegCtx :=
  match segs with
  | [] => []
  | s :: _ => contexts 0 s.endPoint (buildRef s.endRotation s.endPoint) segs

/-- The context of segment `i`. -/
noncomputable def ctxOf (segs : List Segment) (i : ℕ) (s : Segment) : SegCtx :=
  ⟨(segStart segs i s).1, (segStart segs i s).2.1, buildRef (segStart segs i s).2.2 (segStart segs i s).2.1, s⟩

theorem contexts_length (t0 : ℝ) (p0 r0 : Pt3 ℝ) (segs : List Segment) :
    (contexts t0 p0 r0 segs).length = segs.length := by
  induction segs generalizing t0 p0 r0 with
  | nil => rfl
  | cons s rest ih => simp [contexts, ih]

theorem contexts_get_succ (t0 : ℝ) (p0 r0 : Pt3 ℝ) (segs : List Segment) (j : ℕ) (a s : Segment)
    (ha : segs[j]? = some a) (hs : segs[j + 1]? = some s) :
    (contexts t0 p0 r0 segs)[j + 1]? =
      some ⟨a.endTime, a.endPoint, buildRef a.endRotation a.endPoint, s⟩ := by
  induction segs generalizing t0 p0 r0 j with
  | nil => simp at ha
  | cons b rest ih =>
    cases j with
    | zero =>
      simp at ha hs
      subst ha
      cases rest with
      | nil => simp at hs
      | cons c rest => simp at hs; subst hs; simp [contexts]
    | succ j =>
      simp at ha hs
      simpa [contexts] using ih _ _ _ j ha hs

theorem pathContexts_get (segs : List Segment) (i : ℕ) (s : Segment) (hs : segs[i]? = some s) :
    (pathContexts segs)[i]? = some (ctxOf segs i s) := by
  cases i with
  | zero =>
    cases segs with
    | nil => simp at hs
    | cons a rest => simp at hs; subst hs; simp [pathContexts, contexts, ctxOf, segStart]
  | succ j =>
    have hj : ∃ a, segs[j]? = some a := by
      obtain ⟨h, _⟩ := List.getElem?_eq_some_iff.1 hs
      exact ⟨_, List.getElem?_eq_getElem (by omega)⟩
    obtain ⟨a, ha⟩ := hj
    cases segs with
    | nil => simp at hs
    | cons b rest =>
      simp only [pathContexts]
      rw [contexts_get_succ _ _ _ _ j a s ha hs]
      simp [ctxOf, segStart, ha]

theorem pathContexts_length (segs : List Segment) : (pathContexts segs).length = segs.length := by
  cases segs with
  | nil => rfl
  | cons a rest => simp [pathContexts, contexts_length]

theorem mem_pathContexts (segs : List Segment) (c : SegCtx) (hc : c ∈ pathContexts segs) :
    ∃ i, segs[i]? = some c.seg ∧ c = ctxOf segs i c.seg := by
  obtain ⟨i, hi⟩ := List.getElem?_of_mem hc
  have hlt : i < segs.length := by
    rw [← pathContexts_length]; exact (List.getElem?_eq_some_iff.1 hi).1
  have := pathContexts_get segs i segs[i] (List.getElem?_eq_getElem hlt)
  rw [hi] at this
  simp only [Option.some.injEq] at this
  have h2 : c.seg = segs[i] := by rw [this]; rfl
  exact ⟨i, by rw [h2]; exact List.getElem?_eq_getElem hlt, by rw [h2]; exact this⟩

open Classical in
/-- The rows of one segment. -/
noncomputable def block {β : Type} (f : Params → SegCtx → LoopState → β) (p : Params) (c : SegCtx) :
    List (β × Option ℝ × ℝ × ℝ) :=
  if c.seg.power > eps then
    if h : ∃ n, c.stops (c.state p n) then
      (List.range (c.lastIndex p h + 1)).map fun n =>
        (f p c (c.state p n), c.pushTime p (c.dist (c.state p n)), c.cos, c.sin)
    else []
  else []

/-- Appending rows to four lists. -/
def appendRows {β : Type} (l : Lists β) (r : List (β × Option ℝ × ℝ × ℝ)) : Lists β :=
  ⟨l.boxes ++ r.map (·.1), l.times ++ r.map (·.2.1), l.cosines ++ r.map (·.2.2.1), l.sines ++ r.map (·.2.2.2)⟩

theorem appendRows_append {β : Type} (l : Lists β) (r s : List (β × Option ℝ × ℝ × ℝ)) :
    appendRows (appendRows l r) s = appendRows l (r ++ s) := by
  simp [appendRows]

theorem appendRows_nil {β : Type} (l : Lists β) : appendRows l [] = l := by
  simp [appendRows]

theorem rows_appendRows_empty {β : Type} (r : List (β × Option ℝ × ℝ × ℝ)) :
    rows (appendRows .empty r) = r ∧ Parallel (appendRows .empty r) := by
  constructor
  · induction r with
    | nil => rfl
    | cons a rest ih =>
      simp only [rows, appendRows, Lists.empty, List.nil_append, List.map_cons, List.zip_cons_cons,
        List.cons.injEq] at ih ⊢
      exact ⟨trivial, ih⟩
  · simp [Parallel, appendRows, Lists.empty]

theorem pushAll_eq {β : Type} (mk : Params → SegCtx → LoopState → Option β) (f : Params → SegCtx → LoopState → β)
    (p : Params) (c : SegCtx) (hmk : ∀ s, mk p c s = some (f p c s)) (l : Lists β) (ss : List LoopState) :
    pushAll mk p c l ss =
      some (appendRows l (ss.map fun s => (f p c s, c.pushTime p (c.dist s), c.cos, c.sin))) := by
  induction ss generalizing l with
  | nil => simp [pushAll, appendRows_nil]
  | cons s rest ih =>
    simp only [pushAll, hmk, ih]
    simp [appendRows, push]

theorem runSegment_eq {β : Type} (mk : Params → SegCtx → LoopState → Option β) (f : Params → SegCtx → LoopState → β)
    (p : Params) (c : SegCtx) (hmk : ∀ s, mk p c s = some (f p c s)) (l : Lists β) (hpow : c.seg.power > eps) :
    ((∃ n, c.stops (c.state p n)) → runSegment mk p c l = .ok (appendRows l (block f p c))) ∧
    (¬ (∃ n, c.stops (c.state p n)) → runSegment mk p c l = .diverges) := by
  constructor
  · intro h
    simp only [runSegment, hmk, Option.isNone_some, Bool.false_eq_true, if_false, dif_pos h,
      pushAll_eq mk f p c hmk, block, if_pos hpow, List.map_map, Function.comp_def]
  · intro h
    simp only [runSegment, hmk, Option.isNone_some, Bool.false_eq_true, if_false, dif_neg h]

theorem runSegments_eq {β : Type} (mk : Params → SegCtx → LoopState → Option β)
    (f : Params → SegCtx → LoopState → β) (p : Params) (segs : List Segment) (t0 : ℝ) (p0 r0 : Pt3 ℝ) (l : Lists β)
    (hmk : ∀ c ∈ contexts t0 p0 r0 segs, ∀ s, mk p c s = some (f p c s)) :
    ((∀ c ∈ contexts t0 p0 r0 segs, c.seg.power > eps → ∃ n, c.stops (c.state p n)) →
      runSegments mk p t0 p0 r0 l segs = .ok (appendRows l ((contexts t0 p0 r0 segs).flatMap (block f p)))) ∧
    (¬ (∀ c ∈ contexts t0 p0 r0 segs, c.seg.power > eps → ∃ n, c.stops (c.state p n)) →
      runSegments mk p t0 p0 r0 l segs = .diverges) := by
  induction segs generalizing t0 p0 r0 l with
  | nil => simp [contexts, runSegments, appendRows_nil]
  | cons s rest ih =>
    have hmk0 := hmk ⟨t0, p0, r0, s⟩ (by simp [contexts])
    have ih' := fun l => ih s.endTime s.endPoint (buildRef s.endRotation s.endPoint) l
      (fun c hc => hmk c (by simp [contexts, hc]))
    by_cases hpow : s.power > eps
    · by_cases hstop : ∃ n, (⟨t0, p0, r0, s⟩ : SegCtx).stops ((⟨t0, p0, r0, s⟩ : SegCtx).state p n)
      · have h1 := (runSegment_eq mk f p ⟨t0, p0, r0, s⟩ hmk0 l hpow).1 hstop
        constructor
        · intro h
          have h2 := (ih' (appendRows l (block f p ⟨t0, p0, r0, s⟩))).1 (fun c hc => h c (by simp [contexts, hc]))
          simp only [runSegments, if_pos hpow, h1, h2, appendRows_append, contexts, List.flatMap_cons]
        · intro h
          have h2 := (ih' (appendRows l (block f p ⟨t0, p0, r0, s⟩))).2 (by
            intro hall
            apply h
            intro c hc hcp
            simp only [contexts, List.mem_cons] at hc
            rcases hc with rfl | hc
            · exact hstop
            · exact hall c hc hcp)
          simp only [runSegments, if_pos hpow, h1, h2]
      · have h1 := (runSegment_eq mk f p ⟨t0, p0, r0, s⟩ hmk0 l hpow).2 hstop
        constructor
        · intro h
          exact absurd (h ⟨t0, p0, r0, s⟩ (by simp [contexts]) hpow) hstop
        · intro _
          simp only [runSegments, if_pos hpow, h1]
    · have hb : block f p ⟨t0, p0, r0, s⟩ = [] := by simp only [block, if_neg hpow]
      constructor
      · intro h
        have h2 := (ih' l).1 (fun c hc => h c (by simp [contexts, hc]))
        simp only [runSegments, if_neg hpow, h2, contexts, List.flatMap_cons, hb, List.nil_append]
      · intro h
        have h2 := (ih' l).2 (by
          intro hall
          apply h
          intro c hc hcp
          simp only [contexts, List.mem_cons] at hc
          rcases hc with rfl | hc
          · exact absurd hcp hpow
          · exact hall c hc hcp)
        simp only [runSegments, if_neg hpow, h2]

/-- Every powered segment's loop ends. -/
def AllStop (p : Params) (segs : List Segment) : Prop :=
  ∀ i s, segs[i]? = some s → s.power > eps → ∃ n, (ctxOf segs i s).stops ((ctxOf segs i s).state p n)

theorem alongScanPath_eq {β : Type} (mk : Params → SegCtx → LoopState → Option β)
    (f : Params → SegCtx → LoopState → β) (p : Params) (segs : List Segment) (hne : segs ≠ [])
    (hmk : ∀ i s, segs[i]? = some s → ∀ st, mk p (ctxOf segs i s) st = some (f p (ctxOf segs i s) st)) :
    (AllStop p segs →
      alongScanPath mk p segs = .ok (appendRows .empty ((pathContexts segs).flatMap (block f p)))) ∧
    (¬ AllStop p segs → alongScanPath mk p segs = .diverges) := by
  obtain ⟨s, rest, rfl⟩ := List.exists_cons_of_ne_nil hne
  have hall : AllStop p (s :: rest) ↔
      ∀ c ∈ pathContexts (s :: rest), c.seg.power > eps → ∃ n, c.stops (c.state p n) := by
    constructor
    · intro h c hc hp
      obtain ⟨i, h1, h2⟩ := mem_pathContexts _ c hc
      rw [h2]; exact h i _ h1 hp
    · intro h i a ha hp
      have := pathContexts_get _ i a ha
      exact h _ (List.mem_of_getElem? this) hp
  have := runSegments_eq mk f p (s :: rest) 0 s.endPoint (buildRef s.endRotation s.endPoint) .empty (by
    intro c hc st
    obtain ⟨i, h1, h2⟩ := mem_pathContexts (s :: rest) c hc
    rw [h2]; exact hmk i _ h1 st)
  rw [hall]
  exact this

theorem ok_iff_allStop {β : Type} (mk : Params → SegCtx → LoopState → Option β)
    (f : Params → SegCtx → LoopState → β) (p : Params) (segs : List Segment) (hne : segs ≠ [])
    (hmk : ∀ i s, segs[i]? = some s → ∀ st, mk p (ctxOf segs i s) st = some (f p (ctxOf segs i s) st)) (l : Lists β)
    (h : alongScanPath mk p segs = .ok l) :
    AllStop p segs ∧ l = appendRows .empty ((pathContexts segs).flatMap (block f p)) := by
  obtain ⟨h1, h2⟩ := alongScanPath_eq mk f p segs hne hmk
  by_cases ha : AllStop p segs
  · rw [h1 ha] at h
    simp only [Gen.ok.injEq] at h
    exact ⟨ha, h.symm⟩
  · rw [h2 ha] at h; cases h

/-! ## The loop inside an unrotated segment -/

theorem distance_self (a : Pt3 ℝ) : distance a a = 0 := by simp [distance]

theorem distance_sq (a b : Pt3 ℝ) : distance a b ^ 2 = (a.x - b.x) ^ 2 + (a.y - b.y) ^ 2 + (a.z - b.z) ^ 2 := by
  unfold distance
  rw [Real.sq_sqrt]; positivity

theorem dist_nonneg' (a b : Pt3 ℝ) : 0 ≤ distance a b := Real.sqrt_nonneg _

theorem len_nonneg (c : SegCtx) : 0 ≤ c.len := dist_nonneg' _ _

/-- Distance of a point on a ray from its origin. -/
theorem distance_ray (o u : Pt3 ℝ) (σ : ℝ) (hσ : 0 ≤ σ) (ρ : ℝ) (hρ : 0 ≤ ρ)
    (hu : u.x ^ 2 + u.y ^ 2 + u.z ^ 2 = ρ ^ 2) :
    distance ⟨o.x + u.x * σ, o.y + u.y * σ, o.z + u.z * σ⟩ o = ρ * σ := by
  unfold distance
  have : (o.x + u.x * σ - o.x) ^ 2 + (o.y + u.y * σ - o.y) ^ 2 + (o.z + u.z * σ - o.z) ^ 2 = (ρ * σ) ^ 2 := by
    have : (o.x + u.x * σ - o.x) ^ 2 + (o.y + u.y * σ - o.y) ^ 2 + (o.z + u.z * σ - o.z) ^ 2
      = (u.x ^ 2 + u.y ^ 2 + u.z ^ 2) * σ ^ 2 := by ring
    rw [this, hu]; ring
  rw [this, Real.sqrt_sq (by positivity)]

theorem eps_pos : 0 < eps := by norm_num [eps]

/-- `√(cos² + sin²)` as computed for the segment: 1 for a planar segment, less for a sloped one. -/
noncomputable def SegCtx.slope (c : SegCtx) : ℝ := Real.sqrt (c.cos ^ 2 + c.sin ^ 2)

theorem slope_sq (c : SegCtx) : c.slope ^ 2 = c.cos ^ 2 + c.sin ^ 2 := by
  unfold SegCtx.slope; rw [Real.sq_sqrt]; positivity

theorem slope_nonneg (c : SegCtx) : 0 ≤ c.slope := Real.sqrt_nonneg _

theorem slope_le_one (c : SegCtx) : c.slope ≤ 1 := by
  have h : c.slope ^ 2 ≤ 1 := by
    rw [slope_sq]
    by_cases h : c.len = 0
    · simp [SegCtx.cos, SegCtx.sin, h]
    · have hl : 0 < c.len := lt_of_le_of_ne (len_nonneg c) (Ne.symm h)
      simp only [SegCtx.cos, SegCtx.sin, ne_eq, h, not_false_eq_true, if_true]
      rw [div_pow, div_pow, ← add_div, div_le_one (by positivity)]
      have := distance_sq c.seg.endPoint c.startPoint
      have h2 : c.len ^ 2 = _ := this
      rw [h2]
      nlinarith [sq_nonneg (c.seg.endPoint.z - c.startPoint.z)]
  nlinarith [slope_nonneg c]

theorem slope_planar (c : SegCtx) (hz : c.seg.endPoint.z = c.startPoint.z) : c.slope = 1 := by
  have h : c.slope ^ 2 = 1 := by
    rw [slope_sq]
    by_cases h : c.len = 0
    · simp [SegCtx.cos, SegCtx.sin, h]
    · simp only [SegCtx.cos, SegCtx.sin, ne_eq, h, not_false_eq_true, if_true]
      rw [div_pow, div_pow, ← add_div, div_eq_one_iff_eq (by positivity)]
      have h2 : c.len ^ 2 = _ := distance_sq c.seg.endPoint c.startPoint
      rw [h2, hz]; ring
  nlinarith [slope_nonneg c]

theorem slope_pos (c : SegCtx) (h : c.len = 0 ∨ c.seg.endPoint.x ≠ c.startPoint.x ∨ c.seg.endPoint.y ≠ c.startPoint.y) :
    0 < c.slope := by
  rw [SegCtx.slope, Real.sqrt_pos]
  by_cases hl : c.len = 0
  · simp [SegCtx.cos, SegCtx.sin, hl]
  · simp only [SegCtx.cos, SegCtx.sin, ne_eq, hl, not_false_eq_true, if_true]
    rcases h with h | h | h
    · exact absurd h hl
    · have : (c.seg.endPoint.x - c.startPoint.x) / c.len ≠ 0 := div_ne_zero (sub_ne_zero.2 h) hl
      positivity
    · have : (c.seg.endPoint.y - c.startPoint.y) / c.len ≠ 0 := div_ne_zero (sub_ne_zero.2 h) hl
      positivity

theorem slope_zero (c : SegCtx) (hl : c.len ≠ 0) (hx : c.seg.endPoint.x = c.startPoint.x)
    (hy : c.seg.endPoint.y = c.startPoint.y) : c.cos = 0 ∧ c.sin = 0 := by
  simp [SegCtx.cos, SegCtx.sin, hl, hx, hy]

/-- State of an unrotated segment after running along the ray for `σ`. -/
noncomputable def rayState (c : SegCtx) (σ nbl : ℝ) : LoopState :=
  ⟨⟨c.refStart.x + c.cos * σ, c.refStart.y + c.sin * σ, c.refStart.z + 0 * σ⟩, nbl⟩

theorem rayState_dist (c : SegCtx) (σ nbl : ℝ) (hσ : 0 ≤ σ) : c.dist (rayState c σ nbl) = c.slope * σ := by
  unfold SegCtx.dist rayState
  apply distance_ray c.refStart ⟨c.cos, c.sin, 0⟩ σ hσ c.slope (slope_nonneg c)
  rw [slope_sq]; simp

theorem rayState_next (c : SegCtx) (p : Params) (hrot : c.seg.endRotation = none) (σ nbl : ℝ) (hσ : 0 ≤ σ) :
    c.next p (rayState c σ nbl) =
      rayState c (σ + (if c.slope * σ + p.length > c.len then c.len - c.slope * σ else p.length))
        (if c.slope * σ + p.length > c.len then c.len - c.slope * σ else nbl) := by
  have hd := rayState_dist c σ nbl hσ
  have hi : c.increment p (rayState c σ nbl) =
      if c.slope * σ + p.length > c.len then c.len - c.slope * σ else p.length := by
    simp only [SegCtx.increment, hd]
  unfold SegCtx.next
  rw [hi, hd, hrot]
  simp only [rayState, zero_mul, add_zero, LoopState.mk.injEq, Pt3.mk.injEq, and_true]
  constructor <;> ring

theorem state_ray (c : SegCtx) (p : Params) (hrot : c.seg.endRotation = none) (hL : 0 ≤ p.length) (n : ℕ) :
    ∃ σ nbl, 0 ≤ σ ∧ c.slope * σ ≤ c.len ∧ c.state p n = rayState c σ nbl := by
  induction n with
  | zero => exact ⟨0, p.length, le_refl _, by simpa using len_nonneg c, by simp [SegCtx.state, rayState]⟩
  | succ n ih =>
    obtain ⟨σ, nbl, h0, h1, h2⟩ := ih
    have hs0 := slope_nonneg c
    have hs1 := slope_le_one c
    refine ⟨_, _, ?_, ?_, by rw [SegCtx.state, h2, rayState_next c p hrot σ nbl h0]⟩
    · split <;> linarith
    · split
      · nlinarith
      · nlinarith

theorem state_dist_succ (c : SegCtx) (p : Params) (hrot : c.seg.endRotation = none) (hL : 0 ≤ p.length) (n : ℕ) :
    c.dist (c.state p (n + 1)) = c.dist (c.state p n) + c.slope * min p.length (c.len - c.dist (c.state p n)) ∧
    0 ≤ c.dist (c.state p n) ∧ c.dist (c.state p n) ≤ c.len := by
  obtain ⟨σ, nbl, h0, h1, h2⟩ := state_ray c p hrot hL n
  have hs0 := slope_nonneg c
  have hd : c.dist (c.state p n) = c.slope * σ := by rw [h2, rayState_dist c σ nbl h0]
  refine ⟨?_, by rw [hd]; positivity, by rw [hd]; exact h1⟩
  rw [hd, SegCtx.state, h2, rayState_next c p hrot σ nbl h0, rayState_dist]
  · split
    · rw [min_eq_right (by linarith)]; ring
    · rw [min_eq_left (by linarith)]; ring
  · split <;> linarith

/-- The loop of an unrotated segment that is not vertical ends. -/
theorem stops_of_slope_pos (c : SegCtx) (p : Params) (hrot : c.seg.endRotation = none) (hL : 0 < p.length)
    (hs : 0 < c.slope) : ∃ n, c.stops (c.state p n) := by
  by_contra hno
  push Not at hno
  set m := c.slope * min p.length eps with hm
  have hmpos : 0 < m := mul_pos hs (lt_min hL eps_pos)
  have key : ∀ n : ℕ, (n : ℝ) * m ≤ c.dist (c.state p n) := by
    intro n
    induction n with
    | zero => simpa using (state_dist_succ c p hrot hL.le 0).2.1
    | succ n ih =>
      obtain ⟨e, _, _⟩ := state_dist_succ c p hrot hL.le n
      have hns := hno n
      unfold SegCtx.stops at hns
      have : min p.length eps ≤ min p.length (c.len - c.dist (c.state p n)) :=
        min_le_min le_rfl (by linarith)
      have h2 := mul_le_mul_of_nonneg_left this hs.le
      push_cast
      rw [e]; linarith
  obtain ⟨n, hn⟩ := exists_nat_gt (c.len / m)
  have h1 := key n
  have h2 := (state_dist_succ c p hrot hL.le n).2.2
  rw [div_lt_iff₀ hmpos] at hn
  linarith

/-- The loop of an unrotated vertical segment never ends. -/
theorem not_stops_of_vertical (c : SegCtx) (p : Params) (hrot : c.seg.endRotation = none) (hl : eps ≤ c.len)
    (hx : c.seg.endPoint.x = c.startPoint.x) (hy : c.seg.endPoint.y = c.startPoint.y) :
    ¬ ∃ n, c.stops (c.state p n) := by
  have hl0 : c.len ≠ 0 := by have := eps_pos; linarith
  obtain ⟨hc, hs⟩ := slope_zero c hl0 hx hy
  have hst : ∀ n, (c.state p n).center = c.refStart := by
    intro n
    induction n with
    | zero => rfl
    | succ n ih =>
      simp only [SegCtx.state, SegCtx.next, hrot, hc, hs, zero_mul, add_zero]
      exact ih
  rintro ⟨n, hn⟩
  unfold SegCtx.stops SegCtx.dist at hn
  rw [hst n, distance_self] at hn
  linarith

end Verif.Deposition
