import Verif.ScanPath.QueryLemmas
import Verif.Quaternion.Props
import Mathlib.Topology.Order.OrderClosed
import Mathlib.Topology.Algebra.Ring.Real
import Mathlib.Topology.Algebra.Order.Field
import Mathlib.Analysis.SpecialFunctions.Trigonometric.Bounds

/-!
# C06–C10: answers of a scan path
-/

namespace Verif.ScanPath

open Verif.Quat

/-! ## C06 -/

/-- C06 (partial: the times saved by earlier queries must not lie after the time asked for): after any history of
queries the position, the power and the orientation are those of an object that was never queried. -/
theorem C06_history_independent_partial (segs : List Segment) (five : Bool) (calls : List Call) (t : ℝ)
    (hq : ∀ c ∈ calls, c.isQuery) (ht : ∀ c ∈ calls, ∀ s, c.savedTime = some s → s ≤ t) :
    let P := after (fresh segs five) calls
    (∀ b, (value P t b).1 = (value (fresh segs five) t b).1) ∧
      (powerModifier P t).1 = (powerModifier (fresh segs five) t).1 ∧
      quaternion P t = quaternion (fresh segs five) t := by
  obtain ⟨hg, hl⟩ := growing_of_queries segs calls hq
  obtain ⟨h1, h2, h3⟩ := after_cacheOk (cacheOk_fresh segs five t) hg ht
  intro P
  have hs : P.segs = segs := h2.trans hl
  have hf : P.fiveAxis = five := h3
  refine ⟨fun b => ?_, ?_, ?_⟩
  · rw [value_eq_fresh h1 b]; change (value (fresh P.segs P.fiveAxis) t b).1 = _; rw [hs, hf]
  · rw [power_eq_fresh h1]; change (powerModifier (fresh P.segs P.fiveAxis) t).1 = _; rw [hs, hf]
  · rw [quaternion_eq_fresh h1]; change quaternion (fresh P.segs P.fiveAxis) t = _; rw [hs, hf]

/-- The two-segment path used as a witness: at the origin until 1, then to `x = 1` at time 2. -/
def twoSegs : List Segment := [⟨1, 0, ⟨0, 0, 0⟩, none⟩, ⟨2, 1, ⟨1, 0, 0⟩, none⟩]

/-- A mixed history that saves times 0.5 and 1.5 before asking for 1.75. -/
example : ∃ calls : List Call, calls.length = 4 ∧ (∀ c ∈ calls, c.isQuery) ∧
    (∀ c ∈ calls, ∀ s, c.savedTime = some s → s ≤ (1.75 : ℝ)) :=
  ⟨[.power 0.5, .value 3 false, .value 1.5 true, .quaternion 2], rfl, by simp [Call.isQuery],
    by simp [Call.savedTime]; norm_num⟩

theorem search_twoSegs_zero {t : ℝ} (h : t ≤ 1) : search twoSegs t 0 = some 0 :=
  search_intro (le_refl _) (by simp [twoSegs]) (by simpa [twoSegs] using h) (fun j hj _ h => by omega)

theorem search_twoSegs_one {t : ℝ} (h : t ≤ 2) : search twoSegs t 1 = some 1 :=
  search_intro (le_refl _) (by simp [twoSegs]) (by simpa [twoSegs] using h) (fun j hj _ h => by omega)

/-- C06 is false for decreasing times: asking for the power at time 2 and then for the position at time 0.5 gives
`x = -0.5` instead of `x = 0`. -/
theorem C06_history_independent_refuted :
    ¬ ∀ (segs : List Segment) (five : Bool) (calls : List Call) (t : ℝ), (∀ c ∈ calls, c.isQuery) →
      (value (after (fresh segs five) calls) t false).1 = (value (fresh segs five) t false).1 := by
  intro h
  have := h twoSegs false [.power 2] (1/2) (by simp [Call.isQuery])
  have s1 : search twoSegs 2 0 = some 1 :=
    search_intro (by omega) (by simp [twoSegs]) (by simp [twoSegs]) (fun j hj _ h => by
      have : j = 0 := by omega
      subst this; simp [twoSegs])
  have e1 : after (fresh twoSegs false) [.power 2] = ⟨twoSegs, false, 1⟩ := by
    simp [after, step, powerModifier, fresh, current, s1, Path.save]
    simp [twoSegs]
  rw [e1] at this
  have s2 : search twoSegs (1/2) 0 = some 0 := search_twoSegs_zero (by norm_num)
  have s3 : search twoSegs (1/2) 1 = some 1 := search_twoSegs_one (by norm_num)
  unfold value current at this
  simp only [fresh] at this
  rw [s2, s3] at this
  simp [twoSegs, segStart, lerp] at this
  norm_num at this

/-! ## C07 -/

theorem fresh_current {segs : List Segment} {five : Bool} (hs : StrictTimes segs) {t : ℝ} {k : ℕ} (hk : k < segs.length)
    (ht : t ≤ segs[k].endTime) (hp : ∀ j (hj : j < segs.length), j + 1 = k → segs[j].endTime < t) :
    current (fresh segs five) t = some (k, segs[k]) := by
  have hsr : search segs t 0 = some k := by
    refine search_intro (Nat.zero_le _) hk ht fun j hj _ hjk => ?_
    rcases Nat.eq_or_lt_of_le (Nat.succ_le_of_lt hjk) with h | h
    · exact hp j hj h
    · have h1 := hp (k - 1) (by omega) (by omega)
      have h2 := List.pairwise_iff_getElem.mp hs j (k - 1) hj (by omega) (by omega)
      exact lt_trans h2 h1
  simp [current, fresh, hsr, hk]

theorem le_last {segs : List Segment} (hs : StrictTimes segs) {k : ℕ} (hk : k < segs.length) :
    ∃ l, segs.getLast? = some l ∧ segs[k].endTime ≤ l.endTime := by
  refine ⟨segs[segs.length - 1]'(by omega), ?_, ?_⟩
  · rw [List.getLast?_eq_getElem?, List.getElem?_eq_getElem (by omega)]
  · rcases Nat.lt_or_ge k (segs.length - 1) with h | h
    · exact le_of_lt (List.pairwise_iff_getElem.mp hs k _ hk (by omega) h)
    · have : k = segs.length - 1 := by omega
      subst this; exact le_refl _

/-- C07: strictly after the end of record `i` and until the end of record `i+1` the beam is on the straight segment
between the two end points, at the fraction of the elapsed time. -/
theorem C07_on_segment (segs : List Segment) (five b : Bool) (hs : StrictTimes segs) (i : ℕ)
    (hi : i + 1 < segs.length) (t : ℝ) (h0 : segs[i].endTime < t) (h1 : t ≤ segs[i + 1].endTime) :
    ∃ f, 0 < f ∧ f ≤ 1 ∧ f * (segs[i + 1].endTime - segs[i].endTime) = t - segs[i].endTime ∧
      (value (fresh segs five) t b).1 = .value (between segs[i].endPoint segs[i + 1].endPoint f) := by
  have hd : 0 < segs[i + 1].endTime - segs[i].endTime := by linarith
  refine ⟨(t - segs[i].endTime) / (segs[i + 1].endTime - segs[i].endTime), div_pos (by linarith) hd,
    (div_le_one hd).mpr (by linarith), div_mul_cancel₀ _ hd.ne', ?_⟩
  obtain ⟨l, hl, hle⟩ := le_last hs hi
  have hc := fresh_current (five := five) hs hi h1 (fun j hj hjk => by
    have : j = i := by omega
    subst this; exact h0)
  have hi' : i < segs.length := by omega
  unfold value
  rw [hc]
  have hl' : (fresh segs five).segs.getLast? = some l := hl
  have hg : segs[i]? = some segs[i] := List.getElem?_eq_getElem hi'
  rw [hl']
  simp only [if_neg (not_lt.mpr (h1.trans hle)), fresh, segStart, hg, if_neg hd.ne']
  congr 1
  ext <;> simp only [between, lerp] <;> ring

/-- C07: until the end of the first record the beam is at its end point (a first record of positive duration). -/
theorem C07_first_record (segs : List Segment) (five b : Bool) (hs : StrictTimes segs) (h : 0 < segs.length) (t : ℝ)
    (h0 : segs[0].endTime ≠ 0) (h1 : t ≤ segs[0].endTime) :
    (value (fresh segs five) t b).1 = .value segs[0].endPoint := by
  obtain ⟨l, hl, hle⟩ := le_last hs h
  have hc := fresh_current (five := five) hs h h1 (fun j hj hjk => by omega)
  unfold value
  rw [hc]
  have hl' : (fresh segs five).segs.getLast? = some l := hl
  rw [hl']
  simp only [if_neg (not_lt.mpr (h1.trans hle)), segStart, sub_zero, if_neg h0]
  congr 1
  ext <;> simp only [lerp] <;> ring

/-- C07: at the end time of a record the beam is exactly at its end point. -/
theorem C07_end_point (segs : List Segment) (five b : Bool) (hs : StrictTimes segs) (i : ℕ) (hi : i < segs.length)
    (h0 : segs[0].endTime ≠ 0) :
    (value (fresh segs five) segs[i].endTime b).1 = .value segs[i].endPoint := by
  cases i with
  | zero => exact C07_first_record segs five b hs hi _ h0 (le_refl _)
  | succ i =>
    have hlt := List.pairwise_iff_getElem.mp hs i (i + 1) (by omega) hi (by omega)
    obtain ⟨f, -, -, hf, hv⟩ := C07_on_segment segs five b hs i hi _ hlt (le_refl _)
    rw [hv]
    have : f = 1 := by
      have hd : segs[i + 1].endTime - segs[i].endTime ≠ 0 := by linarith
      exact mul_right_cancel₀ hd (by rw [hf, one_mul])
    subst this
    congr 1
    ext <;> simp only [between] <;> ring

/-- One coordinate of the polyline through the records after `p`, as a function of time. -/
noncomputable def polyline (c : Segment → ℝ) : Segment → List Segment → ℝ → ℝ
  | p, [], _ => c p
  | p, s :: rest, t =>
    if t ≤ s.endTime then lerp (c p) (c s) p.endTime s.endTime t else polyline c s rest t

theorem polyline_start (c : Segment → ℝ) (p : Segment) (rest : List Segment)
    (h : ∀ s ∈ rest, p.endTime < s.endTime) : polyline c p rest p.endTime = c p := by
  cases rest with
  | nil => rfl
  | cons s rest =>
    simp only [polyline, if_pos (h s (by simp)).le, lerp]; ring

theorem polyline_continuous (c : Segment → ℝ) (p : Segment) (rest : List Segment)
    (h : StrictTimes (p :: rest)) : Continuous (polyline c p rest) := by
  induction rest generalizing p with
  | nil => exact continuous_const
  | cons s rest ih =>
    have hs : StrictTimes (s :: rest) := (List.pairwise_cons.mp h).2
    have hps := (List.pairwise_cons.mp h).1
    have hlt := hps s (by simp)
    have : polyline c p (s :: rest) = fun t => if t ≤ s.endTime then lerp (c p) (c s) p.endTime s.endTime t
        else polyline c s rest t := rfl
    rw [this]
    refine Continuous.if_le ?_ (ih s hs) continuous_id continuous_const ?_
    · unfold lerp; fun_prop
    · intro t ht
      subst ht
      rw [polyline_start c s rest (List.pairwise_cons.mp hs).1]
      have hd : s.endTime - p.endTime ≠ 0 := by linarith
      unfold lerp
      field_simp
      ring

theorem polyline_eq (c : Segment → ℝ) (p : Segment) (rest : List Segment) (h : StrictTimes (p :: rest))
    (i : ℕ) (hi : i + 1 < (p :: rest).length) (t : ℝ) (h0 : (p :: rest)[i].endTime < t)
    (h1 : t ≤ (p :: rest)[i + 1].endTime) :
    polyline c p rest t =
      lerp (c (p :: rest)[i]) (c (p :: rest)[i + 1]) (p :: rest)[i].endTime (p :: rest)[i + 1].endTime t := by
  induction rest generalizing p i with
  | nil => simp at hi
  | cons s rest ih =>
    cases i with
    | zero =>
      simp only [List.getElem_cons_zero, List.getElem_cons_succ] at h0 h1 ⊢
      simp [polyline, h1]
    | succ i =>
      have hs : StrictTimes (s :: rest) := (List.pairwise_cons.mp h).2
      simp only [List.getElem_cons_succ] at h0 h1 ⊢
      have hi' : i + 1 < (s :: rest).length := by simpa using hi
      have hst : s.endTime < t := by
        refine lt_of_le_of_lt ?_ h0
        rcases Nat.eq_zero_or_pos i with hz | hz
        · subst hz; simp
        · exact (List.pairwise_iff_getElem.mp hs 0 i (by simp) (by omega) hz).le
      simp only [polyline, if_neg (not_le.mpr hst)]
      exact ih s hs i hi' h0 h1

/-- C07: the beam moves continuously: there is a continuous curve that the reported position follows until the end of
the path (for a first record of zero duration, from its end on). -/
theorem C07_continuous (segs : List Segment) (five b : Bool) (hs : StrictTimes segs) (hne : 0 < segs.length) :
    ∃ fx fy fz : ℝ → ℝ, Continuous fx ∧ Continuous fy ∧ Continuous fz ∧
      ∀ t, (segs[0].endTime ≠ 0 ∨ segs[0].endTime < t) → t ≤ segs[segs.length - 1].endTime →
        (value (fresh segs five) t b).1 = .value ⟨fx t, fy t, fz t⟩ := by
  cases segs with
  | nil => simp at hne
  | cons s rest =>
    have key : ∀ c : Segment → ℝ, Continuous (fun t => if t ≤ s.endTime then c s else polyline c s rest t) := by
      intro c
      refine Continuous.if_le continuous_const (polyline_continuous c s rest hs) continuous_id continuous_const ?_
      intro t ht; subst ht
      exact (polyline_start c s rest (List.pairwise_cons.mp hs).1).symm
    refine ⟨_, _, _, key (fun a => a.endPoint.x), key (fun a => a.endPoint.y), key (fun a => a.endPoint.z), ?_⟩
    intro t h0 ht
    by_cases hts : t ≤ s.endTime
    · simp only [if_pos hts]
      have h0' : (s :: rest)[0].endTime ≠ 0 := h0.resolve_right (not_lt.mpr hts)
      exact C07_first_record (s :: rest) five b hs hne t h0' hts
    · simp only [if_neg hts]
      -- find the record
      have hex : ∃ k, ∃ hk : k < (s :: rest).length, t ≤ (s :: rest)[k].endTime := ⟨_, by simp, ht⟩
      classical
      obtain ⟨hk, hkt⟩ := Nat.find_spec hex
      have hmin := fun m => Nat.find_min (H := hex) (m := m)
      generalize Nat.find hex = k at *
      cases k with
      | zero => exact absurd (by simpa using hkt) hts
      | succ i =>
        have hi0 : (s :: rest)[i].endTime < t := by
          by_contra hcon
          exact hmin i (Nat.lt_succ_self i) ⟨by omega, not_lt.mp hcon⟩
        obtain ⟨f, -, -, hf, hv⟩ := C07_on_segment (s :: rest) five b hs i hk t hi0 hkt
        rw [hv]
        have hd : (s :: rest)[i + 1].endTime - (s :: rest)[i].endTime ≠ 0 := by
          have := List.pairwise_iff_getElem.mp hs i (i + 1) (by omega) hk (by omega)
          linarith
        have hf' : f = (t - (s :: rest)[i].endTime) / ((s :: rest)[i + 1].endTime - (s :: rest)[i].endTime) := by
          rw [eq_div_iff hd, hf]
        congr 1
        ext <;> simp only [between]
        all_goals
          rw [polyline_eq _ s rest hs i hk t hi0 hkt, hf', lerp]
          ring

/-- The witness path meets the hypotheses of the C07 theorems. -/
example : StrictTimes twoSegs ∧ 0 < twoSegs.length ∧ twoSegs[0].endTime ≠ 0 ∧ (1 : ℕ) < twoSegs.length ∧
    twoSegs[0].endTime < (1.5 : ℝ) ∧ (1.5 : ℝ) ≤ twoSegs[1].endTime := by
  refine ⟨?_, by simp [twoSegs], by simp [twoSegs], by simp [twoSegs], ?_, ?_⟩
  · simp [StrictTimes, twoSegs]
  · simp [twoSegs]; norm_num
  · simp [twoSegs]; norm_num

/-- C07 boundary: when the first record ends at time 0 (a first dwell of zero, the usual first line of a scan path) a
query at time zero is `0/0`. -/
theorem C07_zero_first_record_is_nan (segs : List Segment) (five b : Bool) (hs : StrictTimes segs)
    (h : 0 < segs.length) (t : ℝ) (h0 : segs[0].endTime = 0) (h1 : t ≤ 0) :
    (value (fresh segs five) t b).1 = .nan := by
  obtain ⟨l, hl, hle⟩ := le_last hs h
  have hc := fresh_current (five := five) hs h (h1.trans h0.ge) (fun j hj hjk => by omega)
  unfold value
  rw [hc]
  have hl' : (fresh segs five).segs.getLast? = some l := hl
  rw [hl']
  have : ¬ t > l.endTime := not_lt.mpr ((h1.trans h0.ge).trans hle)
  simp only [if_neg this, segStart, sub_zero, if_pos h0]

example : ∃ segs : List Segment, StrictTimes segs ∧ ∃ h : 0 < segs.length, segs[0].endTime = 0 :=
  ⟨[⟨0, 0, ⟨0, 0, 0⟩, none⟩, ⟨1, 1, ⟨1, 0, 0⟩, none⟩], by simp [StrictTimes], by simp, rfl⟩

/-! ## C08 -/

/-- C08: after the end of the path the power is zero and the position is the out-of-domain sentinel, whatever the
history of queries and growing re-reads. -/
theorem C08_off_after_end (segs : List Segment) (five b : Bool) (calls : List Call) (hg : Growing segs calls)
    (l : Segment) (hl : (listAfter segs calls).getLast? = some l) (t : ℝ) (ht : l.endTime < t) :
    let P := after (fresh segs five) calls
    (value P t b).1 = .outOfDomain ∧ (powerModifier P t).1 = .value 0 := by
  intro P
  have hP : P.segs = listAfter segs calls :=
    (after_indexOk (P := fresh segs five) ⟨Nat.zero_le _, fun h => List.length_pos_iff.mpr h⟩ hg).2
  rw [← hP] at hl
  constructor
  · unfold value; rw [hl]; simp [ht]
  · unfold powerModifier; rw [hl]; simp [ht]

/-- C08: no query on a non-empty path reads outside the segment list, whatever the history of queries and growing
re-reads, at any times. -/
theorem C08_no_out_of_bounds (segs : List Segment) (five b : Bool) (calls : List Call) (hg : Growing segs calls)
    (hne : listAfter segs calls ≠ []) (t : ℝ) :
    let P := after (fresh segs five) calls
    (value P t b).1 ≠ .ub ∧ (powerModifier P t).1 ≠ .ub ∧ quaternion P t ≠ .ub := by
  intro P
  obtain ⟨⟨-, hidx⟩, hsegs⟩ :=
    after_indexOk (P := fresh segs five) ⟨Nat.zero_le _, fun h => List.length_pos_iff.mpr h⟩ hg
  change IndexOk P at hidx
  have hsegs' : P.segs = listAfter segs calls := hsegs
  have hne' : P.segs ≠ [] := by rw [hsegs']; exact hne
  obtain ⟨l, hl⟩ : ∃ l, P.segs.getLast? = some l := by
    cases h : P.segs.getLast? with
    | none => exact absurd (List.getLast?_eq_none_iff.mp h) hne'
    | some l => exact ⟨l, rfl⟩
  refine ⟨?_, ?_, ?_⟩
  · unfold value; rw [hl]
    by_cases ht : t > l.endTime
    · simp [ht]
    · obtain ⟨i, s, hc⟩ := current_isSome hidx hl (not_lt.mp ht)
      simp only [if_neg ht, hc]
      split <;> simp
  · unfold powerModifier; rw [hl]
    by_cases ht : t > l.endTime
    · simp [ht]
    · obtain ⟨i, s, hc⟩ := current_isSome hidx hl (not_lt.mp ht)
      simp [if_neg ht, hc]
  · unfold quaternion
    split
    · simp
    · rw [hl]
      by_cases ht : t > l.endTime
      · simp only [if_pos ht]; split <;> simp
      · obtain ⟨i, s, hc⟩ := current_isSome hidx hl (not_lt.mp ht)
        simp only [if_neg ht, hc]
        split
        · split <;> simp
        · simp

/-- The hypothesis "non-empty" is needed: every position query on an empty path reads outside the list. -/
theorem C08_empty_path (five b : Bool) (t : ℝ) :
    (value (fresh [] five) t b).1 = .ub ∧ (powerModifier (fresh [] five) t).1 = .ub := by
  constructor <;> rfl

/-- A history with a growing re-read that meets the hypotheses of C08. -/
example : ∃ (segs : List Segment) (calls : List Call), Growing segs calls ∧ listAfter segs calls ≠ [] ∧
    ∃ l, (listAfter segs calls).getLast? = some l ∧ l.endTime < (5 : ℝ) :=
  ⟨twoSegs, [.power 2, .reread (twoSegs ++ [⟨3, 0, ⟨2, 0, 0⟩, none⟩]), .value 1 false],
    by simp [Growing], by simp [listAfter], ⟨3, 0, ⟨2, 0, 0⟩, none⟩, by simp [listAfter],
    by norm_num⟩

/-! ## C10 -/

/-- C10: if the file only grows, every answer after a re-read equals the answer of a fresh object for the new list,
provided the saved times do not lie after the time asked for. -/
theorem C10_answers_follow_current_list (segs : List Segment) (five b : Bool) (calls : List Call)
    (hg : Growing segs calls) (t : ℝ) (ht : ∀ c ∈ calls, ∀ s, c.savedTime = some s → s ≤ t) :
    let P := after (fresh segs five) calls
    (value P t b).1 = (value (fresh (listAfter segs calls) five) t b).1 ∧
      (powerModifier P t).1 = (powerModifier (fresh (listAfter segs calls) five) t).1 := by
  obtain ⟨h1, h2, h3⟩ := after_cacheOk (cacheOk_fresh segs five t) hg ht
  intro P
  have hs : P.segs = listAfter segs calls := h2
  have hf : P.fiveAxis = five := h3
  constructor
  · rw [value_eq_fresh h1 b]; change (value (fresh P.segs P.fiveAxis) t b).1 = _; rw [hs, hf]
  · rw [power_eq_fresh h1]; change (powerModifier (fresh P.segs P.fiveAxis) t).1 = _; rw [hs, hf]

theorem search_prefix {segs more : List Segment} {t : ℝ} {k : ℕ} (h : search segs t 0 = some k) :
    search (segs ++ more) t 0 = some k := by
  obtain ⟨-, hk, h2, h3⟩ := search_some h
  refine search_intro (Nat.zero_le _) (by simp; omega) (by rw [List.getElem_append_left hk]; exact h2) ?_
  intro j hj _ hjk
  rw [List.getElem_append_left (by omega)]
  exact h3 j (by omega) (Nat.zero_le _) hjk

/-- C10: every time inside the old path gives the same position and power on the longer path. -/
theorem C10_growing_keeps_answers (segs more : List Segment) (five b : Bool) (hs : StrictTimes (segs ++ more))
    (l : Segment) (hl : segs.getLast? = some l) (t : ℝ) (ht : t ≤ l.endTime) :
    (value (fresh (segs ++ more) five) t b).1 = (value (fresh segs five) t b).1 ∧
      (powerModifier (fresh (segs ++ more) five) t).1 = (powerModifier (fresh segs five) t).1 := by
  have hne : segs ≠ [] := by intro he; rw [he] at hl; cases hl
  have hlen := List.length_pos_iff.mpr hne
  have hll : l = segs[segs.length - 1]'(by omega) := by
    rw [List.getLast?_eq_getElem?, List.getElem?_eq_getElem (by omega)] at hl
    exact (Option.some.inj hl).symm
  obtain ⟨k, hk⟩ := search_exists (segs := segs) (t := t) (i := 0) (k := segs.length - 1) (Nat.zero_le _) (by omega)
    (by rw [← hll]; exact ht)
  have hk' := search_prefix (more := more) hk
  obtain ⟨-, hkl, -, -⟩ := search_some hk
  obtain ⟨l', hl', hle⟩ := le_last hs (k := segs.length - 1) (by simp; omega)
  have hle' : t ≤ l'.endTime := by
    rw [List.getElem_append_left (by omega), ← hll] at hle; exact ht.trans hle
  have c1 : current (fresh (segs ++ more) five) t = some (k, segs[k]) := by
    simp [current, fresh, hk', hkl, List.getElem?_append_left hkl]
  have c2 : current (fresh segs five) t = some (k, segs[k]) := by
    simp [current, fresh, hk, hkl]
  have hst : segStart (segs ++ more) k segs[k] = segStart segs k segs[k] := by
    cases k with
    | zero => rfl
    | succ j => simp only [segStart]; rw [List.getElem?_append_left (by omega)]
  have g1 : (fresh (segs ++ more) five).segs.getLast? = some l' := hl'
  have g2 : (fresh segs five).segs.getLast? = some l := hl
  constructor
  · unfold value
    rw [c1, c2, g1, g2]
    simp only [if_neg (not_lt.mpr ht), if_neg (not_lt.mpr hle')]
    change (if segs[k].endTime - (segStart (segs ++ more) k segs[k]).1 = 0 then _ else _ : Answer (Pt3 ℝ) × Path).1 =
          (if segs[k].endTime - (segStart segs k segs[k]).1 = 0 then _ else _ : Answer (Pt3 ℝ) × Path).1
    by_cases h0 : segs[k].endTime - (segStart segs k segs[k]).1 = 0
    · rw [hst]; simp only [if_pos h0]
    · rw [hst]
      simp only [if_neg h0, fresh, hst]
  · unfold powerModifier
    rw [c1, c2, g1, g2]
    simp only [if_neg (not_lt.mpr ht), if_neg (not_lt.mpr hle')]

/-- A growing two-record path for C10. -/
example : ∃ segs more : List Segment, StrictTimes (segs ++ more) ∧ more ≠ [] ∧
    ∃ l, segs.getLast? = some l ∧ (1.5 : ℝ) ≤ l.endTime :=
  ⟨twoSegs, [⟨3, 0, ⟨2, 0, 0⟩, none⟩], by simp [StrictTimes, twoSegs]; norm_num, by simp,
    ⟨2, 1, ⟨1, 0, 0⟩, none⟩, rfl, by norm_num⟩

/-- C10: growth is needed: after a re-read that shortens the list the kept index points outside it. -/
theorem C10_shrinking_reads_outside :
    ∃ (segs segs' : List Segment) (t : ℝ), segs' ≠ [] ∧
      (value (after (fresh segs false) [.power 2, .reread segs']) t false).1 = .ub := by
  refine ⟨twoSegs, [⟨1, 0, ⟨0, 0, 0⟩, none⟩], 1/2, by simp, ?_⟩
  have s1 : search twoSegs 2 0 = some 1 :=
    search_intro (by omega) (by simp [twoSegs]) (by simp [twoSegs]) (fun j hj _ h => by
      have : j = 0 := by omega
      subst this; simp [twoSegs])
  have e1 : after (fresh twoSegs false) [.power 2, .reread [⟨1, 0, ⟨0, 0, 0⟩, none⟩]] =
      ⟨[⟨1, 0, ⟨0, 0, 0⟩, none⟩], false, 1⟩ := by
    simp [after, step, powerModifier, fresh, current, s1, Path.save]
    simp [twoSegs]
  rw [e1]
  have : search [⟨1, 0, ⟨0, 0, 0⟩, none⟩] (1/2) 1 = none := by unfold search; simp
  unfold value current
  simp only [this]
  simp
  norm_num

/-! ## C09 -/

/-- `-q`. -/
def neg (q : Q ℝ) : Q ℝ := ⟨-q.r, -q.i, -q.j, -q.k⟩

theorem isUnit_scale_neg {q : Q ℝ} (h : q.IsUnit) : (q.scaleAssign (-1)).IsUnit := by
  simp only [Q.IsUnit, Q.scaleAssign] at *; linarith

theorem divAssign_unit {p q : Q ℝ} (hp : p.IsUnit) (hq : q.IsUnit) : (p.divAssign q).IsUnit :=
  C02_unit_mul _ _ hp (by simp only [Q.IsUnit] at *; linarith)

/-- The quotient has no rotation axis only if the quaternions agree up to sign. -/
theorem noAxis_div {p q : Q ℝ} (hp : p.IsUnit) (hq : q.IsUnit) (h : NoAxis (p.divAssign q)) : p = q ∨ p = neg q := by
  have hu := divAssign_unit hp hq
  have hc := C02_div_mul_cancel p q hq
  obtain ⟨h1, h2, h3⟩ := h
  generalize p.divAssign q = d at *
  have hr : d.r = 1 ∨ d.r = -1 := by
    simp only [Q.IsUnit, h1, h2, h3] at hu
    have : d.r * d.r = 1 := by linarith
    exact mul_self_eq_one_iff.mp this
  rcases hr with hr | hr
  · left; rw [← hc]; ext <;> simp [Q.mulAssign, h1, h2, h3, hr]
  · right; rw [← hc]; ext <;> simp [Q.mulAssign, neg, h1, h2, h3, hr]

/-- The end rotation after the sign flip that selects the short way round. -/
noncomputable def shortEnd (a b : Q ℝ) : Q ℝ := if a.dot b < 0 then b.scaleAssign (-1) else b

theorem shortEnd_unit {a b : Q ℝ} (hb : b.IsUnit) : (shortEnd a b).IsUnit := by
  unfold shortEnd; split
  · exact isUnit_scale_neg hb
  · exact hb

theorem shortEnd_same (a b : Q ℝ) : SameRotation (shortEnd a b) b := by
  unfold shortEnd; split
  · intro v; exact (C02_neg_same_rotation b v).symm
  · intro v; rfl

theorem shortEnd_noAxis {a b : Q ℝ} (ha : a.IsUnit) (hb : b.IsUnit) (h1 : a ≠ b) (h2 : b ≠ neg a) :
    ¬ NoAxis ((shortEnd a b).divAssign a) := by
  intro h
  rcases noAxis_div (shortEnd_unit hb) ha h with h | h <;> unfold shortEnd at h <;> split at h
  · apply h2
    rw [← h]
    ext <;> simp [neg, Q.scaleAssign]
  · exact h1 h.symm
  · apply h1
    have e1 := congrArg Q.r h
    have e2 := congrArg Q.i h
    have e3 := congrArg Q.j h
    have e4 := congrArg Q.k h
    simp [neg, Q.scaleAssign] at e1 e2 e3 e4
    ext <;> simp [*]
  · exact h2 h

theorem slerp_eq {a b : Q ℝ} {t0 t1 t : ℝ} (hab : a ≠ b) (hd : ¬ t1 - t0 < 1e-12) :
    slerp a b t0 t1 t =
      (powAssign ((shortEnd a b).divAssign a) ((t - t0) / (t1 - t0))).map fun p => p.mulAssign a := by
  unfold slerp shortEnd
  rw [if_neg hab, if_neg hd]

theorem one_mulAssign (a : Q ℝ) : one.mulAssign a = a := by
  ext <;> simp [one, Q.mulAssign]

/-- C09 (partial: the recorded rotations are not opposite quaternions): the interpolated orientation is a unit
quaternion at every time. -/
theorem C09_slerp_unit_partial (a b : Q ℝ) (ha : a.IsUnit) (hb : b.IsUnit) (h : b ≠ neg a) (t0 t1 t : ℝ) :
    ∃ q, slerp a b t0 t1 t = some q ∧ q.IsUnit := by
  by_cases hab : a = b
  · exact ⟨a, by simp [slerp, hab], ha⟩
  by_cases hd : t1 - t0 < 1e-12
  · exact ⟨b, by simp only [slerp, if_neg hab, if_pos hd], hb⟩
  rw [slerp_eq hab hd]
  obtain ⟨p, hp, hu⟩ := C03_pow_unit_partial _ (shortEnd_noAxis ha hb hab h) ((t - t0) / (t1 - t0))
  exact ⟨p.mulAssign a, by rw [hp]; rfl, C02_unit_mul _ _ hu ha⟩

/-- C09 (partial): at the end of the segment the orientation is the recorded rotation. -/
theorem C09_slerp_end_partial (a b : Q ℝ) (ha : a.IsUnit) (hb : b.IsUnit) (h : b ≠ neg a) (t0 t1 : ℝ) :
    ∃ q, slerp a b t0 t1 t1 = some q ∧ SameRotation q b := by
  by_cases hab : a = b
  · exact ⟨a, by simp [slerp, hab], by rw [hab]; intro v; rfl⟩
  by_cases hd : t1 - t0 < 1e-12
  · exact ⟨b, by simp only [slerp, if_neg hab, if_pos hd], fun v => rfl⟩
  rw [slerp_eq hab hd]
  have hpos : t1 - t0 ≠ 0 := by
    have : (1e-12 : ℝ) > 0 := by norm_num
    intro h0; rw [h0] at hd; exact hd this
  rw [div_self hpos, C03_pow_one_partial _ (divAssign_unit (shortEnd_unit hb) ha) (shortEnd_noAxis ha hb hab h)]
  refine ⟨_, rfl, ?_⟩
  simp only [C02_div_mul_cancel _ _ ha]
  exact shortEnd_same a b

/-- C09 (partial; segments of at least 1e-12 seconds): at the start of the segment the orientation is the previous
rotation. -/
theorem C09_slerp_start_partial (a b : Q ℝ) (ha : a.IsUnit) (hb : b.IsUnit) (h : b ≠ neg a) (t0 t1 : ℝ)
    (hd : t0 + 1e-12 ≤ t1) : slerp a b t0 t1 t0 = some a := by
  by_cases hab : a = b
  · simp [slerp, hab]
  rw [slerp_eq hab (by linarith), sub_self, zero_div, C03_pow_zero_partial _ (shortEnd_noAxis ha hb hab h)]
  simp [one_mulAssign]

/-- C09 (partial): the interpolation takes the short way round: seen from the start rotation it never turns further
than the recorded end rotation (both as quaternions up to sign). -/
theorem C09_slerp_short_path_partial (a b : Q ℝ) (ha : a.IsUnit) (hb : b.IsUnit) (h : b ≠ neg a) (hab : a ≠ b)
    (t0 t1 t : ℝ) (hd : t0 + 1e-12 ≤ t1) (h0 : t0 ≤ t) (h1 : t ≤ t1) :
    ∃ q, slerp a b t0 t1 t = some q ∧ |a.dot b| ≤ a.dot q := by
  rw [slerp_eq hab (by linarith)]
  have hax := shortEnd_noAxis ha hb hab h
  have hu := divAssign_unit (shortEnd_unit (a := a) hb) ha
  have hn : partialNorm ((shortEnd a b).divAssign a) ≠ 0 := fun h' => hax ((partialNorm_eq_zero_iff _).mp h')
  have hr : ((shortEnd a b).divAssign a).r = |a.dot b| := by
    unfold shortEnd; split
    · rename_i hneg
      rw [abs_of_neg hneg]
      simp only [Q.divAssign, Q.mulAssign, Q.scaleAssign, Q.dot]; ring
    · rename_i hneg
      rw [abs_of_nonneg (not_lt.mp hneg)]
      simp only [Q.divAssign, Q.mulAssign, Q.dot]; ring
  have hcos := cos_theta hu
  refine ⟨_, by simp only [powAssign, if_neg hn]; rfl, ?_⟩
  have hpos : 0 < t1 - t0 := by
    have : (1e-12 : ℝ) > 0 := by norm_num
    linarith
  set th := atan2 (partialNorm ((shortEnd a b).divAssign a)) ((shortEnd a b).divAssign a).r with hth
  have hthn : 0 ≤ th := by
    rw [hth, atan2, Complex.arg_nonneg_iff]
    exact Real.sqrt_nonneg _
  have hthp : th ≤ Real.pi := Complex.arg_le_pi _
  set e := (t - t0) / (t1 - t0)
  have he0 : 0 ≤ e := div_nonneg (by linarith) hpos.le
  have he1 : e ≤ 1 := (div_le_one hpos).mpr (by linarith)
  have hle : e * th ≤ th := by nlinarith
  have hc := Real.cos_le_cos_of_nonneg_of_le_pi (mul_nonneg he0 hthn) hthp hle
  rw [hcos, hr] at hc
  refine hc.trans (le_of_eq ?_)
  simp only [Q.IsUnit] at ha
  simp only [Q.mulAssign, Q.dot]
  linear_combination (-Real.cos (e * th)) * ha

/-- Two different unit rotations that are not opposite. -/
example : ∃ a b : Q ℝ, a.IsUnit ∧ b.IsUnit ∧ b ≠ neg a ∧ a ≠ b :=
  ⟨⟨1, 0, 0, 0⟩, ⟨3/5, 4/5, 0, 0⟩, by simp [Q.IsUnit], by simp [Q.IsUnit]; norm_num, by simp [neg], by simp; norm_num⟩

/-- C09 is false when the next record writes the same rotation with the opposite sign: all components are NaN. -/
theorem C09_opposite_sign_refuted (a : Q ℝ) (ha : a.IsUnit) (t0 t1 t : ℝ) (hd : t0 + 1e-12 ≤ t1) :
    slerp a (neg a) t0 t1 t = none := by
  have hne : a ≠ neg a := by
    intro h
    have e1 := congrArg Q.r h
    have e2 := congrArg Q.i h
    have e3 := congrArg Q.j h
    have e4 := congrArg Q.k h
    simp only [neg] at e1 e2 e3 e4
    have z1 : a.r = 0 := by linarith
    have z2 : a.i = 0 := by linarith
    have z3 : a.j = 0 := by linarith
    have z4 : a.k = 0 := by linarith
    simp [Q.IsUnit, z1, z2, z3, z4] at ha
  rw [slerp_eq hne (by linarith)]
  have hdot : a.dot (neg a) < 0 := by
    simp only [Q.IsUnit] at ha
    simp only [Q.dot, neg]; linarith
  have hse : shortEnd a (neg a) = a := by
    unfold shortEnd; rw [if_pos hdot]; ext <;> simp [neg, Q.scaleAssign]
  rw [hse, (C03_pow_nan_iff _ _).mpr]
  · rfl
  · refine ⟨?_, ?_, ?_⟩ <;> simp only [Q.divAssign, Q.mulAssign] <;> ring

/-- All rotations of a path are recorded, are unit quaternions and no record is the exact opposite of the previous one. -/
structure GoodRotations (segs : List Segment) : Prop where
  recorded : ∀ i (hi : i < segs.length), ∃ q, segs[i].endRotation = some q ∧ q.IsUnit
  noFlip : ∀ i (hi : i + 1 < segs.length) a b, segs[i].endRotation = some a → segs[i + 1].endRotation = some b → b ≠ neg a

/-- C09 (partial) for the query itself: on a five-axis path the orientation reported for every time until the end of the
path is a unit quaternion. -/
theorem C09_orientation_unit_partial (segs : List Segment) (hr : GoodRotations segs) (calls : List Call)
    (hq : ∀ c ∈ calls, c.isQuery) (hne : segs ≠ []) (t : ℝ) :
    ∃ q, quaternion (after (fresh segs true) calls) t = .value q ∧ q.IsUnit := by
  obtain ⟨hg, hla⟩ := growing_of_queries segs calls hq
  obtain ⟨⟨-, hidx⟩, hsegs⟩ :=
    after_indexOk (P := fresh segs true) ⟨Nat.zero_le _, fun h => List.length_pos_iff.mpr h⟩ hg
  have hf : (after (fresh segs true) calls).fiveAxis = true := by
    clear hidx hsegs hg hla
    have : ∀ (P : Path), P.fiveAxis = true → (after P calls).fiveAxis = true := by
      induction calls with
      | nil => intro P h; exact h
      | cons c rest ih =>
        intro P h
        have hc := hq c (by simp)
        exact ih (fun c' h' => hq c' (by simp [h'])) (step P c) (by rw [(step_segs_query hc).2]; exact h)
    exact this _ rfl
  generalize after (fresh segs true) calls = P at *
  have hs : P.segs = segs := hsegs.trans hla
  have hlen := List.length_pos_iff.mpr hne
  have hl : P.segs.getLast? = some (segs[segs.length - 1]'(by omega)) := by
    rw [hs, List.getLast?_eq_getElem?, List.getElem?_eq_getElem (by omega)]
  unfold quaternion
  rw [hl, if_neg (by simp [hf])]
  by_cases ht : t > (segs[segs.length - 1]'(by omega)).endTime
  · obtain ⟨q, h1, h2⟩ := hr.recorded (segs.length - 1) (by omega)
    exact ⟨q, by simp only [if_pos ht, h1], h2⟩
  · obtain ⟨i, s, hc⟩ := current_isSome hidx hl (not_lt.mp ht)
    have hget := (current_some hc).2
    rw [hs] at hget
    obtain ⟨hi, hsi⟩ := List.getElem?_eq_some_iff.mp hget
    obtain ⟨b, hb, hbu⟩ := hr.recorded i hi
    rw [hsi] at hb
    simp only [if_neg ht, hc]
    cases i with
    | zero =>
      simp only [segStart, hb]
      have : slerp b b 0 s.endTime t = some b := by simp [slerp]
      exact ⟨b, by rw [this], hbu⟩
    | succ j =>
      have hj : j < segs.length := by omega
      have hgj : P.segs[j]? = some segs[j] := by rw [hs]; exact List.getElem?_eq_getElem hj
      obtain ⟨a, ha, hau⟩ := hr.recorded j hj
      have hnf := hr.noFlip j hi a b ha (by rw [hsi]; exact hb)
      obtain ⟨q, hq1, hq2⟩ := C09_slerp_unit_partial a b hau hbu hnf segs[j].endTime s.endTime t
      simp only [segStart, hgj, ha, hb, hq1]
      exact ⟨q, rfl, hq2⟩

/-- C09 (partial): at the end time of a record the reported orientation describes exactly the recorded rotation. -/
theorem C09_orientation_at_record_partial (segs : List Segment) (hs : StrictTimes segs) (hr : GoodRotations segs)
    (i : ℕ) (hi : i < segs.length) (b : Q ℝ) (hb : segs[i].endRotation = some b) :
    ∃ q, quaternion (fresh segs true) segs[i].endTime = .value q ∧ SameRotation q b := by
  obtain ⟨l, hl, hle⟩ := le_last hs hi
  have hl' : (fresh segs true).segs.getLast? = some l := hl
  have hc := fresh_current (five := true) hs hi (le_refl _) (fun j hj hjk => by
    exact List.pairwise_iff_getElem.mp hs j i hj hi (by omega))
  unfold quaternion
  have hft : ¬ (fresh segs true).fiveAxis = false := by simp [fresh]
  rw [if_neg hft, hl', hc]
  simp only [if_neg (not_lt.mpr hle)]
  obtain ⟨b', hb', hbu⟩ := hr.recorded i hi
  rw [hb] at hb'; cases hb'
  cases i with
  | zero =>
    simp only [segStart, hb]
    have : slerp b b 0 segs[0].endTime segs[0].endTime = some b := by simp [slerp]
    exact ⟨b, by rw [this], fun v => rfl⟩
  | succ j =>
    have hj : j < segs.length := by omega
    have hgj : (fresh segs true).segs[j]? = some segs[j] := List.getElem?_eq_getElem hj
    obtain ⟨a, ha, hau⟩ := hr.recorded j hj
    have hnf := hr.noFlip j hi a b ha hb
    obtain ⟨q, hq1, hq2⟩ := C09_slerp_end_partial a b hau hbu hnf segs[j].endTime segs[j + 1].endTime
    simp only [segStart, hgj, ha, hb, hq1]
    exact ⟨q, rfl, hq2⟩

/-- A two-record five-axis path with different rotations. -/
example : ∃ segs : List Segment, segs ≠ [] ∧ StrictTimes segs ∧ GoodRotations segs := by
  refine ⟨[⟨1, 0, ⟨0, 0, 0⟩, some ⟨1, 0, 0, 0⟩⟩, ⟨2, 1, ⟨1, 0, 0⟩, some ⟨3/5, 4/5, 0, 0⟩⟩], by simp,
    by simp [StrictTimes], ?_, ?_⟩
  · intro i hi
    have : i = 0 ∨ i = 1 := by simp at hi; omega
    rcases this with rfl | rfl
    · exact ⟨_, rfl, by simp [Q.IsUnit]⟩
    · exact ⟨_, rfl, by simp [Q.IsUnit]; norm_num⟩
  · intro i hi a b ha hb
    have : i = 0 := by simp at hi; omega
    subst this
    simp at ha hb
    subst ha hb
    simp [neg]

end Verif.ScanPath
