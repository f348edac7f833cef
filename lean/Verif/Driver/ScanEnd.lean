import Verif.Driver.Props

/-!
# C18: duration taken from the scan paths (`application/adamantine.hh:1041-1112`)

`std::numeric_limits<double>::max()` is modelled by `none` ("no bound").  The same code is in `run_ensemble`
(lines 1932-2017).  Each heat source is represented by what reading its file for the `j`-th time gives: the end time of
the last segment and whether `SCAN_PATH_END` was seen.
-/

namespace Verif.Driver

variable {K : Type*} [Field K] [LinearOrder K]

/-- A heat source's scan path: result of the `j`-th read and number of re-reads so far. -/
structure Src (K : Type*) where
  file : ℕ → K × Bool
  reads : ℕ

/-- `get_segment_list().back().end_time`. -/
def Src.endTime (s : Src K) : K := (s.file s.reads).1

/-- `is_finished()`. -/
def Src.finished (s : Src K) : Bool := (s.file s.reads).2

/-- `if (!is_finished()) read_file()`, lines 1087-1092. -/
def Src.reread (s : Src K) : Src K := if s.finished then s else { s with reads := s.reads + 1 }

/-- Minimum with `max()` as neutral element (lines 1045-1051, 1084-1097). -/
def minOpt : List K → Option K
  | [] => none
  | x :: xs => match minOpt xs with
    | none => some x
    | some m => some (min x m)

/-- Loop variables. -/
structure ScanSt (K : Type*) where
  time : K
  dt : K
  curEnd : Option K
  duration : Option K
  srcs : List (Src K)

/-- Initialisation, lines 1041-1058. -/
def scanStart (dt : K) (srcs : List (Src K)) : ScanSt K :=
  let e := minOpt (srcs.map Src.endTime)
  ⟨0, dt, e, if srcs.all Src.finished then e else none, srcs⟩

/-- `time < duration`. -/
def ScanSt.running (s : ScanSt K) : Prop := ∀ d, s.duration = some d → s.time < d

instance (s : ScanSt K) : Decidable s.running :=
  match h : s.duration with
  | none => isTrue (fun d hd => by rw [h] at hd; cases hd)
  | some d => if hlt : s.time < d then isTrue (fun d' hd => by rw [h] at hd; cases hd; exact hlt)
    else isFalse (fun hr => hlt (hr d h))

/-- The re-read block, lines 1078-1109. -/
def rereadBlock (s : ScanSt K) : ScanSt K :=
  let scanPathEnd := s.srcs.all Src.finished                                              -- 1083-1089
  let srcs := s.srcs.map Src.reread                                                       -- 1092
  let cur := minOpt (((s.srcs.filter (fun x => !x.finished)).map Src.reread).map Src.endTime) -- 1094-1097
  let duration := if scanPathEnd ∧ cur ≠ none then cur else s.duration                    -- 1101-1103
  { s with curEnd := cur, duration := duration, srcs := srcs }

/-- Is the re-read block entered? lines 1078-1079 (`time - max()` is never above `-tol`). -/
def ScanSt.needsReread (s : ScanSt K) : Bool :=
  match s.curEnd with
  | none => false
  | some e => decide (s.time - e > -(s.dt * (1 / 1000000)))

/-- One iteration as far as time is concerned (thermal physics on). -/
def scanIter (s : ScanSt K) : ScanSt K :=
  let s' := if s.needsReread then rereadBlock s else s
  let dt := match s'.duration with
    | none => s'.dt
    | some d => if s'.time + s'.dt > d then d - s'.time else s'.dt
  { s' with time := s'.time + dt, dt := dt }

/-- State before iteration `k`. -/
def scanAt (s : ScanSt K) : ℕ → ScanSt K
  | 0 => s
  | k + 1 => if (scanAt s k).running then scanIter (scanAt s k) else scanAt s k

/-! ## Properties -/

theorem rereadBlock_duration (s : ScanSt K) : (rereadBlock s).duration = s.duration := by
  unfold rereadBlock
  simp only
  split
  · rename_i h
    obtain ⟨h1, h2⟩ := h
    exfalso; apply h2
    have : s.srcs.filter (fun x => !x.finished) = [] := by
      rw [List.filter_eq_nil_iff]
      intro a ha
      have := List.all_eq_true.mp h1 a ha
      simp [this]
    rw [this]; rfl
  · rfl

theorem scanIter_duration (s : ScanSt K) : (scanIter s).duration = s.duration := by
  unfold scanIter
  simp only
  split
  · exact rereadBlock_duration s
  · rfl

theorem scanAt_duration (s : ScanSt K) (k : ℕ) : (scanAt s k).duration = s.duration := by
  induction k with
  | zero => rfl
  | succ k ih =>
    simp only [scanAt]
    split
    · rw [scanIter_duration, ih]
    · exact ih

/-- C18 is false: if some scan path is not finished at start-up the loop never stops, whatever the files contain later
(in particular when all of them contain `SCAN_PATH_END` from the first re-read on). -/
theorem C18_ends_after_updates_refuted (dt : K) (srcs : List (Src K)) (h : srcs.all Src.finished = false) :
    ∀ k, (scanAt (scanStart dt srcs) k).running := by
  intro k d hd
  rw [scanAt_duration] at hd
  simp [scanStart, h] at hd

/-- A source whose file is finished from the first re-read on. -/
example : ∃ srcs : List (Src ℚ), srcs.all Src.finished = false ∧ ∀ s ∈ srcs, ∀ j, 0 < j → (s.file j).2 = true :=
  ⟨[⟨fun j => (j + 1, decide (0 < j)), 0⟩], by simp [Src.finished], by simp⟩

variable [IsStrictOrderedRing K]

/-- The loop configuration with the duration fixed to `d`. -/
def fixedCfg (dt d : K) : Cfg K := ⟨true, dt, d, 0, 1, 1, 1, []⟩

omit [IsStrictOrderedRing K] in
theorem scanAt_eq_fixed (dt d : K) (srcs : List (Src K)) (hd : (scanStart dt srcs).duration = some d) (k : ℕ) :
    (scanAt (scanStart dt srcs) k).time = (stateAt (fixedCfg dt d) (start (fixedCfg dt d)) k).time ∧
    (scanAt (scanStart dt srcs) k).dt = (stateAt (fixedCfg dt d) (start (fixedCfg dt d)) k).dt := by
  induction k with
  | zero => exact ⟨rfl, rfl⟩
  | succ k ih =>
    obtain ⟨h1, h2⟩ := ih
    have hdk := scanAt_duration (scanStart dt srcs) k
    rw [hd] at hdk
    have hrun : (scanAt (scanStart dt srcs) k).running ↔
        (stateAt (fixedCfg dt d) (start (fixedCfg dt d)) k).time < (fixedCfg dt d).duration := by
      rw [← h1]
      constructor
      · intro h; exact h d hdk
      · intro h d' hd'; rw [hdk] at hd'; cases hd'; exact h
    simp only [scanAt, stateAt]
    by_cases hr : (scanAt (scanStart dt srcs) k).running
    · rw [if_pos hr, if_pos (hrun.mp hr)]
      have e1 : (scanIter (scanAt (scanStart dt srcs) k)).dt =
          if (scanAt (scanStart dt srcs) k).time + (scanAt (scanStart dt srcs) k).dt > d then
            d - (scanAt (scanStart dt srcs) k).time else (scanAt (scanStart dt srcs) k).dt := by
        unfold scanIter
        by_cases hn : (scanAt (scanStart dt srcs) k).needsReread = true
        · simp only [hn, if_true, rereadBlock_duration, hdk]; rfl
        · simp only [if_neg hn, hdk]
      have e2 : (scanIter (scanAt (scanStart dt srcs) k)).time =
          (scanAt (scanStart dt srcs) k).time + (scanIter (scanAt (scanStart dt srcs) k)).dt := by
        unfold scanIter
        by_cases hn : (scanAt (scanStart dt srcs) k).needsReread = true
        · simp only [hn, if_true]; rfl
        · simp only [if_neg hn]
      rw [e2, e1, h1, h2]
      simp [iter, fixedCfg]
    · rw [if_neg hr, if_neg (fun h => hr (hrun.mpr h))]
      exact ⟨h1, h2⟩

omit [IsStrictOrderedRing K] in
/-- `minOpt` of a non-empty list is one of its elements and a lower bound. -/
theorem minOpt_spec : ∀ (l : List K), l ≠ [] → ∃ m, minOpt l = some m ∧ m ∈ l ∧ ∀ x ∈ l, m ≤ x
  | [], h => absurd rfl h
  | [x], _ => ⟨x, rfl, by simp, by simp⟩
  | x :: y :: l, _ => by
    obtain ⟨m, h1, h2, h3⟩ := minOpt_spec (y :: l) (by simp)
    refine ⟨min x m, by rw [minOpt, h1], ?_, ?_⟩
    · rcases min_choice x m with h | h
      · rw [h]; simp
      · rw [h]; exact List.mem_cons_of_mem _ h2
    · intro z hz
      rcases List.mem_cons.mp hz with rfl | hz
      · exact min_le_left _ _
      · exact (min_le_right _ _).trans (h3 z hz)

/-- C18 (partial: every scan path is finished when the run starts): the loop stops after finitely many steps, exactly at
the earliest end time of the scan paths. -/
theorem C18_finished_at_start_partial [Archimedean K] (dt : K) (hdt : 0 < dt) (srcs : List (Src K)) (hne : srcs ≠ [])
    (hfin : ∀ s ∈ srcs, s.finished = true) (hpos : ∀ s ∈ srcs, 0 < s.endTime) :
    ∃ d N, d ∈ srcs.map Src.endTime ∧ (∀ s ∈ srcs, d ≤ s.endTime) ∧
      (∀ k, (scanAt (scanStart dt srcs) k).running ↔ k < N) ∧ (scanAt (scanStart dt srcs) N).time = d := by
  obtain ⟨d, h1, h2, h3⟩ := minOpt_spec (srcs.map Src.endTime) (by simpa using hne)
  have hd : (scanStart dt srcs).duration = some d := by
    simp only [scanStart, if_pos (List.all_eq_true.mpr hfin)]; exact h1
  have hd0 : 0 < d := by
    obtain ⟨s, hs, rfl⟩ := List.mem_map.mp h2
    exact hpos s hs
  obtain ⟨N, hN1, hN2, -⟩ := C17_reaches_duration_partial (fixedCfg dt d) (start (fixedCfg dt d)) rfl hdt hd0
  refine ⟨d, N, h2, fun s hs => h3 _ (List.mem_map.mpr ⟨s, hs, rfl⟩), fun k => ?_, ?_⟩
  · rw [← hN1 k]
    unfold Running
    rw [← (scanAt_eq_fixed dt d srcs hd k).1]
    have hdk := scanAt_duration (scanStart dt srcs) k
    rw [hd] at hdk
    constructor
    · intro h; exact h d hdk
    · intro h d' hd'; rw [hdk] at hd'; cases hd'; exact h
  · rw [(scanAt_eq_fixed dt d srcs hd N).1, hN2]; rfl

/-- Two finished sources with different end times. -/
example : ∃ srcs : List (Src ℚ), srcs ≠ [] ∧ (∀ s ∈ srcs, s.finished = true) ∧ (∀ s ∈ srcs, 0 < s.endTime) :=
  ⟨[⟨fun _ => (2, true), 0⟩, ⟨fun _ => (3, true), 0⟩], by simp, by simp [Src.finished], by simp [Src.endTime]⟩

/-! ## Re-reading the files -/

/-- The earliest time at which a path may run out, kept by the loop: it is the end time of some path, and no unfinished path
ends before it. -/
def HorizonOk (s : ScanSt K) : Prop :=
  (∀ x ∈ s.srcs, x.finished = false → ∃ e, s.curEnd = some e ∧ e ≤ x.endTime) ∧
  (∀ e, s.curEnd = some e → ∃ x ∈ s.srcs, x.endTime = e)

omit [IsStrictOrderedRing K] in
theorem horizon_start (dt : K) (srcs : List (Src K)) : HorizonOk (scanStart dt srcs) := by
  have hspec := minOpt_spec (srcs.map Src.endTime)
  constructor
  · intro x hx _
    have hx' : x ∈ srcs := hx
    obtain ⟨m, h1, h2, h3⟩ := hspec (by intro h; rw [List.map_eq_nil_iff] at h; rw [h] at hx'; cases hx')
    exact ⟨m, h1, h3 _ (List.mem_map.mpr ⟨x, hx', rfl⟩)⟩
  · intro e he
    have he' : minOpt (srcs.map Src.endTime) = some e := he
    by_cases hn : srcs.map Src.endTime = []
    · rw [hn] at he'; cases he'
    · obtain ⟨m, h1, h2, h3⟩ := hspec hn
      rw [h1] at he'
      cases he'
      obtain ⟨x, hx, rfl⟩ := List.mem_map.mp h2
      exact ⟨x, hx, rfl⟩

omit [IsStrictOrderedRing K] in
theorem horizon_reread (s : ScanSt K) : HorizonOk (rereadBlock s) := by
  have hspec := minOpt_spec (((s.srcs.filter (fun x => !x.finished)).map Src.reread).map Src.endTime)
  constructor
  · intro x hx hfin
    have hx' : x ∈ s.srcs.map Src.reread := hx
    obtain ⟨y, hy, rfl⟩ := List.mem_map.mp hx'
    have hyf : y.finished = false := by
      by_contra hcon
      have hyt : y.finished = true := by simpa using hcon
      have : y.reread = y := by rw [Src.reread, if_pos hyt]
      rw [this, hyt] at hfin
      cases hfin
    have hmem : y ∈ s.srcs.filter (fun x => !x.finished) := by
      rw [List.mem_filter]; exact ⟨hy, by simp [hyf]⟩
    have hmem2 : y.reread.endTime ∈ ((s.srcs.filter (fun x => !x.finished)).map Src.reread).map Src.endTime :=
      List.mem_map.mpr ⟨_, List.mem_map.mpr ⟨y, hmem, rfl⟩, rfl⟩
    obtain ⟨m, h1, h2, h3⟩ := hspec (by intro h; rw [h] at hmem2; cases hmem2)
    exact ⟨m, h1, h3 _ hmem2⟩
  · intro e he
    have he' : minOpt (((s.srcs.filter (fun x => !x.finished)).map Src.reread).map Src.endTime) = some e := he
    by_cases hn : ((s.srcs.filter (fun x => !x.finished)).map Src.reread).map Src.endTime = []
    · rw [hn] at he'; cases he'
    · obtain ⟨m, h1, h2, h3⟩ := hspec hn
      rw [h1] at he'
      cases he'
      obtain ⟨x, hx, rfl⟩ := List.mem_map.mp h2
      obtain ⟨y, hy, rfl⟩ := List.mem_map.mp hx
      exact ⟨_, List.mem_map.mpr ⟨y, (List.mem_filter.mp hy).1, rfl⟩, rfl⟩

omit [IsStrictOrderedRing K] in
theorem scanIter_srcs (s : ScanSt K) :
    (scanIter s).srcs = (if s.needsReread then rereadBlock s else s).srcs ∧
    (scanIter s).curEnd = (if s.needsReread then rereadBlock s else s).curEnd := ⟨rfl, rfl⟩

omit [IsStrictOrderedRing K] in
theorem horizon_at (dt : K) (srcs : List (Src K)) (k : ℕ) : HorizonOk (scanAt (scanStart dt srcs) k) := by
  induction k with
  | zero => exact horizon_start dt srcs
  | succ k ih =>
    simp only [scanAt]
    split
    · obtain ⟨h1, h2⟩ := scanIter_srcs (scanAt (scanStart dt srcs) k)
      unfold HorizonOk
      rw [h1, h2]
      split
      · exact horizon_reread _
      · exact ih
    · exact ih

/-- C18 (re-reading): at every step of the loop, for every history of the files: a finished path is left alone; an unfinished path whose
last segment ends no later than the current time (up to a millionth of the time step) is read again before the step is made, exactly
once; and a path is read again only if some path has come to its end in this sense. -/
theorem C18_rereads (dt : K) (srcs : List (Src K)) (k : ℕ) (i : ℕ) (x y : Src K)
    (hrun : (scanAt (scanStart dt srcs) k).running)
    (hx : (scanAt (scanStart dt srcs) k).srcs[i]? = some x)
    (hy : (scanAt (scanStart dt srcs) (k + 1)).srcs[i]? = some y) :
    let s := scanAt (scanStart dt srcs) k
    y.file = x.file ∧
    (x.finished = true → y.reads = x.reads) ∧
    (x.finished = false → s.time - x.endTime > -(s.dt * (1 / 1000000)) → y.reads = x.reads + 1) ∧
    (y.reads ≠ x.reads → y.reads = x.reads + 1 ∧ ∃ z ∈ s.srcs, s.time - z.endTime > -(s.dt * (1 / 1000000))) := by
  have hor := horizon_at dt srcs k
  simp only [scanAt, if_pos hrun] at hy
  generalize scanAt (scanStart dt srcs) k = s at hrun hx hy hor
  rw [(scanIter_srcs s).1] at hy
  have hxm : x ∈ s.srcs := List.mem_of_getElem? hx
  dsimp only
  by_cases hn : s.needsReread = true
  · rw [if_pos hn] at hy
    have hy' : (s.srcs.map Src.reread)[i]? = some y := hy
    rw [List.getElem?_map, hx, Option.map_some, Option.some.injEq] at hy'
    subst hy'
    have hz : ∃ z ∈ s.srcs, s.time - z.endTime > -(s.dt * (1 / 1000000)) := by
      unfold ScanSt.needsReread at hn
      cases hc : s.curEnd with
      | none => rw [hc] at hn; cases hn
      | some e =>
        rw [hc] at hn
        obtain ⟨z, hz, rfl⟩ := hor.2 e hc
        exact ⟨z, hz, of_decide_eq_true hn⟩
    by_cases hf : x.finished = true
    · have : x.reread = x := by rw [Src.reread, if_pos hf]
      rw [this]
      exact ⟨rfl, fun _ => rfl, fun h => by simp [hf] at h, fun h => absurd rfl h⟩
    · have : x.reread = { x with reads := x.reads + 1 } := by rw [Src.reread, if_neg hf]
      rw [this]
      exact ⟨rfl, fun h => absurd h hf, fun _ _ => rfl, fun _ => ⟨rfl, hz⟩⟩
  · rw [if_neg hn, hx, Option.some.injEq] at hy
    subst hy
    refine ⟨rfl, fun _ => rfl, fun hf ht => ?_, fun h => absurd rfl h⟩
    exfalso
    apply hn
    obtain ⟨e, he, hle⟩ := hor.1 x hxm hf
    unfold ScanSt.needsReread
    rw [he]
    exact decide_eq_true (lt_of_lt_of_le ht (sub_le_sub_left hle _))

/-- Both cases occur: a path that ends at 1 and grows by 1 at each read, with steps of 1. -/
example : ∃ srcs : List (Src ℚ), ∃ x ∈ (scanAt (scanStart 1 srcs) 1).srcs, (scanAt (scanStart 1 srcs) 1).running ∧
    x.finished = false ∧ (scanAt (scanStart 1 srcs) 1).time - x.endTime > -((scanAt (scanStart 1 srcs) 1).dt * (1 / 1000000)) := by
  refine ⟨[⟨fun j => (j + 1, false), 0⟩], ?_⟩
  have h : scanAt (scanStart (1 : ℚ) [⟨fun j => ((j : ℚ) + 1, false), 0⟩]) 1 =
      ⟨1, 1, some 1, none, [⟨fun j => ((j : ℚ) + 1, false), 0⟩]⟩ := by
    have hr : (scanStart (1 : ℚ) [⟨fun j => ((j : ℚ) + 1, false), 0⟩]).running := by
      intro d hd; simp [scanStart, Src.finished] at hd
    have h1 : scanAt (scanStart (1 : ℚ) [⟨fun j => ((j : ℚ) + 1, false), 0⟩]) 1 =
        scanIter (scanStart (1 : ℚ) [⟨fun j => ((j : ℚ) + 1, false), 0⟩]) := by
      change (if (scanStart (1 : ℚ) [⟨fun j => ((j : ℚ) + 1, false), 0⟩]).running then _ else _) = _
      rw [if_pos hr]; rfl
    rw [h1]
    simp [scanIter, scanStart, ScanSt.needsReread, minOpt, Src.endTime, Src.finished]
    norm_num
  rw [h]
  refine ⟨_, List.mem_singleton.mpr rfl, ?_, rfl, ?_⟩
  · intro d hd; cases hd
  · simp [Src.endTime]

end Verif.Driver
