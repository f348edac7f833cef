import Verif.Driver.ScanEnd
import Mathlib.Data.List.Sort
import Mathlib.Tactic.Linarith
import Mathlib.Tactic.FieldSimp

/-!
# C137: depositing along a scan path that grows while the program runs (`application/adamantine.hh:956-1170`)

`Verif.Driver.Model` has a fixed list of deposition events, `Verif.Driver.ScanEnd` has files that are read again but no deposition.
Here both are put together: with `scan_path_for_duration` the files are read again when the earliest path has come to its end, the
deposition events are computed anew from the new contents (lines 1105-1108) and the activation window is applied to the new list
(lines 1139-1151).  Thermal physics is on.  A deposition event is a time and the rest of its row (box, cosine and sine) of some type `B`.
-/

namespace Verif.Driver

variable {K : Type*} [Field K] [LinearOrder K] {B : Type*}

/-- What reading a scan-path file gives: the end time of the last segment, whether `SCAN_PATH_END` was seen
(`ScanPath.cc`, see `Verif.ScanPath`) and the deposition events along the path (`deposition_along_scan_path`, see `Verif.Deposition`). -/
structure Contents (K B : Type*) where
  endTime : K
  finished : Bool
  events : List (K × B)

/-- `create_material_deposition_boxes`, `material_deposition.cc:20-54`: a list of events sorted by time, computed from what the heat sources have read.
(For `merge_deposition_paths` see C15, for deposition files C11.) -/
structure Create (K B : Type*) [LinearOrder K] where
  events : List (Contents K B) → List (K × B)
  sorted : ∀ cs, (events cs).Pairwise (fun a b => a.1 ≤ b.1)

/-- The method `file`, `material_deposition.cc:36-39`: the list does not depend on the scan paths. -/
def Create.file (l : List (K × B)) (h : l.Pairwise (fun a b => a.1 ≤ b.1)) : Create K B := ⟨fun _ => l, fun _ => h⟩

/-- The method `scan_paths`, `material_deposition.cc:40-53`: all events of all paths, sorted by time (the order of events with the same
time is not specified by `std::sort`; the model takes the stable one). -/
def Create.scanPaths : Create K B :=
  ⟨fun cs => (cs.flatMap Contents.events).mergeSort (fun a b => decide (a.1 ≤ b.1)), fun cs => by
    have := List.pairwise_mergeSort (le := fun a b : K × B => decide (a.1 ≤ b.1))
      (fun a b c h1 h2 => by simp only [decide_eq_true_eq] at *; exact h1.trans h2)
      (fun a b => by simp only [Bool.or_eq_true, decide_eq_true_eq]; exact le_total _ _) (cs.flatMap Contents.events)
    exact this.imp (fun h => by simpa using h)⟩

/-- A heat source: the contents of its file at the `j`-th read and the number of re-reads so far. -/
structure GSrc (K B : Type*) where
  file : ℕ → Contents K B
  reads : ℕ

/-- What the heat source has in memory. -/
def GSrc.now (s : GSrc K B) : Contents K B := s.file s.reads

/-- `if (!is_finished()) read_file()`, lines 1087-1092. -/
def GSrc.reread (s : GSrc K B) : GSrc K B := if s.now.finished then s else { s with reads := s.reads + 1 }

/-- Loop variables of `run`. -/
structure GSt (K B : Type*) where
  time : K
  dt : K
  curEnd : Option K
  duration : Option K
  actEnd : K
  srcs : List (GSrc K B)
  events : List (K × B)

/-- Initialisation, lines 960-988, 993, 1041-1058 (a new run). -/
def growStart (cr : Create K B) (dt : K) (files : List (ℕ → Contents K B)) : GSt K B :=
  let srcs := files.map fun f => (⟨f, 0⟩ : GSrc K B)
  let e := minOpt (srcs.map fun s => s.now.endTime)
  ⟨0, dt, e, if srcs.all (fun s => s.now.finished) then e else none, -1, srcs, cr.events (srcs.map GSrc.now)⟩

/-- `time < duration`, line 1063. -/
def GSt.running (s : GSt K B) : Prop := ∀ d, s.duration = some d → s.time < d

open Classical in
/-- Is the re-read block entered? lines 1074-1079. -/
noncomputable def GSt.needsReread (s : GSt K B) : Bool :=
  match s.curEnd with
  | none => false
  | some e => decide (s.time - e > -(s.dt * (1 / 1000000)))

/-- The re-read block, lines 1078-1109: all unfinished paths are read, then the deposition events are computed from what all paths contain now. -/
def growReread (cr : Create K B) (s : GSt K B) : GSt K B :=
  let scanPathEnd := s.srcs.all fun x => x.now.finished                                   -- 1083-1089
  let srcs := s.srcs.map GSrc.reread                                                      -- 1092
  let cur := minOpt (((s.srcs.filter (fun x => !x.now.finished)).map GSrc.reread).map fun x => x.now.endTime) -- 1094-1097
  let duration := if scanPathEnd ∧ cur ≠ none then cur else s.duration                    -- 1101-1103
  { s with curEnd := cur, duration := duration, srcs := srcs, events := cr.events (srcs.map GSrc.now) } -- 1105-1108

/-- The rows `[activation_start, activation_end)` of the list of events, where the two are found by `std::lower_bound`
(lines 1141-1151; nothing happens unless `activation_start < activation_end`). -/
def slice (l : List (K × B)) (x y : K) : List (K × B) :=
  let a := lowerBound (l.map Prod.fst) x
  let b := lowerBound (l.map Prod.fst) y
  if a < b then (l.take b).drop a else []

open Classical in
/-- One iteration, lines 1063-1258: the new loop variables and the events activated in this step. -/
noncomputable def growIter (act : K) (cr : Create K B) (s : GSt K B) : GSt K B × List (K × B) :=
  let tol := s.dt * (1 / 1000000)                                                         -- 1074
  let s' := if s.needsReread then growReread cr s else s                                  -- 1078-1109
  let dt := match s'.duration with                                                        -- 1111-1112
    | none => s'.dt
    | some d => if s'.time + s'.dt > d then d - s'.time else s'.dt
  let opened := s'.time - s'.actEnd > -tol                                                -- 1139
  let windowEnd := match s'.duration with                                                 -- 1145-1146
    | none => s'.time + max act dt
    | some d => min (s'.time + max act dt) d
  let actEnd := if opened then windowEnd else s'.actEnd
  let activated := if opened then slice s'.events (s'.time - tol) windowEnd else []       -- 1141-1170
  ({ s' with time := s'.time + dt, dt := dt, actEnd := actEnd }, activated)               -- 1233, 1258

open Classical in
/-- State before iteration `k` (counted from 0). -/
noncomputable def growAt (act : K) (cr : Create K B) (s : GSt K B) : ℕ → GSt K B
  | 0 => s
  | k + 1 => if (growAt act cr s k).running then (growIter act cr (growAt act cr s k)).1 else growAt act cr s k

/-- The events activated in iteration `k`. -/
noncomputable def activatedAt (act : K) (cr : Create K B) (s : GSt K B) (k : ℕ) : List (K × B) :=
  (growIter act cr (growAt act cr s k)).2

/-- The events the program knows when it applies the activation window in iteration `k`: those computed from the last contents read. -/
noncomputable def knownAt (act : K) (cr : Create K B) (s : GSt K B) (k : ℕ) : List (K × B) :=
  if (growAt act cr s k).needsReread then (growReread cr (growAt act cr s k)).events else (growAt act cr s k).events

/-! ## The files are read as in `Verif.Driver.ScanEnd` -/

/-- Forget the deposition events. -/
def GSrc.toSrc (s : GSrc K B) : Src K := ⟨fun j => ((s.file j).endTime, (s.file j).finished), s.reads⟩

/-- Forget the deposition. -/
def GSt.toScan (s : GSt K B) : ScanSt K := ⟨s.time, s.dt, s.curEnd, s.duration, s.srcs.map GSrc.toSrc⟩

theorem toSrc_finished (s : GSrc K B) : s.toSrc.finished = s.now.finished := rfl
theorem toSrc_endTime (s : GSrc K B) : s.toSrc.endTime = s.now.endTime := rfl

theorem toSrc_reread (s : GSrc K B) : s.reread.toSrc = s.toSrc.reread := by
  unfold GSrc.reread Src.reread
  rw [toSrc_finished]
  split <;> rfl

theorem growStart_toScan (cr : Create K B) (dt : K) (files : List (ℕ → Contents K B)) :
    (growStart cr dt files).toScan =
      scanStart dt (files.map fun f => (⟨fun j => ((f j).endTime, (f j).finished), 0⟩ : Src K)) := by
  unfold GSt.toScan growStart scanStart
  simp only [List.map_map, List.all_map]
  rfl

theorem growReread_toScan (cr : Create K B) (s : GSt K B) : (growReread cr s).toScan = rereadBlock s.toScan := by
  unfold growReread rereadBlock GSt.toScan
  simp only [List.map_map, List.all_map, List.filter_map]
  have h1 : (GSrc.toSrc ∘ GSrc.reread : GSrc K B → Src K) = Src.reread ∘ GSrc.toSrc := by
    funext x; exact toSrc_reread x
  have h2 : ((fun x : GSrc K B => x.now.endTime) ∘ GSrc.reread) = Src.endTime ∘ Src.reread ∘ GSrc.toSrc := by
    funext x
    change (GSrc.reread x).toSrc.endTime = _
    rw [toSrc_reread]; rfl
  rw [h1, h2]
  rfl

theorem growIter_toScan (act : K) (cr : Create K B) (s : GSt K B) : (growIter act cr s).1.toScan = scanIter s.toScan := by
  have hn : s.needsReread = s.toScan.needsReread := by
    unfold GSt.needsReread ScanSt.needsReread
    change _ = match s.curEnd with | none => false | some e => decide (s.time - e > -(s.dt * (1 / 1000000)))
    cases s.curEnd with
    | none => rfl
    | some e => simp
  have hb : (if s.needsReread then growReread cr s else s).toScan = if s.toScan.needsReread then rereadBlock s.toScan else s.toScan := by
    rw [hn]; split
    · exact growReread_toScan cr s
    · rfl
  unfold growIter scanIter
  rw [← hb]
  generalize (if s.needsReread then growReread cr s else s) = t
  cases t with
  | mk time dt curEnd duration actEnd srcs events => cases duration <;> rfl

theorem running_toScan (s : GSt K B) : s.toScan.running ↔ s.running := Iff.rfl

/-- Time, time step, duration and the reading of the files are those of the model without deposition; C18 applies. -/
theorem growAt_toScan (act : K) (cr : Create K B) (s : GSt K B) (k : ℕ) : (growAt act cr s k).toScan = scanAt s.toScan k := by
  induction k with
  | zero => rfl
  | succ k ih =>
    unfold growAt scanAt
    by_cases h : (growAt act cr s k).running
    · have h' : (scanAt s.toScan k).running := by rw [← ih]; exact h
      rw [if_pos h, if_pos h', growIter_toScan, ih]
    · have h' : ¬ (scanAt s.toScan k).running := by rw [← ih]; exact h
      rw [if_neg h, if_neg h', ih]

/-! ## The rows of a window -/

theorem takeWhile_sorted (y : K) : ∀ (l : List (K × B)), l.Pairwise (fun a b => a.1 ≤ b.1) →
    l.take (lowerBound (l.map Prod.fst) y) = l.filter (fun r => decide (r.1 < y))
  | [], _ => rfl
  | r :: l, h => by
    have ⟨h1, h2⟩ := List.pairwise_cons.mp h
    by_cases hy : r.1 < y
    · have e : lowerBound ((r :: l).map Prod.fst) y = lowerBound (l.map Prod.fst) y + 1 := by
        simp [lowerBound, hy]
      rw [e, List.take_succ_cons, takeWhile_sorted y l h2, List.filter_cons, if_pos (by simpa using hy)]
    · have e : lowerBound ((r :: l).map Prod.fst) y = 0 := by simp [lowerBound, hy]
      rw [e, List.take_zero, eq_comm, List.filter_eq_nil_iff]
      intro a ha
      rcases List.mem_cons.mp ha with rfl | ha
      · simpa using hy
      · simpa using (not_lt.mp hy).trans (h1 a ha)

/-- In a sorted list the rows of a window are the rows with a time in the window, in order. -/
theorem slice_eq (x y : K) : ∀ (l : List (K × B)), l.Pairwise (fun a b => a.1 ≤ b.1) →
    slice l x y = l.filter (fun r => decide (x ≤ r.1 ∧ r.1 < y)) := by
  intro l h
  have key : ∀ (l : List (K × B)), l.Pairwise (fun a b => a.1 ≤ b.1) →
      (l.take (lowerBound (l.map Prod.fst) y)).drop (lowerBound (l.map Prod.fst) x) =
        l.filter (fun r => decide (x ≤ r.1 ∧ r.1 < y)) := by
    intro l
    induction l with
    | nil => intro _; simp
    | cons r l ih =>
      intro h
      have ⟨h1, h2⟩ := List.pairwise_cons.mp h
      by_cases hx : r.1 < x
      · have ex : lowerBound ((r :: l).map Prod.fst) x = lowerBound (l.map Prod.fst) x + 1 := by
          simp [lowerBound, hx]
        by_cases hy : r.1 < y
        · have ey : lowerBound ((r :: l).map Prod.fst) y = lowerBound (l.map Prod.fst) y + 1 := by
            simp [lowerBound, hy]
          rw [ex, ey, List.take_succ_cons, List.drop_succ_cons, ih h2, List.filter_cons, if_neg]
          simpa using fun h' => absurd h' (not_le.mpr hx)
        · have ey : lowerBound ((r :: l).map Prod.fst) y = 0 := by simp [lowerBound, hy]
          rw [ey, List.take_zero, List.drop_nil, eq_comm, List.filter_eq_nil_iff]
          intro a ha
          have : y ≤ a.1 := by
            rcases List.mem_cons.mp ha with rfl | ha
            · exact not_lt.mp hy
            · exact (not_lt.mp hy).trans (h1 a ha)
          simpa using fun _ => this
      · have ex : lowerBound ((r :: l).map Prod.fst) x = 0 := by simp [lowerBound, hx]
        rw [ex, List.drop_zero, takeWhile_sorted y _ h]
        apply List.filter_congr
        intro a ha
        have : x ≤ a.1 := by
          rcases List.mem_cons.mp ha with rfl | ha
          · exact not_lt.mp hx
          · exact (not_lt.mp hx).trans (h1 a ha)
        simp [this]
  unfold slice
  simp only
  split
  · exact key l h
  · rename_i hab
    rw [← key l h, eq_comm, List.drop_eq_nil_iff]
    rw [List.length_take]
    omega

/-! ## The windows of a run along a growing path -/

variable [IsStrictOrderedRing K]

/-- `p` is the number of steps from one activation window to the next: the least number of steps that get to the end of a window, up to
a millionth of a step. -/
def Stride (act dt : K) (p : ℕ) : Prop :=
  max act dt - dt / 1000000 < p * dt ∧ ∀ r : ℕ, r < p → r * dt ≤ max act dt - dt / 1000000

theorem stride_pos {act dt : K} (hdt : 0 < dt) {p : ℕ} (h : Stride act dt p) : 0 < p := by
  rcases Nat.eq_zero_or_pos p with rfl | hp
  · exfalso
    have h1 := h.1
    have h2 : dt ≤ max act dt := le_max_right _ _
    have h3 : dt / 1000000 < dt := by
      rw [div_lt_iff₀ (by norm_num)]; nlinarith
    push_cast at h1
    linarith
  · exact hp

/-- There is such a number. -/
theorem stride_exists [Archimedean K] (act dt : K) (hdt : 0 < dt) : ∃ p, Stride act dt p := by
  classical
  obtain ⟨n, hn⟩ := Archimedean.arch (max act dt) hdt
  have hex : ∃ n : ℕ, max act dt - dt / 1000000 < n * dt := ⟨n, by
    rw [nsmul_eq_mul] at hn
    have : 0 < dt / 1000000 := by positivity
    linarith⟩
  exact ⟨Nat.find hex, Nat.find_spec hex, fun r hr => not_lt.mp (Nat.find_min hex hr)⟩

/-- With `deposition_time` at most `time_step` there is a window in every step. -/
theorem stride_one (act dt : K) (hdt : 0 < dt) (h : act ≤ dt) : Stride act dt 1 := by
  unfold Stride
  rw [max_eq_right h]
  have h3 : dt / 1000000 < dt := by rw [div_lt_iff₀ (by norm_num)]; nlinarith
  have : 0 < dt / 1000000 := by positivity
  refine ⟨by push_cast; linarith, fun r hr => ?_⟩
  obtain rfl : r = 0 := by omega
  push_cast; linarith

/-- Some path is unfinished at the beginning (then the run goes on for ever, see C18). -/
def Unfinished (files : List (ℕ → Contents K B)) : Prop := ∃ f ∈ files, (f 0).finished = false

omit [IsStrictOrderedRing K] in
theorem grow_duration (act : K) (cr : Create K B) (dt : K) (files : List (ℕ → Contents K B)) (hu : Unfinished files) (k : ℕ) :
    (growAt act cr (growStart cr dt files) k).duration = none := by
  have h := scanAt_duration (growStart cr dt files).toScan k
  rw [← growAt_toScan act cr] at h
  change (growAt act cr (growStart cr dt files) k).duration = (growStart cr dt files).duration at h
  rw [h]
  obtain ⟨f, hf, hfin⟩ := hu
  have : ((files.map fun f => (⟨f, 0⟩ : GSrc K B)).all fun s => s.now.finished) = false := by
    rw [List.all_eq_false]
    exact ⟨⟨f, 0⟩, List.mem_map.mpr ⟨f, hf, rfl⟩, by simp [GSrc.now, hfin]⟩
  simp only [growStart, this]
  rfl

omit [IsStrictOrderedRing K] in
theorem growReread_fields (cr : Create K B) (s : GSt K B) :
    (if s.needsReread then growReread cr s else s).time = s.time ∧ (if s.needsReread then growReread cr s else s).dt = s.dt ∧
    (if s.needsReread then growReread cr s else s).actEnd = s.actEnd := by
  split <;> exact ⟨rfl, rfl, rfl⟩

omit [IsStrictOrderedRing K] in
theorem growReread_duration (cr : Create K B) (s : GSt K B) (h : s.duration = none) :
    (if s.needsReread then growReread cr s else s).duration = none := by
  split
  · have := rereadBlock_duration s.toScan
    rw [← growReread_toScan cr] at this
    exact this.trans h
  · exact h

open Classical in
omit [IsStrictOrderedRing K] in
theorem growIter_none (act : K) (cr : Create K B) (s : GSt K B) (h : s.duration = none) :
    (growIter act cr s).1.time = s.time + s.dt ∧ (growIter act cr s).1.dt = s.dt ∧
    (growIter act cr s).1.actEnd = (if s.time - s.actEnd > -(s.dt * (1 / 1000000)) then s.time + max act s.dt else s.actEnd) ∧
    (growIter act cr s).2 = (if s.time - s.actEnd > -(s.dt * (1 / 1000000)) then
      slice (if s.needsReread then growReread cr s else s).events (s.time - s.dt * (1 / 1000000)) (s.time + max act s.dt) else []) := by
  have h1 := growReread_duration cr s h
  obtain ⟨h2, h3, h4⟩ := growReread_fields cr s
  unfold growIter
  generalize (if s.needsReread then growReread cr s else s) = t at h1 h2 h3 h4
  cases t with
  | mk time dt curEnd duration actEnd srcs events =>
    simp only at h1 h2 h3 h4
    subst h1 h2 h3 h4
    exact ⟨rfl, rfl, rfl, rfl⟩

/-- Times and windows of the run. -/
theorem grow_state (act : K) (cr : Create K B) (dt : K) (hdt : 0 < dt) (files : List (ℕ → Contents K B)) (hu : Unfinished files)
    (p : ℕ) (hp : Stride act dt p) (k : ℕ) :
    let s := growAt act cr (growStart cr dt files) k
    s.time = k * dt ∧ s.dt = dt ∧
    ((k = 0 ∧ s.actEnd = -1) ∨ ∃ q r : ℕ, k = p * q + r ∧ 0 < r ∧ r ≤ p ∧ s.actEnd = (p * q : ℕ) * dt + max act dt) := by
  have hp0 := stride_pos hdt hp
  induction k with
  | zero => exact ⟨by simp [growAt, growStart], rfl, Or.inl ⟨rfl, rfl⟩⟩
  | succ k ih =>
    obtain ⟨h1, h2, h3⟩ := ih
    have hd := grow_duration act cr dt files hu k
    have hrun : (growAt act cr (growStart cr dt files) k).running := by
      intro d hd'; rw [hd] at hd'; cases hd'
    have e : growAt act cr (growStart cr dt files) (k + 1) = (growIter act cr (growAt act cr (growStart cr dt files) k)).1 := by
      rw [growAt, if_pos hrun]
    obtain ⟨g1, g2, g3, -⟩ := growIter_none act cr _ hd
    dsimp only at h1 h2 h3 ⊢
    rw [e, g1, g2, g3, h1, h2]
    have htol : 0 < dt / 1000000 := by positivity
    have e1 : dt * (1 / 1000000) = dt / 1000000 := by ring
    refine ⟨by push_cast; ring, rfl, Or.inr ?_⟩
    rw [e1]
    rcases h3 with ⟨rfl, h3⟩ | ⟨q, r, hk, hr0, hrp, h3⟩
    · refine ⟨0, 1, by omega, by omega, hp0, ?_⟩
      rw [h3, if_pos]
      · simp
      · push_cast; linarith
    · rw [h3]
      rcases Nat.lt_or_ge r p with hlt | hge
      · refine ⟨q, r + 1, by omega, by omega, hlt, ?_⟩
        rw [if_neg]
        have := hp.2 r hlt
        rw [hk]
        push_cast
        intro hc
        nlinarith
      · obtain rfl : r = p := by omega
        refine ⟨q + 1, 1, by rw [hk]; ring, by omega, hp0, ?_⟩
        rw [if_pos, hk]
        · push_cast; ring
        · have := hp.1
          rw [hk]; push_cast
          nlinarith

/-- The events activated in a step: in every `p`-th step, those known then whose time is in the window. -/
theorem activated_eq (act : K) (cr : Create K B) (dt : K) (hdt : 0 < dt) (files : List (ℕ → Contents K B)) (hu : Unfinished files)
    (p : ℕ) (hp : Stride act dt p) (k : ℕ) :
    activatedAt act cr (growStart cr dt files) k =
      if p ∣ k then (knownAt act cr (growStart cr dt files) k).filter
        (fun r => decide (k * dt - dt / 1000000 ≤ r.1 ∧ r.1 < k * dt + max act dt)) else [] := by
  have hp0 := stride_pos hdt hp
  obtain ⟨h1, h2, h3⟩ := grow_state act cr dt hdt files hu p hp k
  have hd := grow_duration act cr dt files hu k
  obtain ⟨-, -, -, g4⟩ := growIter_none act cr _ hd
  have hsorted : (knownAt act cr (growStart cr dt files) k).Pairwise (fun a b => a.1 ≤ b.1) := by
    have : ∀ n, (growAt act cr (growStart cr dt files) n).events.Pairwise (fun a b => a.1 ≤ b.1) := by
      intro n
      induction n with
      | zero => exact cr.sorted _
      | succ n ih =>
        rw [growAt]
        split
        · change (if (growAt act cr (growStart cr dt files) n).needsReread then _ else _ : GSt K B).events.Pairwise _
          split
          · exact cr.sorted _
          · exact ih
        · exact ih
    unfold knownAt
    split
    · exact cr.sorted _
    · exact this k
  have hk : (if (growAt act cr (growStart cr dt files) k).needsReread then growReread cr (growAt act cr (growStart cr dt files) k)
      else growAt act cr (growStart cr dt files) k).events = knownAt act cr (growStart cr dt files) k := by
    unfold knownAt; split <;> rfl
  unfold activatedAt
  rw [g4, hk, h1, h2]
  have htol : 0 < dt / 1000000 := by positivity
  have e1 : dt * (1 / 1000000) = dt / 1000000 := by ring
  rw [e1, slice_eq _ _ _ hsorted]
  have hiff : ((k : K) * dt - (growAt act cr (growStart cr dt files) k).actEnd > -(dt / 1000000)) ↔ p ∣ k := by
    rcases h3 with ⟨rfl, h3⟩ | ⟨q, r, hk, hr0, hrp, h3⟩
    · rw [h3]
      refine ⟨fun _ => dvd_zero _, fun _ => ?_⟩
      push_cast; linarith
    · rw [h3, hk]
      rcases Nat.lt_or_ge r p with hlt | hge
      · refine ⟨fun hc => ?_, fun hdvd => ?_⟩
        · exfalso
          have := hp.2 r hlt
          push_cast at hc
          nlinarith
        · exfalso
          have : p ∣ r := (Nat.dvd_add_right (dvd_mul_right p q)).mp hdvd
          exact absurd (Nat.le_of_dvd hr0 this) (by omega)
      · obtain rfl : r = p := by omega
        refine ⟨fun _ => ⟨q + 1, by ring⟩, fun _ => ?_⟩
        have := hp.1
        push_cast
        nlinarith
  simp only [hiff]

/-! ## Properties -/

/-- The deposition events in memory in iteration `k` are those computed from what the heat sources have read when the iteration is over:
the files are read before the window is applied. -/
theorem known_memory (act : K) (cr : Create K B) (dt : K) (files : List (ℕ → Contents K B)) (hu : Unfinished files) (k : ℕ) :
    knownAt act cr (growStart cr dt files) k = cr.events ((growAt act cr (growStart cr dt files) (k + 1)).srcs.map GSrc.now) := by
  have hmem : ∀ n, (growAt act cr (growStart cr dt files) n).events =
      cr.events ((growAt act cr (growStart cr dt files) n).srcs.map GSrc.now) := by
    intro n
    induction n with
    | zero => rfl
    | succ n ih =>
      rw [growAt]
      split
      · change (if (growAt act cr (growStart cr dt files) n).needsReread then _ else _ : GSt K B).events =
          cr.events ((if (growAt act cr (growStart cr dt files) n).needsReread then _ else _ : GSt K B).srcs.map GSrc.now)
        split
        · rfl
        · exact ih
      · exact ih
  have hrun : (growAt act cr (growStart cr dt files) k).running := by
    intro d hd'; rw [grow_duration act cr dt files hu k] at hd'; cases hd'
  rw [← hmem, growAt, if_pos hrun]
  unfold knownAt
  change _ = (if (growAt act cr (growStart cr dt files) k).needsReread then _ else _ : GSt K B).events
  split <;> rfl

/-- C137: in a run along paths that are still growing, iteration `k` starts at time `k * time_step`, and it activates exactly, and in order, the events that
follow from the files as read so far (this iteration included), if `k` is a multiple of the distance `p` of the windows, with a time from the start of
the iteration (up to a millionth of a step) until the end of the window of length `max(deposition_time, time_step)`. -/
theorem C137_activated (act : K) (cr : Create K B) (dt : K) (hdt : 0 < dt) (files : List (ℕ → Contents K B)) (hu : Unfinished files)
    (p : ℕ) (hp : Stride act dt p) (k : ℕ) :
    (growAt act cr (growStart cr dt files) k).time = k * dt ∧
    activatedAt act cr (growStart cr dt files) k =
      if p ∣ k then (cr.events ((growAt act cr (growStart cr dt files) (k + 1)).srcs.map GSrc.now)).filter
        (fun r => decide (k * dt - dt / 1000000 ≤ r.1 ∧ r.1 < k * dt + max act dt)) else [] := by
  refine ⟨(grow_state act cr dt hdt files hu p hp k).1, ?_⟩
  rw [activated_eq act cr dt hdt files hu p hp k, known_memory act cr dt files hu k]

/-- C137 is false: an event that the program learns of in iteration `k0` or later, although its time is before the start of that iteration, is never activated. -/
theorem C137_late_refuted (act : K) (cr : Create K B) (dt : K) (hdt : 0 < dt) (files : List (ℕ → Contents K B)) (hu : Unfinished files)
    (p : ℕ) (hp : Stride act dt p) (r : K × B) (k0 : ℕ)
    (hunknown : ∀ k < k0, r ∉ cr.events ((growAt act cr (growStart cr dt files) (k + 1)).srcs.map GSrc.now))
    (hlate : r.1 < k0 * dt - dt / 1000000) (k : ℕ) :
    r ∉ activatedAt act cr (growStart cr dt files) k := by
  rw [(C137_activated act cr dt hdt files hu p hp k).2]
  split
  · intro hmem
    rw [List.mem_filter, decide_eq_true_eq] at hmem
    obtain ⟨h1, h2, -⟩ := hmem
    rcases Nat.lt_or_ge k k0 with h | h
    · exact hunknown k h h1
    · have : (k0 : K) * dt ≤ k * dt := mul_le_mul_of_nonneg_right (by exact_mod_cast h) hdt.le
      linarith
  · simp

/-! ### One path -/

/-- The source after iteration `k` of a run with one file. -/
theorem one_source (act : K) (cr : Create K B) (dt : K) (f : ℕ → Contents K B) (k : ℕ) :
    ∃ n, (growAt act cr (growStart cr dt [f]) k).srcs = [⟨f, n⟩] := by
  induction k with
  | zero => exact ⟨0, rfl⟩
  | succ k ih =>
    obtain ⟨n, hn⟩ := ih
    rw [growAt]
    split
    · change ∃ n, (if (growAt act cr (growStart cr dt [f]) k).needsReread then
        growReread cr (growAt act cr (growStart cr dt [f]) k) else growAt act cr (growStart cr dt [f]) k).srcs = [⟨f, n⟩]
      split
      · refine ⟨if (f n).finished then n else n + 1, ?_⟩
        change (growAt act cr (growStart cr dt [f]) k).srcs.map GSrc.reread = _
        rw [hn]
        by_cases hf : (f n).finished = true
        · simp [GSrc.reread, GSrc.now, hf]
        · simp [GSrc.reread, GSrc.now, hf]
      · exact ⟨n, hn⟩
    · exact ⟨n, hn⟩

/-- The file is read again in iteration `k` exactly if the path read so far is unfinished and has come to its end. -/
theorem one_step (act : K) (cr : Create K B) (dt : K) (hdt : 0 < dt) (f : ℕ → Contents K B) (hu : (f 0).finished = false)
    (k n : ℕ) (hn : (growAt act cr (growStart cr dt [f]) k).srcs = [⟨f, n⟩]) :
    (growAt act cr (growStart cr dt [f]) (k + 1)).srcs =
      [⟨f, if (f n).finished = false ∧ k * dt - (f n).endTime > -(dt / 1000000) then n + 1 else n⟩] := by
  classical
  have hU : Unfinished [f] := ⟨f, by simp, hu⟩
  have hd := grow_duration act cr dt [f] hU k
  have hrun : (growAt act cr (growStart cr dt [f]) k).running := by
    intro d hd'; rw [hd] at hd'; cases hd'
  have htime : (growAt act cr (growStart cr dt [f]) k).time = k * dt ∧ (growAt act cr (growStart cr dt [f]) k).dt = dt := by
    clear hn hd hrun
    induction k with
    | zero => exact ⟨by simp [growAt, growStart], rfl⟩
    | succ k ih =>
      have hd := grow_duration act cr dt [f] hU k
      have hrun : (growAt act cr (growStart cr dt [f]) k).running := by
        intro d hd'; rw [hd] at hd'; cases hd'
      obtain ⟨g1, g2, -, -⟩ := growIter_none act cr _ hd
      rw [growAt, if_pos hrun, g1, g2, ih.1, ih.2]
      exact ⟨by push_cast; ring, rfl⟩
  have hor := horizon_at dt ([f].map fun f => (⟨fun j => ((f j).endTime, (f j).finished), 0⟩ : Src K)) k
  rw [← growStart_toScan cr, ← growAt_toScan act cr] at hor
  rw [growAt, if_pos hrun]
  generalize growAt act cr (growStart cr dt [f]) k = s at hn hd hrun htime hor
  change (if s.needsReread then growReread cr s else s).srcs = _
  have hcur : (f n).finished = false → s.curEnd = some (f n).endTime := by
    intro hf
    have hx : (⟨f, n⟩ : GSrc K B).toSrc ∈ s.toScan.srcs := by
      change _ ∈ s.srcs.map GSrc.toSrc; rw [hn]; simp
    obtain ⟨e, he, -⟩ := hor.1 _ hx hf
    obtain ⟨x, hx', hxe⟩ := hor.2 e he
    have : x ∈ s.srcs.map GSrc.toSrc := hx'
    rw [hn] at this
    simp only [List.map_cons, List.map_nil, List.mem_singleton] at this
    rw [this] at hxe
    change s.curEnd = some e at he
    rw [he, ← hxe]; rfl
  have e1 : dt * (1 / 1000000) = dt / 1000000 := by ring
  by_cases hf : (f n).finished = false
  · have hneed : s.needsReread = decide ((k : K) * dt - (f n).endTime > -(dt / 1000000)) := by
      unfold GSt.needsReread
      rw [hcur hf, htime.1, htime.2, e1]
    by_cases ht : (k : K) * dt - (f n).endTime > -(dt / 1000000)
    · rw [hneed, if_pos (decide_eq_true ht), if_pos ⟨hf, ht⟩]
      change s.srcs.map GSrc.reread = _
      rw [hn]
      simp [GSrc.reread, GSrc.now, hf]
    · rw [hneed, if_neg (by simpa using ht), if_neg (fun h => ht h.2), hn]
  · have hno : ¬ ((f n).finished = false ∧ (k : K) * dt - (f n).endTime > -(dt / 1000000)) := fun h => hf h.1
    rw [if_neg hno]
    by_cases hneed : s.needsReread = true
    · rw [if_pos hneed]
      change s.srcs.map GSrc.reread = _
      rw [hn]
      have : (f n).finished = true := by simpa using hf
      simp [GSrc.reread, GSrc.now, this]
    · rw [if_neg hneed]; exact hn

/-- The contents with number `j + 1` are read only when the path with number `j` has come to its end. -/
theorem one_read_late (act : K) (cr : Create K B) (dt : K) (hdt : 0 < dt) (f : ℕ → Contents K B) (hu : (f 0).finished = false)
    (j k n : ℕ) (hn : (growAt act cr (growStart cr dt [f]) (k + 1)).srcs = [⟨f, n⟩]) (hj : j < n) :
    k * dt - (f j).endTime > -(dt / 1000000) := by
  induction k generalizing n with
  | zero =>
    have h0 : (growAt act cr (growStart cr dt [f]) 0).srcs = [⟨f, 0⟩] := rfl
    rw [one_step act cr dt hdt f hu 0 0 h0] at hn
    simp only [List.cons.injEq, GSrc.mk.injEq, true_and, and_true] at hn
    split at hn
    · rename_i h
      obtain rfl : j = 0 := by omega
      exact h.2
    · omega
  | succ k ih =>
    obtain ⟨m, hm⟩ := one_source act cr dt f (k + 1)
    rw [one_step act cr dt hdt f hu (k + 1) m hm] at hn
    simp only [List.cons.injEq, GSrc.mk.injEq, true_and, and_true] at hn
    rcases Nat.lt_or_ge j m with h | h
    · have := ih m hm h
      push_cast
      linarith
    · split at hn
      · rename_i h'
        obtain rfl : j = m := by omega
        exact h'.2
      · omega

/-- C137 is false along one growing path: an event that is not in the contents up to number `j` is never activated if its time is before the start of every
step with a window that starts after the end of that path (up to a millionth of a step).  In particular (second part) the events that are deposited before the
end of the old path because of a lead time are lost, and (third part) those between the end of the old path and the next step. -/
theorem C137_growing_path_refuted (act : K) (cr : Create K B) (hcr : ∀ cs r, r ∈ cr.events cs → ∃ c ∈ cs, r ∈ c.events) (dt : K) (hdt : 0 < dt)
    (f : ℕ → Contents K B) (hu : (f 0).finished = false) (p : ℕ) (hp : Stride act dt p) (r : K × B) (j : ℕ)
    (hnew : ∀ i ≤ j, r ∉ (f i).events) :
    ((∀ q : ℕ, (p * q : ℕ) * dt > (f j).endTime - dt / 1000000 → r.1 < (p * q : ℕ) * dt - dt / 1000000) →
      ∀ k, r ∉ activatedAt act cr (growStart cr dt [f]) k) ∧
    (r.1 < (f j).endTime - 2 * (dt / 1000000) → ∀ k, r ∉ activatedAt act cr (growStart cr dt [f]) k) ∧
    (∀ k0 : ℕ, k0 * dt ≤ (f j).endTime - dt / 1000000 → r.1 < (k0 + 1) * dt - dt / 1000000 →
      ∀ k, r ∉ activatedAt act cr (growStart cr dt [f]) k) := by
  have main : (∀ q : ℕ, (p * q : ℕ) * dt > (f j).endTime - dt / 1000000 → r.1 < (p * q : ℕ) * dt - dt / 1000000) →
      ∀ k, r ∉ activatedAt act cr (growStart cr dt [f]) k := by
    intro hq k hmem
    rw [(C137_activated act cr dt hdt [f] ⟨f, by simp, hu⟩ p hp k).2] at hmem
    split at hmem
    · rename_i hdvd
      obtain ⟨q, rfl⟩ := hdvd
      rw [List.mem_filter, decide_eq_true_eq] at hmem
      obtain ⟨h1, h2, -⟩ := hmem
      obtain ⟨n, hn⟩ := one_source act cr dt f (p * q + 1)
      rw [hn] at h1
      obtain ⟨c, hc, hrc⟩ := hcr _ _ h1
      simp only [List.map_cons, List.map_nil, List.mem_singleton] at hc
      subst hc
      have hjn : j < n := by
        by_contra hcon
        exact hnew n (by omega) hrc
      have := one_read_late act cr dt hdt f hu j (p * q) n hn hjn
      have := hq q (by linarith)
      linarith
    · simp at hmem
  refine ⟨main, fun h => main fun q hq => by linarith, fun k0 h1 h2 => main fun q hq => ?_⟩
  have : k0 < p * q := by
    by_contra hcon
    have h3 : ((p * q : ℕ) : K) ≤ (k0 : K) := by exact_mod_cast not_lt.mp hcon
    have := mul_le_mul_of_nonneg_right h3 hdt.le
    linarith
  have h3 : (k0 : K) + 1 ≤ ((p * q : ℕ) : K) := by exact_mod_cast this
  have := mul_le_mul_of_nonneg_right h3 hdt.le
  linarith

/-- C137 (partial: one path; the window is a whole number `p` of time steps; every part of the path ends at the end of a window, and nothing that is appended is
deposited before the end of the part before it): every event of every part that is read is activated, in the step at the start of the window that contains its
time. -/
theorem C137_aligned_partial [FloorSemiring K] (act : K) (cr : Create K B) (hcr : ∀ cs r c, c ∈ cs → r ∈ c.events → r ∈ cr.events cs)
    (dt : K) (hdt : 0 < dt) (f : ℕ → Contents K B) (hu : (f 0).finished = false) (p : ℕ) (hp0 : 0 < p) (hw : max act dt = p * dt)
    (N : ℕ → ℕ) (hN : StrictMono N) (hend : ∀ j, (f j).endTime = (p * N j : ℕ) * dt)
    (hgrow : ∀ j, ∀ r ∈ (f j).events, r ∈ (f (j + 1)).events)
    (hnew : ∀ j, ∀ r ∈ (f (j + 1)).events, r ∈ (f j).events ∨ (f j).endTime ≤ r.1)
    (j : ℕ) (hread : ∀ i < j, (f i).finished = false) (r : K × B) (hr : r ∈ (f j).events) (h0 : 0 ≤ r.1) :
    ∃ k, r ∈ activatedAt act cr (growStart cr dt [f]) k ∧ (growAt act cr (growStart cr dt [f]) k).time ≤ r.1 ∧
      r.1 < (growAt act cr (growStart cr dt [f]) k).time + max act dt := by
  have htol : 0 < dt / 1000000 := by positivity
  have htol1 : dt / 1000000 < dt := by rw [div_lt_iff₀ (by norm_num)]; nlinarith
  have hp : Stride act dt p := by
    refine ⟨by rw [hw]; linarith, fun i hi => ?_⟩
    have h3 : (i : K) + 1 ≤ (p : K) := by exact_mod_cast hi
    have := mul_le_mul_of_nonneg_right h3 hdt.le
    rw [hw]; linarith
  -- the number of the contents in memory
  have hinv : ∀ k n, (growAt act cr (growStart cr dt [f]) (k + 1)).srcs = [⟨f, n⟩] →
      (f n).finished = true ∨ k < p * N n := by
    have hpos : ∀ n, 0 < n → 0 < p * N n := fun n hn => Nat.mul_pos hp0 (lt_of_le_of_lt (Nat.zero_le _) (hN hn))
    have hlt : ∀ k n : ℕ, ¬ (k * dt - (f n).endTime > -(dt / 1000000)) → k < p * N n := by
      intro k n h
      by_contra hcon
      have h3 : ((p * N n : ℕ) : K) ≤ (k : K) := by exact_mod_cast not_lt.mp hcon
      have := mul_le_mul_of_nonneg_right h3 hdt.le
      rw [hend] at h
      exact h (by linarith)
    have hge : ∀ k n : ℕ, k ≤ p * N n → k < p * N (n + 1) := by
      intro k n h
      have : p * N n < p * N (n + 1) := (Nat.mul_lt_mul_left hp0).mpr (hN (Nat.lt_succ_self n))
      omega
    intro k
    induction k with
    | zero =>
      intro n hn
      have h00 : (growAt act cr (growStart cr dt [f]) 0).srcs = [⟨f, 0⟩] := rfl
      rw [one_step act cr dt hdt f hu 0 0 h00] at hn
      simp only [List.cons.injEq, GSrc.mk.injEq, true_and, and_true] at hn
      split at hn
      · right; exact hpos n (by omega)
      · rename_i h
        right
        rw [← hn]
        exact hlt 0 0 (fun h' => h ⟨hu, h'⟩)
    | succ k ih =>
      intro n hn
      obtain ⟨m, hm⟩ := one_source act cr dt f (k + 1)
      rw [one_step act cr dt hdt f hu (k + 1) m hm] at hn
      simp only [List.cons.injEq, GSrc.mk.injEq, true_and, and_true] at hn
      split at hn
      · rename_i h
        rcases ih m hm with h' | h'
        · rw [h'] at h; cases h.1
        · right; rw [← hn]; exact hge (k + 1) m h'
      · rename_i h
        subst hn
        by_cases hf : (f m).finished = true
        · exact Or.inl hf
        · right; exact hlt (k + 1) m (fun h' => h ⟨by simpa using hf, h'⟩)
  have hmono : ∀ a b, a ≤ b → ∀ r ∈ (f a).events, r ∈ (f b).events := by
    intro a b hab
    induction hab with
    | refl => exact fun r h => h
    | step _ ih => exact fun r h => hgrow _ r (ih r h)
  -- the window that contains the time of the event
  have hmd : 0 < (p : K) * dt := mul_pos (by exact_mod_cast hp0) hdt
  set q := ⌊r.1 / (p * dt)⌋₊
  have hq1 : (q : K) ≤ r.1 / (p * dt) := Nat.floor_le (div_nonneg h0 hmd.le)
  have hq2 : r.1 / (p * dt) < q + 1 := Nat.lt_floor_add_one _
  rw [le_div_iff₀ hmd] at hq1
  rw [div_lt_iff₀ hmd] at hq2
  have hU : Unfinished [f] := ⟨f, by simp, hu⟩
  obtain ⟨ht, hact⟩ := C137_activated act cr dt hdt [f] hU p hp (p * q)
  obtain ⟨n, hn⟩ := one_source act cr dt f (p * q + 1)
  have hknown : r ∈ (f n).events := by
    -- the first contents with the event
    have : ∀ j, (∀ i < j, (f i).finished = false) → r ∈ (f j).events → r ∈ (f n).events := by
      intro j
      induction j with
      | zero => exact fun _ h => hmono 0 n (Nat.zero_le _) r h
      | succ j ih =>
        intro hfin h
        rcases hnew j r h with h' | h'
        · exact ih (fun i hi => hfin i (by omega)) h'
        · apply hmono (j + 1) n _ r h
          by_contra hcon
          have hnj : n ≤ j := by omega
          rcases hinv (p * q) n hn with h1 | h1
          · rw [hfin n (by omega)] at h1; cases h1
          · rw [hend] at h'
            have hle : N n ≤ N j := hN.monotone hnj
            have hqN : q < N j := lt_of_lt_of_le (Nat.lt_of_mul_lt_mul_left h1) hle
            have h3 : (q : K) + 1 ≤ (N j : K) := by exact_mod_cast hqN
            have := mul_le_mul_of_nonneg_right h3 hmd.le
            push_cast at h'
            nlinarith
    exact this j hread hr
  refine ⟨p * q, ?_, ?_, ?_⟩
  · rw [hact, if_pos (dvd_mul_right p q), List.mem_filter, decide_eq_true_eq]
    refine ⟨?_, ?_, ?_⟩
    · rw [hn]
      exact hcr _ r (f n) (by simp [GSrc.now]) hknown
    · push_cast; nlinarith
    · rw [hw]; push_cast; nlinarith
  · rw [ht]; push_cast; nlinarith
  · rw [ht, hw]; push_cast; nlinarith

omit [IsStrictOrderedRing K] in
/-- With deposition along the scan paths the events are exactly those of the paths. -/
theorem scanPaths_mem (cs : List (Contents K B)) (r : K × B) :
    r ∈ (Create.scanPaths : Create K B).events cs ↔ ∃ c ∈ cs, r ∈ c.events := by
  simp [Create.scanPaths, List.mem_mergeSort, List.mem_flatMap]

/-! ### What has not been read has no effect -/

/-- Two heat sources with the same number of re-reads and the same contents up to read number `n`. -/
def SameUpTo (n : ℕ) (x y : GSrc K B) : Prop := x.reads = y.reads ∧ ∀ j ≤ n, x.file j = y.file j

omit [Field K] [LinearOrder K] [IsStrictOrderedRing K] in
theorem same_now {n : ℕ} {x y : GSrc K B} (h : SameUpTo n x y) (hx : x.reads ≤ n) : x.now = y.now := by
  unfold GSrc.now; rw [← h.1]; exact h.2 _ hx

omit [Field K] [LinearOrder K] [IsStrictOrderedRing K] in
theorem same_reread {n : ℕ} {x y : GSrc K B} (h : SameUpTo n x y) (hx : x.reads ≤ n) : SameUpTo n x.reread y.reread := by
  unfold GSrc.reread
  rw [← same_now h hx]
  split
  · exact h
  · exact ⟨by simp [h.1], h.2⟩

omit [Field K] [LinearOrder K] [IsStrictOrderedRing K] in
theorem same_map {γ : Type*} {n : ℕ} {a b : List (GSrc K B)} (h : List.Forall₂ (SameUpTo n) a b) (hr : ∀ x ∈ a, x.reads ≤ n)
    (g : Contents K B → γ) : (a.map fun x => g x.now) = b.map fun x => g x.now := by
  induction h with
  | nil => rfl
  | cons hxy _ ih =>
    simp only [List.map_cons]
    rw [same_now hxy (hr _ (by simp)), ih (fun x hx => hr x (by simp [hx]))]

omit [Field K] [LinearOrder K] [IsStrictOrderedRing K] in
theorem same_srcs {n : ℕ} {a b : List (GSrc K B)} (h : List.Forall₂ (SameUpTo n) a b) (hr : ∀ x ∈ a, x.reads ≤ n) :
    List.Forall₂ (SameUpTo n) (a.map GSrc.reread) (b.map GSrc.reread) ∧
    List.Forall₂ (SameUpTo n) ((a.filter (fun x => !x.now.finished)).map GSrc.reread) ((b.filter (fun x => !x.now.finished)).map GSrc.reread) ∧
    (a.all fun x => x.now.finished) = b.all fun x => x.now.finished := by
  induction h with
  | nil => exact ⟨List.Forall₂.nil, List.Forall₂.nil, rfl⟩
  | @cons x y a b hxy _ ih =>
    obtain ⟨i1, i2, i3⟩ := ih (fun x hx => hr x (by simp [hx]))
    have hx := hr x (by simp)
    have hnow := same_now hxy hx
    refine ⟨List.Forall₂.cons (same_reread hxy hx) i1, ?_, by simp [hnow, i3]⟩
    simp only [List.filter_cons, hnow]
    split
    · exact List.Forall₂.cons (same_reread hxy hx) i2
    · exact i2

/-- Two states that differ at most in contents that have not been read. -/
def SameState (n : ℕ) (s t : GSt K B) : Prop :=
  s.time = t.time ∧ s.dt = t.dt ∧ s.curEnd = t.curEnd ∧ s.duration = t.duration ∧ s.actEnd = t.actEnd ∧ s.events = t.events ∧
  List.Forall₂ (SameUpTo n) s.srcs t.srcs

omit [IsStrictOrderedRing K] in
theorem same_block {n : ℕ} {s t : GSt K B} (cr : Create K B) (h : SameState n s t)
    (hr : ∀ x ∈ (if s.needsReread then growReread cr s else s).srcs, x.reads ≤ n) :
    SameState n (if s.needsReread then growReread cr s else s) (if t.needsReread then growReread cr t else t) := by
  have hn : s.needsReread = t.needsReread := by
    unfold GSt.needsReread
    rw [h.1, h.2.1, h.2.2.1]
  rw [← hn]
  by_cases hs : s.needsReread = true
  · simp only [hs, if_true] at hr ⊢
    obtain ⟨h1, h2, h3, h4, h5, h6, h7⟩ := h
    have hr0 : ∀ x ∈ s.srcs, x.reads ≤ n := by
      intro x hx
      have := hr x.reread (List.mem_map.mpr ⟨x, hx, rfl⟩)
      unfold GSrc.reread at this
      split at this
      · exact this
      · simp only at this; omega
    obtain ⟨g1, g2, g3⟩ := same_srcs h7 hr0
    have hr2 : ∀ x ∈ (s.srcs.filter (fun x => !x.now.finished)).map GSrc.reread, x.reads ≤ n := by
      intro x hx
      obtain ⟨y, hy, rfl⟩ := List.mem_map.mp hx
      exact hr _ (List.mem_map.mpr ⟨y, (List.mem_filter.mp hy).1, rfl⟩)
    have e2 := same_map g2 hr2 Contents.endTime
    have e1 := same_map g1 hr id
    simp only [id] at e1
    refine ⟨h1, h2, ?_, ?_, h5, ?_, g1⟩
    · simp only [growReread, e2]
    · simp only [growReread, e2, g3, h4]
    · simp only [growReread]
      exact congrArg cr.events e1
  · simp only [hs]
    exact h

open Classical in
omit [IsStrictOrderedRing K] in
theorem same_iter {n : ℕ} {s t : GSt K B} (act : K) (cr : Create K B) (h : SameState n s t)
    (hr : ∀ x ∈ (growIter act cr s).1.srcs, x.reads ≤ n) :
    SameState n (growIter act cr s).1 (growIter act cr t).1 ∧ (growIter act cr s).2 = (growIter act cr t).2 := by
  have hb := same_block cr h hr
  have hdt := h.2.1
  unfold growIter
  generalize (if s.needsReread then growReread cr s else s) = s' at hb
  generalize (if t.needsReread then growReread cr t else t) = t' at hb
  obtain ⟨h1, h2, h3, h4, h5, h6, h7⟩ := hb
  cases s' with
  | mk a1 a2 a3 a4 a5 a6 a7 =>
  cases t' with
  | mk b1 b2 b3 b4 b5 b6 b7 =>
  simp only at h1 h2 h3 h4 h5 h6 h7
  subst h1 h2 h3 h4 h5 h6
  rw [hdt]
  exact ⟨⟨rfl, rfl, rfl, rfl, rfl, rfl, h7⟩, rfl⟩

omit [IsStrictOrderedRing K] in
theorem same_at {n : ℕ} (act : K) (cr : Create K B) (s t : GSt K B) (h : SameState n s t) (k : ℕ)
    (hr : ∀ i ≤ k, ∀ x ∈ (growAt act cr s i).srcs, x.reads ≤ n) : SameState n (growAt act cr s k) (growAt act cr t k) := by
  induction k with
  | zero => exact h
  | succ k ih =>
    have ih' := ih (fun i hi => hr i (by omega))
    have hrun : (growAt act cr s k).running ↔ (growAt act cr t k).running := by
      unfold GSt.running
      rw [ih'.1, ih'.2.2.2.1]
    have hk := hr (k + 1) le_rfl
    rw [growAt] at hk ⊢
    rw [growAt]
    by_cases hs : (growAt act cr s k).running
    · rw [if_pos hs] at hk ⊢
      rw [if_pos (hrun.mp hs)]
      exact (same_iter act cr ih' hk).1
    · rw [if_neg hs, if_neg (fun h' => hs (hrun.mpr h'))]
      exact ih'

/-- C137 (causality): what will be written into the files later has no effect now.  Take two histories of the files that agree in the first `n + 1` reads of
every file.  As long as no file has been read more often than that in the one run, the other run makes the same steps and activates the same events
(with the same boxes and angles), whatever the files contain afterwards. -/
theorem C137_causal (act : K) (cr : Create K B) (dt : K) (n : ℕ) (fs gs : List (ℕ → Contents K B))
    (hsame : List.Forall₂ (fun f g => ∀ j ≤ n, f j = g j) fs gs) (k : ℕ)
    (hr : ∀ i ≤ k + 1, ∀ x ∈ (growAt act cr (growStart cr dt fs) i).srcs, x.reads ≤ n)
    (hrun : (growAt act cr (growStart cr dt fs) k).running) :
    (growAt act cr (growStart cr dt gs) k).running ∧
    (growAt act cr (growStart cr dt gs) k).time = (growAt act cr (growStart cr dt fs) k).time ∧
    (growAt act cr (growStart cr dt gs) k).dt = (growAt act cr (growStart cr dt fs) k).dt ∧
    activatedAt act cr (growStart cr dt gs) k = activatedAt act cr (growStart cr dt fs) k := by
  have h7 : List.Forall₂ (SameUpTo n) (fs.map fun f => (⟨f, 0⟩ : GSrc K B)) (gs.map fun f => (⟨f, 0⟩ : GSrc K B)) := by
    rw [List.forall₂_map_left_iff, List.forall₂_map_right_iff]
    exact hsame.imp (fun f g h => ⟨rfl, h⟩)
  have hr0 : ∀ x ∈ fs.map fun f => (⟨f, 0⟩ : GSrc K B), x.reads ≤ n := hr 0 (by omega)
  have e1 := same_map h7 hr0 Contents.endTime
  have e2 := same_map h7 hr0 id
  simp only [id] at e2
  have e3 := (same_srcs h7 hr0).2.2
  have h0 : SameState n (growStart cr dt fs) (growStart cr dt gs) := by
    refine ⟨rfl, rfl, ?_, ?_, rfl, ?_, h7⟩
    · simp only [growStart, e1]
    · simp only [growStart, e1, e3]
    · simp only [growStart]
      exact congrArg cr.events e2
  have hs := same_at act cr _ _ h0 k (fun i hi => hr i (by omega))
  have hk := hr (k + 1) le_rfl
  rw [growAt, if_pos hrun] at hk
  refine ⟨?_, hs.1.symm, hs.2.1.symm, ((same_iter act cr hs hk).2).symm⟩
  intro d hd
  rw [← hs.2.2.2.1] at hd
  rw [← hs.1]
  exact hrun d hd

/-! ### Cases -/

/-- A path that is extended by 2 at every read and has an event in the middle of every time step. -/
def steady (j : ℕ) : Contents ℚ ℕ :=
  ⟨(1 * (2 * j + 2) : ℕ) * 1, false, (List.range (2 * j + 2)).map fun i : ℕ => ((i : ℚ) + 1 / 2, i)⟩

/-- All hypotheses of `C137_aligned_partial` hold for it with steps of 1: the ends of its parts are at 2, 4, 6, ... -/
example : (steady 0).finished = false ∧ max 0 (1 : ℚ) = (1 : ℕ) * 1 ∧ StrictMono (fun j : ℕ => 2 * j + 2) ∧
    (∀ j, (steady j).endTime = (1 * (2 * j + 2) : ℕ) * 1) ∧
    (∀ j, ∀ r ∈ (steady j).events, r ∈ (steady (j + 1)).events) ∧
    (∀ j, ∀ r ∈ (steady (j + 1)).events, r ∈ (steady j).events ∨ (steady j).endTime ≤ r.1) ∧
    ((17 / 2, 8) : ℚ × ℕ) ∈ (steady 4).events := by
  refine ⟨rfl, by norm_num, fun a b h => by dsimp only; omega, fun j => rfl, ?_, ?_, ?_⟩
  · intro j r hr
    obtain ⟨i, hi, rfl⟩ := List.mem_map.mp hr
    exact List.mem_map.mpr ⟨i, List.mem_range.mpr (by have := List.mem_range.mp hi; omega), rfl⟩
  · intro j r hr
    obtain ⟨i, hi, rfl⟩ := List.mem_map.mp hr
    rcases Nat.lt_or_ge i (2 * j + 2) with h | h
    · exact Or.inl (List.mem_map.mpr ⟨i, List.mem_range.mpr h, rfl⟩)
    · right
      have : ((2 * j + 2 : ℕ) : ℚ) ≤ i := by exact_mod_cast h
      simp only [steady]
      push_cast at this ⊢
      linarith
  · exact List.mem_map.mpr ⟨8, List.mem_range.mpr (by norm_num), by norm_num⟩

/-- A path that ends at 5/2 when it is read first; then an event at 11/4 is added. -/
def uneven (j : ℕ) : Contents ℚ ℕ :=
  if j = 0 then ⟨5 / 2, false, [(1 / 2, 0)]⟩ else ⟨10, false, [(1 / 2, 0), (11 / 4, 1)]⟩

/-- With steps of 1, no lead time and no `deposition_time` the event that is added, after the end of the path as it was, is never activated: the file is
read at time 3. -/
theorem C137_uneven_refuted (k : ℕ) :
    ((11 / 4, 1) : ℚ × ℕ) ∉ activatedAt 0 Create.scanPaths (growStart Create.scanPaths 1 [uneven]) k := by
  refine (C137_growing_path_refuted 0 Create.scanPaths (fun cs r h => (scanPaths_mem cs r).mp h) 1 one_pos uneven rfl 1
    (stride_one 0 1 one_pos (by norm_num)) (11 / 4, 1) 0 ?_).2.2 2 ?_ ?_ k
  · intro i hi
    obtain rfl : i = 0 := by omega
    simp [uneven]
  · norm_num [uneven]
  · norm_num

/-- With a `deposition_time` of 10 steps the events added at time 3 for the time 5 are never activated either, although the path ends with a step. -/
theorem C137_long_window_refuted (k : ℕ) :
    ((5, 1) : ℚ × ℕ) ∉ activatedAt 10 Create.scanPaths (growStart Create.scanPaths 1
      [fun j => if j = 0 then ⟨3, false, [(1 / 2, 0)]⟩ else ⟨20, false, [(1 / 2, 0), (5, 1)]⟩]) k := by
  have hp : Stride (10 : ℚ) 1 10 := by
    refine ⟨by norm_num, fun r hr => ?_⟩
    have : (r : ℚ) ≤ 9 := by exact_mod_cast Nat.lt_succ_iff.mp hr
    norm_num; linarith
  refine (C137_growing_path_refuted 10 Create.scanPaths (fun cs r h => (scanPaths_mem cs r).mp h) 1 one_pos _ rfl 10
    hp (5, 1) 0 ?_).1 ?_ k
  · intro i hi
    obtain rfl : i = 0 := by omega
    simp
  · intro q hq
    have : 0 < q := by
      rcases Nat.eq_zero_or_pos q with rfl | h
      · norm_num at hq
      · exact h
    have : (1 : ℚ) ≤ q := by exact_mod_cast this
    push_cast
    linarith

/-- In both runs the file is read again, with the event in it. -/
example : (11 / 4, 1) ∈ (uneven 1).events ∧ (uneven 0).endTime < 11 / 4 := by norm_num [uneven]

/-- Causality applies to runs that differ: the first two reads of `steady` and of a file that stops growing after them. -/
example : List.Forall₂ (fun f g : ℕ → Contents ℚ ℕ => ∀ j ≤ 1, f j = g j) [steady] [fun j => steady (min j 1)] ∧
    steady 2 ≠ steady (min 2 1) := by
  refine ⟨List.Forall₂.cons (fun j hj => by rw [min_eq_left hj]) List.Forall₂.nil, ?_⟩
  intro h
  have := congrArg Contents.endTime h
  norm_num [steady] at this

end Verif.Driver
