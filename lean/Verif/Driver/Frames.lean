import Mathlib.Order.Basic
import Mathlib.Data.List.Basic
import Mathlib.Order.Monotone.Basic
import Mathlib.Tactic.Linarith
import Mathlib.Tactic.NormNum
import Mathlib.Algebra.Order.Ring.Rat

/-!
# C26: when experimental frames are assimilated (`application/adamantine.hh:1799-1868, 2140-2176`)

`experimental_frame_index` starts at `max()` and only `experimental_frame_index + 1` (which wraps to 0) is compared, so the
model stores `idx = experimental_frame_index + 1`.  `read_next_frame` returns `_next_frame++` (`PointCloud.cc:92`,
`RayTracing.cc:211`), which starts at `first_frame` (`PointCloud.cc:23`, `RayTracing.cc:134`).  The entries of
`frame_time_stamps[0]` are those of the frames `first_frame, first_frame + 1, …` (`experimental_data_utils.cc:193-200`).
Only runs that do not restart are modelled; which data points are mapped is not part of this model.
-/

namespace Verif.Driver.Frames

variable {K : Type*} [LinearOrder K]

/-- `experimental_frame_index + 1` and the reader's `_next_frame`. -/
structure St where
  idx : ℕ
  next : ℕ

/-- What a time step does about experimental data. -/
inductive Outcome
  | nothing
  /-- the data of this frame (its number in the file names) is assimilated -/
  | assimilated (frame : ℕ)
  /-- "Unexpectedly missed a data assimilation frame." -/
  | thrown
  /-- read outside `frame_time_stamps[0]` -/
  | ub
  deriving DecidableEq

/-- Lines 2156-2176 for the step number `n` from `old` to `time`; `ts` is `frame_time_stamps[0]`. -/
def daStep (ts : List K) (s : St) (n : ℕ) (old time : K) : Outcome × St :=
  match ts[s.idx]? with
  | none => (.nothing, s)                                   -- 2157
  | some t =>
    if t ≤ time then                                        -- 2163
      let frame := s.next
      let s' : St := ⟨frame + 1, s.next + 1⟩                -- 2165
      match ts[frame]? with                                 -- 2166
      | none => (.ub, s')
      | some frameTime =>
        if frameTime ≤ time then                            -- 2170
          if frameTime > old ∨ n = 1 then (.assimilated frame, s') else (.thrown, s') -- 2172-2174
        else (.nothing, s')
    else (.nothing, s)

/-- State before step `k` (step `k` goes from `times k` to `times (k+1)` and has number `k + 1`). -/
def stAt (ts : List K) (first : ℕ) (times : ℕ → K) : ℕ → St
  | 0 => ⟨0, first⟩
  | k + 1 => (daStep ts (stAt ts first times k) (k + 1) (times k) (times (k + 1))).2

/-- Outcome of step `k`. -/
def outcome (ts : List K) (first : ℕ) (times : ℕ → K) (k : ℕ) : Outcome :=
  (daStep ts (stAt ts first times k) (k + 1) (times k) (times (k + 1))).1

/-- The first `N` steps ran without exception. -/
def NoError (ts : List K) (first : ℕ) (times : ℕ → K) (N : ℕ) : Prop :=
  ∀ k < N, outcome ts first times k ≠ .thrown ∧ outcome ts first times k ≠ .ub

/-- Effect of a step when `first_frame = 0`. -/
theorem step_cases (ts : List K) (m n : ℕ) (old time : K) :
    (daStep ts ⟨m, m⟩ n old time = (.nothing, ⟨m, m⟩) ∧ ∀ (h : m < ts.length), time < ts[m]) ∨
    (∃ h : m < ts.length, ts[m] ≤ time ∧
      ((ts[m] > old ∨ n = 1) ∧ daStep ts ⟨m, m⟩ n old time = (.assimilated m, ⟨m + 1, m + 1⟩) ∨
       ¬ (ts[m] > old ∨ n = 1) ∧ daStep ts ⟨m, m⟩ n old time = (.thrown, ⟨m + 1, m + 1⟩))) := by
  unfold daStep
  by_cases h : m < ts.length
  · by_cases ht : ts[m] ≤ time
    · right
      refine ⟨h, ht, ?_⟩
      by_cases hc : ts[m] > old ∨ n = 1
      · left; refine ⟨hc, ?_⟩; simp [h, ht, hc]
      · right; refine ⟨hc, ?_⟩; simp [h, ht, hc]
    · left
      refine ⟨by simp [h, ht], fun _ => not_le.mp ht⟩
  · left
    refine ⟨by simp [h], fun h' => absurd h' h⟩

/-- Number of frames assimilated before step `k` (with `first_frame = 0`). -/
theorem state_diag (ts : List K) (times : ℕ → K) (k : ℕ) :
    (stAt ts 0 times k).idx = (stAt ts 0 times k).next := by
  induction k with
  | zero => rfl
  | succ k ih =>
    obtain ⟨m, hm⟩ : ∃ m, stAt ts 0 times k = ⟨m, m⟩ := by
      refine ⟨(stAt ts 0 times k).idx, ?_⟩
      cases h : stAt ts 0 times k; rw [h] at ih; simp at ih; simp [ih]
    simp only [stAt, hm]
    rcases step_cases ts m (k + 1) (times k) (times (k + 1)) with ⟨h, -⟩ | ⟨_, _, ⟨-, h⟩ | ⟨-, h⟩⟩ <;> rw [h]

theorem state_eq (ts : List K) (times : ℕ → K) (k : ℕ) : ∃ m, stAt ts 0 times k = ⟨m, m⟩ := by
  have ih := state_diag ts times k
  refine ⟨(stAt ts 0 times k).idx, ?_⟩
  cases h : stAt ts 0 times k; rw [h] at ih; simp at ih; simp [ih]

/-- C26 (partial: `first_frame = 0`): the data assimilated in a step is that of a frame whose time stamp is in the step
(the first step also takes an earlier frame): the step is the first one whose end time is not before the stamp. -/
theorem C26_right_step_partial (ts : List K) (times : ℕ → K) (hmono : StrictMono times) (k f : ℕ)
    (h : outcome ts 0 times k = .assimilated f) :
    ∃ hf : f < ts.length, ts[f] ≤ times (k + 1) ∧ ∀ j < k, times (j + 1) < ts[f] := by
  obtain ⟨m, hm⟩ := state_eq ts times k
  unfold outcome at h
  rw [hm] at h
  rcases step_cases ts m (k + 1) (times k) (times (k + 1)) with ⟨h', -⟩ | ⟨hl, hle, ⟨hc, h'⟩ | ⟨-, h'⟩⟩
  · rw [h'] at h; cases h
  · rw [h'] at h
    simp only [Outcome.assimilated.injEq] at h
    subst h
    refine ⟨hl, hle, fun j hj => ?_⟩
    rcases hc with hc | hc
    · exact lt_of_le_of_lt (hmono.monotone (by omega)) hc
    · omega
  · rw [h'] at h; cases h

/-- Invariant: frames below `idx` were assimilated, in order, each in one step. -/
theorem assimilated_iff (ts : List K) (times : ℕ → K) (N : ℕ) (hok : NoError ts 0 times N) (m : ℕ)
    (hm : stAt ts 0 times N = ⟨m, m⟩) :
    (∀ f, (∃ k < N, outcome ts 0 times k = .assimilated f) ↔ f < m) ∧
    (∀ k < N, ∀ k' < N, ∀ f f', outcome ts 0 times k = .assimilated f → outcome ts 0 times k' = .assimilated f' →
      (f < f' ↔ k < k')) := by
  induction N generalizing m with
  | zero =>
    simp only [stAt] at hm
    cases hm
    exact ⟨fun f => by simp, fun k hk => by omega⟩
  | succ N ih =>
    obtain ⟨m0, hm0⟩ := state_eq ts times N
    obtain ⟨i1, i2⟩ := ih (fun k hk => hok k (by omega)) m0 hm0
    have hstep : stAt ts 0 times (N + 1) = (daStep ts ⟨m0, m0⟩ (N + 1) (times N) (times (N + 1))).2 := by
      simp only [stAt, hm0]
    have hout : outcome ts 0 times N = (daStep ts ⟨m0, m0⟩ (N + 1) (times N) (times (N + 1))).1 := by
      simp only [outcome, hm0]
    rw [hstep] at hm
    have hno := hok N (by omega)
    rw [hout] at hno
    rcases step_cases ts m0 (N + 1) (times N) (times (N + 1)) with ⟨h', -⟩ | ⟨hl, hle, ⟨hc, h'⟩ | ⟨-, h'⟩⟩
    · rw [h'] at hm hout hno
      cases hm
      refine ⟨fun f => ?_, fun k hk k' hk' f f' hf hf' => ?_⟩
      · rw [← i1 f]
        constructor
        · rintro ⟨k, hk, hf⟩
          rcases Nat.eq_or_lt_of_le (Nat.lt_succ_iff.mp hk) with rfl | hlt
          · rw [hout] at hf; cases hf
          · exact ⟨k, hlt, hf⟩
        · rintro ⟨k, hk, hf⟩; exact ⟨k, by omega, hf⟩
      · have a1 : k < N := by
          rcases Nat.eq_or_lt_of_le (Nat.lt_succ_iff.mp hk) with rfl | hlt
          · rw [hout] at hf; cases hf
          · exact hlt
        have a2 : k' < N := by
          rcases Nat.eq_or_lt_of_le (Nat.lt_succ_iff.mp hk') with rfl | hlt
          · rw [hout] at hf'; cases hf'
          · exact hlt
        exact i2 k a1 k' a2 f f' hf hf'
    · rw [h'] at hm hout hno
      cases hm
      simp only at hout
      refine ⟨fun f => ?_, fun k hk k' hk' f f' hf hf' => ?_⟩
      · constructor
        · rintro ⟨k, hk, hf⟩
          rcases Nat.eq_or_lt_of_le (Nat.lt_succ_iff.mp hk) with rfl | hlt
          · rw [hout] at hf; cases hf; omega
          · have := (i1 f).mp ⟨k, hlt, hf⟩; omega
        · intro hf
          rcases Nat.eq_or_lt_of_le (Nat.lt_succ_iff.mp hf) with rfl | hlt
          · exact ⟨N, by omega, hout⟩
          · obtain ⟨k, hk, hf'⟩ := (i1 f).mpr hlt
            exact ⟨k, by omega, hf'⟩
      · rcases Nat.eq_or_lt_of_le (Nat.lt_succ_iff.mp hk) with rfl | a1
        · rw [hout] at hf; cases hf
          rcases Nat.eq_or_lt_of_le (Nat.lt_succ_iff.mp hk') with rfl | a2
          · rw [hout] at hf'; cases hf'; simp
          · have := (i1 f').mp ⟨k', a2, hf'⟩
            constructor <;> intro _ <;> omega
        · have hfm := (i1 f).mp ⟨k, a1, hf⟩
          rcases Nat.eq_or_lt_of_le (Nat.lt_succ_iff.mp hk') with rfl | a2
          · rw [hout] at hf'; cases hf'
            constructor <;> intro _ <;> omega
          · exact i2 k a1 k' a2 f f' hf hf'
    · rw [h'] at hno; exact absurd rfl hno.1

/-- Not-yet-read frames lie after the start of the last step. -/
theorem unread_later (ts : List K) (hsorted : ts.Pairwise (· ≤ ·)) (times : ℕ → K) (hmono : StrictMono times) (N : ℕ)
    (hN : 1 ≤ N) (hok : NoError ts 0 times (N + 1)) (m : ℕ) (hm : stAt ts 0 times (N + 1) = ⟨m, m⟩) :
    ∀ f (hf : f < ts.length), m ≤ f → times N < ts[f] := by
  intro f hf hmf
  obtain ⟨m0, hm0⟩ := state_eq ts times N
  have hstep : stAt ts 0 times (N + 1) = (daStep ts ⟨m0, m0⟩ (N + 1) (times N) (times (N + 1))).2 := by
    simp only [stAt, hm0]
  have hout : outcome ts 0 times N = (daStep ts ⟨m0, m0⟩ (N + 1) (times N) (times (N + 1))).1 := by
    simp only [outcome, hm0]
  rw [hstep] at hm
  have hno := hok N (by omega)
  rw [hout] at hno
  have hle : ∀ a (ha : a < ts.length), a ≤ f → ts[a] ≤ ts[f] := by
    intro a ha haf
    rcases Nat.eq_or_lt_of_le haf with rfl | h
    · exact le_refl _
    · exact List.pairwise_iff_getElem.mp hsorted a f ha hf h
  rcases step_cases ts m0 (N + 1) (times N) (times (N + 1)) with ⟨h', hgt⟩ | ⟨hl, _, ⟨hc, h'⟩ | ⟨-, h'⟩⟩
  · rw [h'] at hm; cases hm
    have h1 := hgt (by omega)
    have h2 := hle m (by omega) hmf
    exact lt_of_lt_of_le (lt_trans (hmono (Nat.lt_succ_self N)) h1) h2
  · rw [h'] at hm; cases hm
    rcases hc with hc | hc
    · exact lt_of_lt_of_le hc (hle m0 hl (by omega))
    · omega
  · rw [h'] at hno; exact absurd rfl hno.1

/-- C26 (partial: `first_frame = 0`, no restart, at least two steps, sorted time stamps, and the last step contains at most
one time stamp): if the run does not stop with an error, every frame whose time stamp is reached is assimilated in exactly
one step, and frames are assimilated in order. -/
theorem C26_each_frame_once_partial (ts : List K) (hsorted : ts.Pairwise (· ≤ ·)) (times : ℕ → K)
    (hmono : StrictMono times) (N : ℕ) (hN : 1 ≤ N) (hok : NoError ts 0 times (N + 1))
    (hlast : ∀ f g (hf : f < ts.length) (hg : g < ts.length), times N < ts[f] → ts[f] ≤ times (N + 1) →
      times N < ts[g] → ts[g] ≤ times (N + 1) → f = g) :
    (∀ f (hf : f < ts.length), ts[f] ≤ times (N + 1) → ∃! k, k < N + 1 ∧ outcome ts 0 times k = .assimilated f) ∧
    (∀ k < N + 1, ∀ k' < N + 1, ∀ f f', outcome ts 0 times k = .assimilated f →
      outcome ts 0 times k' = .assimilated f' → (f < f' ↔ k < k')) := by
  obtain ⟨m, hm⟩ := state_eq ts times (N + 1)
  obtain ⟨i1, i2⟩ := assimilated_iff ts times (N + 1) hok m hm
  refine ⟨fun f hf hle => ?_, i2⟩
  have hfm : f < m := by
    by_contra hcon
    have hmf : m ≤ f := not_lt.mp hcon
    have hun := unread_later ts hsorted times hmono N hN hok m hm
    have h1 := hun f hf hmf
    -- the last step must have read a frame, otherwise `f` would lie after the last step
    obtain ⟨m0, hm0⟩ := state_eq ts times N
    have hstep : stAt ts 0 times (N + 1) = (daStep ts ⟨m0, m0⟩ (N + 1) (times N) (times (N + 1))).2 := by
      simp only [stAt, hm0]
    have hout : outcome ts 0 times N = (daStep ts ⟨m0, m0⟩ (N + 1) (times N) (times (N + 1))).1 := by
      simp only [outcome, hm0]
    rw [hstep] at hm
    have hno := hok N (by omega)
    rw [hout] at hno
    rcases step_cases ts m0 (N + 1) (times N) (times (N + 1)) with ⟨h', hgt⟩ | ⟨hl, hle0, ⟨hc, h'⟩ | ⟨-, h'⟩⟩
    · rw [h'] at hm; cases hm
      have h2 := hgt (by omega)
      rcases Nat.eq_or_lt_of_le hmf with rfl | h3
      · exact absurd hle (not_le.mpr h2)
      · exact absurd ((List.pairwise_iff_getElem.mp hsorted m f (by omega) hf h3).trans hle) (not_le.mpr h2)
    · rw [h'] at hm; cases hm
      have : m0 = f := hlast m0 f hl hf (hc.resolve_right (by omega)) hle0 h1 hle
      omega
    · rw [h'] at hno; exact absurd rfl hno.1
  obtain ⟨k, hk, hkf⟩ := (i1 f).mpr hfm
  refine ⟨k, ⟨hk, hkf⟩, ?_⟩
  rintro k' ⟨hk', hk'f⟩
  have e1 := i2 k hk k' hk' f f hkf hk'f
  have e2 := i2 k' hk' k hk f f hk'f hkf
  have : ¬ k < k' := fun h => lt_irrefl f (e1.mpr h)
  have : ¬ k' < k := fun h => lt_irrefl f (e2.mpr h)
  omega

/-- Two frames in different steps of a run with unit steps meet the hypotheses. -/
example : ∃ (ts : List ℚ) (times : ℕ → ℚ), ts.Pairwise (· ≤ ·) ∧ StrictMono times ∧ NoError ts 0 times 3 ∧
    outcome ts 0 times 0 = .assimilated 0 ∧ outcome ts 0 times 2 = .assimilated 1 := by
  refine ⟨[1/2, 5/2], fun k => k, by norm_num, Nat.strictMono_cast, ?_, ?_, ?_⟩
  · intro k hk
    have : k = 0 ∨ k = 1 ∨ k = 2 := by omega
    rcases this with rfl | rfl | rfl <;> norm_num [outcome, stAt, daStep] <;> simp
  · norm_num [outcome, stAt, daStep]
  · norm_num [outcome, stAt, daStep]

/-- C26 is false when `first_frame` is not zero: with `first_frame = 1` and stamps 0.5 and 1.5 (frames 1 and 2) no frame is
ever assimilated and no error is reported, however long the run. -/
theorem C26_first_frame_refuted :
    ∀ k, outcome [(1/2 : ℚ), 3/2] 1 (fun k => (k : ℚ)) k = .nothing := by
  have h : ∀ k, stAt [(1/2 : ℚ), 3/2] 1 (fun k => (k : ℚ)) (k + 1) = ⟨2, 2⟩ := by
    intro k
    induction k with
    | zero => norm_num [stAt, daStep]
    | succ k ih => rw [stAt, ih]; simp [daStep]
  intro k
  cases k with
  | zero => norm_num [outcome, stAt, daStep]
  | succ k => unfold outcome; rw [h k]; simp [daStep]

/-- C26 is false when `first_frame` is not smaller than the number of frames: the time stamps are read out of bounds in the
first step that reaches a frame. -/
theorem C26_first_frame_out_of_bounds_refuted (ts : List K) (times : ℕ → K) (first : ℕ) (hf : ts.length ≤ first)
    (h0 : 0 < ts.length) (h1 : ts[0] ≤ times 1) : outcome ts first times 0 = .ub := by
  simp only [outcome, stAt, daStep]
  rw [List.getElem?_eq_getElem h0]
  simp [h1, hf]

/-- C26 is false when two frames fall in the last step: the second one is dropped without an error. -/
theorem C26_last_step_drops_refuted :
    let ts : List ℚ := [3/2, 8/5]
    let times : ℕ → ℚ := fun k => k
    NoError ts 0 times 2 ∧ outcome ts 0 times 1 = .assimilated 0 ∧ ∀ k < 2, outcome ts 0 times k ≠ .assimilated 1 := by
  refine ⟨?_, ?_, ?_⟩
  · intro k hk
    have : k = 0 ∨ k = 1 := by omega
    rcases this with rfl | rfl <;> norm_num [outcome, stAt, daStep] <;> simp
  · norm_num [outcome, stAt, daStep]
  · intro k hk
    have : k = 0 ∨ k = 1 := by omega
    rcases this with rfl | rfl <;> norm_num [outcome, stAt, daStep] <;> simp

end Verif.Driver.Frames
