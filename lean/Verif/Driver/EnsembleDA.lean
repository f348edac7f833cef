import Verif.Driver.Frames
import Mathlib.Algebra.Order.Field.Basic
import Mathlib.Tactic.Linarith

/-!
# C90, C91: output and restart of ensemble runs with data assimilation (`application/adamantine.hh:1672-1739, 1783-1869,
2153-2176, 2387-2424`)

Extends `Verif.Driver.Frames` by `da_time` and the output condition, and by the restart.
-/

namespace Verif.Driver.EnsembleDA

open Verif.Driver.Frames

variable {K : Type*} [Field K] [LinearOrder K]

/-! ## Model -/

/-- Loop variables: frame counters (`Frames.St`) and `da_time`. -/
structure St (K : Type*) where
  fr : Frames.St
  daTime : K

/-- Initial values of a new run, `adamantine.hh:1783, 1803-1804`; `first` is `first_frame`. -/
def init (first : ℕ) : St K := ⟨⟨0, first⟩, -1⟩

/-- The update of `da_time`, lines 2157-2162; `hw` is `da_time_half_window`. -/
def newDaTime (ts : List K) (hw : K) (s : St K) (time : K) : K :=
  match ts[s.fr.idx]? with
  | none => s.daTime
  | some t => if time > s.daTime + hw then t else s.daTime

/-- One time step with number `n` from `old` to `time`: the outcome and the new variables, lines 2153-2176. -/
def step (ts : List K) (hw : K) (s : St K) (n : ℕ) (old time : K) : Outcome × St K :=
  ((daStep ts s.fr n old time).1, ⟨(daStep ts s.fr n old time).2, newDaTime ts hw s time⟩)

/-- Is the solution of this step written? lines 2417-2419; `s` are the variables after `step`. -/
def written (onDa : Bool) (outputEvery : ℕ) (hw : K) (s : St K) (n : ℕ) (time : K) : Prop :=
  n % outputEvery = 0 ∨ (onDa = true ∧ time > s.daTime - hw ∧ time < s.daTime + hw)

/-- State before step `k`: the run was started (or restarted) in state `s0` with `n0` steps done; `times k` is the time after
`k` more steps. -/
def stAt (ts : List K) (hw : K) (s0 : St K) (n0 : ℕ) (times : ℕ → K) : ℕ → St K
  | 0 => s0
  | k + 1 => (step ts hw (stAt ts hw s0 n0 times k) (n0 + k + 1) (times k) (times (k + 1))).2

/-- Outcome of step `k`. -/
def outcomeAt (ts : List K) (hw : K) (s0 : St K) (n0 : ℕ) (times : ℕ → K) (k : ℕ) : Outcome :=
  (step ts hw (stAt ts hw s0 n0 times k) (n0 + k + 1) (times k) (times (k + 1))).1

/-- Is the solution after step `k` written? -/
def writtenAt (onDa : Bool) (outputEvery : ℕ) (ts : List K) (hw : K) (s0 : St K) (n0 : ℕ) (times : ℕ → K) (k : ℕ) : Prop :=
  written onDa outputEvery hw (stAt ts hw s0 n0 times (k + 1)) (n0 + k + 1) (times (k + 1))

/-- The frame counter after a restart at time `time`, lines 1853-1869, started at `experimental_frame_index + 1 = i`; `none`:
the loop reads outside `frame_time_stamps[0]`. -/
def restartIndex (ts : List K) (time : K) : Option ℕ :=
  match ts with
  | [] => none
  | t :: rest => if t < time then (restartIndex rest time).map (· + 1) else some 0

/-- The variables after a restart: the reader is constructed anew (lines 1836-1850) and is not advanced. -/
def restartState (ts : List K) (first : ℕ) (time : K) : Option (St K) :=
  (restartIndex ts time).map fun i => ⟨⟨i, first⟩, -1⟩

/-! ## Frame counters are those of `Verif.Driver.Frames` -/

theorem stAt_fr (ts : List K) (hw : K) (first : ℕ) (times : ℕ → K) (k : ℕ) :
    (stAt ts hw (init first) 0 times k).fr = Frames.stAt ts first times k := by
  induction k with
  | zero => rfl
  | succ k ih => simp only [stAt, Frames.stAt, step, ih, Nat.zero_add]

theorem outcomeAt_eq (ts : List K) (hw : K) (first : ℕ) (times : ℕ → K) (k : ℕ) :
    outcomeAt ts hw (init first) 0 times k = Frames.outcome ts first times k := by
  simp only [outcomeAt, step, stAt_fr, Frames.outcome, Nat.zero_add]

/-! ## C90 -/

/-- `da_time` is -1 or the stamp of a frame not after the next one. -/
theorem daTime_inv (ts : List K) (hw : K) (times : ℕ → K) (k : ℕ) :
    (stAt ts hw (init 0) 0 times k).daTime = -1 ∨
    ∃ g, g ≤ (stAt ts hw (init 0) 0 times k).fr.idx ∧ ∃ hg : g < ts.length, (stAt ts hw (init 0) 0 times k).daTime = ts[g] := by
  induction k with
  | zero => left; rfl
  | succ k ih =>
    set s := stAt ts hw (init 0) 0 times k with hs
    have hfr : s.fr = Frames.stAt ts 0 times k := stAt_fr ts hw 0 times k
    obtain ⟨m, hm⟩ := state_eq ts times k
    have hidx : s.fr.idx = m := by rw [hfr, hm]
    have hle : m ≤ (stAt ts hw (init 0) 0 times (k + 1)).fr.idx := by
      rw [stAt_fr, Frames.stAt, hm]
      rcases step_cases ts m (k + 1) (times k) (times (k + 1)) with ⟨h, -⟩ | ⟨_, _, ⟨-, h⟩ | ⟨-, h⟩⟩ <;> rw [h] <;> simp
    have hd : (stAt ts hw (init 0) 0 times (k + 1)).daTime = newDaTime ts hw s (times (k + 1)) := rfl
    rw [hd]
    unfold newDaTime
    rw [hidx]
    rw [hidx] at ih
    have keep : s.daTime = -1 ∨ ∃ g, g ≤ (stAt ts hw (init 0) 0 times (k + 1)).fr.idx ∧ ∃ hg : g < ts.length, s.daTime = ts[g] := by
      rcases ih with h | ⟨g, hg, h⟩
      · exact Or.inl h
      · exact Or.inr ⟨g, hg.trans hle, h⟩
    cases ht : ts[m]? with
    | none => exact keep
    | some t =>
      simp only
      split
      · obtain ⟨hlt, he⟩ := List.getElem?_eq_some_iff.1 ht
        exact Or.inr ⟨m, hle, hlt, he.symm⟩
      · exact keep

/-- C90 (partial: `first_frame = 0`, and no end of a step lies exactly one window after a frame): with
`output_on_data_assimilation` every step that assimilates a frame is written, whatever the output period.  The run starts at a
time that is not negative, no frame is before the start and no step is longer than `dt`, of which the half window is 1.01
times. -/
theorem C90_written_partial [IsStrictOrderedRing K] (ts : List K) (hsorted : ts.Pairwise (· ≤ ·)) (times : ℕ → K)
    (hmono : StrictMono times) (dt : K) (h0 : 0 ≤ times 0) (hstep : ∀ k, times (k + 1) - times k ≤ dt)
    (hstart : ∀ t ∈ ts, times 0 ≤ t) (outputEvery k f : ℕ)
    (hexact : ∀ t ∈ (-1 : K) :: ts, times (k + 1) ≠ t + 101 / 100 * dt)
    (h : outcomeAt ts (101 / 100 * dt) (init 0) 0 times k = .assimilated f) :
    writtenAt true outputEvery ts (101 / 100 * dt) (init 0) 0 times k := by
  set hw := 101 / 100 * dt with hhw
  have hdt : 0 < dt := lt_of_lt_of_le (sub_pos.2 (hmono (Nat.lt_succ_self 0))) (hstep 0)
  have hhwd : dt < hw := by rw [hhw]; linarith
  rw [outcomeAt_eq] at h
  obtain ⟨hf, hle, hbefore⟩ := C26_right_step_partial ts times hmono k f h
  have hs := daTime_inv ts hw times k
  have hidx : (stAt ts hw (init 0) 0 times k).fr.idx = f := by
    rw [stAt_fr]
    obtain ⟨m, hm⟩ := state_eq ts times k
    unfold outcome at h
    rw [hm] at h ⊢
    rcases step_cases ts m (k + 1) (times k) (times (k + 1)) with ⟨h', -⟩ | ⟨_, _, ⟨-, h'⟩ | ⟨-, h'⟩⟩ <;> rw [h'] at h
    · cases h
    · simpa using h
    · cases h
  have hclose : times (k + 1) < ts[f] + hw := by
    have hmem : ts[f] ∈ ts := List.getElem_mem hf
    cases k with
    | zero => have := hstart _ hmem; have := hstep 0; linarith
    | succ k => have := hbefore k (by omega); have := hstep (k + 1); linarith
  refine Or.inr ⟨rfl, ?_⟩
  have hd : (stAt ts hw (init 0) 0 times (k + 1)).daTime =
      if times (k + 1) > (stAt ts hw (init 0) 0 times k).daTime + hw then ts[f] else (stAt ts hw (init 0) 0 times k).daTime := by
    change newDaTime ts hw (stAt ts hw (init 0) 0 times k) (times (k + 1)) = _
    unfold newDaTime
    rw [hidx, List.getElem?_eq_getElem hf]
  rw [hd]
  split
  · exact ⟨by linarith, hclose⟩
  · rename_i hnot
    rw [gt_iff_lt, not_lt] at hnot
    have hpos : 0 ≤ times (k + 1) := h0.trans (hmono.monotone (by omega))
    rw [hidx] at hs
    rcases hs with hs | ⟨g, hg, hgl, hs⟩
    · rw [hs] at hnot ⊢
      exact ⟨by linarith, lt_of_le_of_ne hnot (hexact _ (by simp))⟩
    · rw [hs] at hnot ⊢
      have hgf : ts[g] ≤ ts[f] := by
        rcases Nat.lt_or_ge g f with h1 | h1
        · exact List.pairwise_iff_getElem.1 hsorted g f hgl hf h1
        · have : g = f := by omega
          subst this; exact le_rfl
      exact ⟨by linarith, lt_of_le_of_ne hnot (hexact _ (List.mem_cons_of_mem _ (List.getElem_mem hgl)))⟩

/-- C90: conversely a step is written only because of its number or because its end is within 1.01 time steps of a frame (or
of the time -1, the initial value of `da_time`; positive times are within 1.01 steps of -1 only for steps above 100). -/
theorem C90_only_near_frames (onDa : Bool) (ts : List K) (hw : K) (times : ℕ → K) (outputEvery k : ℕ)
    (h : writtenAt onDa outputEvery ts hw (init 0) 0 times k) :
    (k + 1) % outputEvery = 0 ∨ (onDa = true ∧ ∃ t ∈ (-1 : K) :: ts, t - hw < times (k + 1) ∧ times (k + 1) < t + hw) := by
  rcases h with h | ⟨h1, h2, h3⟩
  · left; simpa using h
  · right
    refine ⟨h1, _, ?_, h2, h3⟩
    rcases daTime_inv ts hw times (k + 1) with h | ⟨g, -, hg, h⟩
    · rw [h]; simp
    · rw [h]; exact List.mem_cons_of_mem _ (List.getElem_mem hg)

/-- C90 is false in the excluded case: time step 1, frames at 0.99 and 1.5, output every 100 steps: the second frame is
assimilated in the step that ends at 2 = 0.99 + 1.01, which is not written. -/
theorem C90_exact_window_refuted :
    let ts : List ℚ := [99 / 100, 3 / 2]
    outcomeAt ts (101 / 100) (init 0) 0 (fun k => (k : ℚ)) 1 = .assimilated 1 ∧
      ¬ writtenAt true 100 ts (101 / 100) (init 0) 0 (fun k => (k : ℚ)) 1 := by
  refine ⟨?_, ?_⟩
  · norm_num [outcomeAt, stAt, step, init, daStep, newDaTime]
  · rintro (h | ⟨-, -, h⟩)
    · norm_num at h
    · norm_num [stAt, step, init, daStep, newDaTime] at h

/-- Frames at 0.5 and 1.5 with time step 1 meet the hypotheses of C90; the second frame is assimilated in step 1. -/
example : let ts : List ℚ := [1 / 2, 3 / 2]
    ts.Pairwise (· ≤ ·) ∧ (∀ t ∈ ts, (0 : ℚ) ≤ t) ∧
    (∀ t ∈ (-1 : ℚ) :: ts, (((1 + 1 : ℕ) : ℚ)) ≠ t + 101 / 100 * 1) ∧
    outcomeAt ts (101 / 100 * 1) (init 0) 0 (fun k => (k : ℚ)) 1 = .assimilated 1 := by
  refine ⟨by norm_num, by norm_num, by norm_num, ?_⟩
  norm_num [outcomeAt, stAt, step, init, daStep, newDaTime]

/-! ## C91 -/

/-- The restart skips the leading frames with a stamp before the restart time. -/
theorem restartIndex_spec (ts : List K) (time : K) (m : ℕ) (h : restartIndex ts time = some m) :
    ∃ hm : m < ts.length, ¬ ts[m] < time ∧ ∀ i (hi : i < ts.length), i < m → ts[i] < time := by
  induction ts generalizing m with
  | nil => cases h
  | cons t rest ih =>
    unfold restartIndex at h
    split at h
    · rename_i ht
      rw [Option.map_eq_some_iff] at h
      obtain ⟨m', hm', rfl⟩ := h
      obtain ⟨h1, h2, h3⟩ := ih m' hm'
      refine ⟨by simpa using h1, by simpa using h2, ?_⟩
      intro i hi hlt
      cases i with
      | zero => simpa using ht
      | succ i => simpa using h3 i (by simpa using hi) (by omega)
    · rename_i ht
      simp only [Option.some.injEq] at h
      subst h
      exact ⟨by simp, by simpa using ht, fun i _ hi => by omega⟩

theorem restartIndex_none (ts : List K) (time : K) : restartIndex ts time = none ↔ ∀ t ∈ ts, t < time := by
  induction ts with
  | nil => simp [restartIndex]
  | cons t rest ih =>
    unfold restartIndex
    split
    · rename_i ht
      simp [ih, ht]
    · rename_i ht
      simp [ht]

/-- C91 (partial: no frame has a stamp before the restart time or at it, i.e. nothing has been assimilated yet): the steps after
the restart assimilate the same frames as those of the uninterrupted run; `n0` steps were done before the checkpoint. -/
theorem C91_frames_partial (ts : List K) (hw : K) (times : ℕ → K) (hmono : StrictMono times) (n0 : ℕ) (hn0 : 0 < n0)
    (hne : ts ≠ []) (hnone : ∀ t ∈ ts, times n0 < t) :
    ∃ s0, restartState ts 0 (times n0) = some s0 ∧
      ∀ k, outcomeAt ts hw s0 n0 (fun j => times (n0 + j)) k = outcomeAt ts hw (init 0) 0 times (n0 + k) := by
  have hfr : ∀ k ≤ n0, (stAt ts hw (init 0) 0 times k).fr = ⟨0, 0⟩ := by
    intro k hk
    rw [stAt_fr]
    induction k with
    | zero => rfl
    | succ k ih =>
      rw [Frames.stAt, ih (by omega)]
      unfold daStep
      cases ht : ts[0]? with
      | none => rfl
      | some t =>
        have h1 := hnone t (List.mem_of_getElem? ht)
        have h2 : times (k + 1) ≤ times n0 := hmono.monotone (by omega)
        simp only
        rw [if_neg (not_le.2 (lt_of_le_of_lt h2 h1))]
  refine ⟨⟨⟨0, 0⟩, -1⟩, ?_, ?_⟩
  · unfold restartState
    cases ts with
    | nil => exact absurd rfl hne
    | cons t rest =>
      have := hnone t (by simp)
      simp [restartIndex, not_lt.2 this.le]
  · have hst : ∀ k, (stAt ts hw ⟨⟨0, 0⟩, -1⟩ n0 (fun j => times (n0 + j)) k).fr = (stAt ts hw (init 0) 0 times (n0 + k)).fr := by
      intro k
      induction k with
      | zero => exact (hfr n0 le_rfl).symm
      | succ k ih =>
        rw [show n0 + (k + 1) = (n0 + k) + 1 by omega]
        simp only [stAt, step, ih]
        congr 2
        omega
    intro k
    simp only [outcomeAt, step, hst k]
    congr 2
    omega

/-- C91 is false as soon as a frame has been assimilated before the checkpoint: whenever some frame (frame 0) has a stamp before
the restart time, the restarted run either reads outside the list of stamps (all stamps are before the restart time) or no
frame is ever assimilated again, and the first step that reaches the stamp of the next frame stops with the exception. -/
theorem C91_frames_refuted (ts : List K) (hw : K) (times : ℕ → K) (hmono : StrictMono times) (n0 : ℕ) (hn0 : 0 < n0)
    (hlen : 0 < ts.length) (hearly : ts[0] < times n0) :
    ((∀ t ∈ ts, t < times n0) ∧ restartState ts 0 (times n0) = none) ∨
    ∃ s0 m, restartState ts 0 (times n0) = some s0 ∧ ∃ hm : m < ts.length, times n0 ≤ ts[m] ∧
      (∀ k, (∀ j < k, times (n0 + j + 1) < ts[m]) →
        outcomeAt ts hw s0 n0 (fun j => times (n0 + j)) k = if ts[m] ≤ times (n0 + k + 1) then .thrown else .nothing) := by
  cases hr : restartIndex ts (times n0) with
  | none =>
    left
    exact ⟨(restartIndex_none ts _).1 hr, by simp [restartState, hr]⟩
  | some m =>
    right
    obtain ⟨hm, h1, h2⟩ := restartIndex_spec ts _ m hr
    refine ⟨⟨⟨m, 0⟩, -1⟩, m, by simp [restartState, hr], hm, not_lt.1 h1, ?_⟩
    have hone : ∀ (k : ℕ), daStep ts ⟨m, 0⟩ (n0 + k + 1) (times (n0 + k)) (times (n0 + (k + 1))) =
        if ts[m] ≤ times (n0 + k + 1) then (.thrown, ⟨1, 1⟩) else (.nothing, ⟨m, 0⟩) := by
      intro k
      unfold daStep
      rw [List.getElem?_eq_getElem hm]
      simp only [← Nat.add_assoc]
      split
      · rw [List.getElem?_eq_getElem hlen]
        have ha : times n0 ≤ times (n0 + k) := hmono.monotone (by omega)
        have hb : times n0 ≤ times (n0 + k + 1) := hmono.monotone (by omega)
        have hc : ts[0] ≤ times (n0 + k + 1) := hearly.le.trans hb
        have hd : ¬ (ts[0] > times (n0 + k) ∨ n0 + k + 1 = 1) := by
          rintro (h | h)
          · exact absurd h (not_lt.2 (hearly.le.trans ha))
          · omega
        simp only [if_pos hc, if_neg hd]
      · rfl
    intro k hk
    have hst : ∀ j ≤ k, (stAt ts hw ⟨⟨m, 0⟩, -1⟩ n0 (fun j => times (n0 + j)) j).fr = ⟨m, 0⟩ := by
      intro j hj
      induction j with
      | zero => rfl
      | succ j ih =>
        simp only [stAt, step, ih (by omega), hone]
        rw [if_neg (not_le.2 (hk j (by omega)))]
    simp only [outcomeAt, step, hst k le_rfl, hone]
    split <;> rfl

/-- Frames at 0.5 and 3.5, time step 1, checkpoint at time 2: the uninterrupted run assimilates frame 1 in the step that ends
at 4, the restarted run stops there with the exception. -/
example : let ts : List ℚ := [1 / 2, 7 / 2]
    outcomeAt ts (101 / 100) (init 0) 0 (fun k => (k : ℚ)) 3 = .assimilated 1 ∧
    ∃ s0, restartState ts 0 2 = some s0 ∧ outcomeAt ts (101 / 100) s0 2 (fun j => (((2 + j : ℕ)) : ℚ)) 1 = .thrown := by
  refine ⟨?_, ⟨⟨1, 0⟩, -1⟩, ?_, ?_⟩
  · norm_num [outcomeAt, stAt, step, init, daStep, newDaTime]
  · norm_num [restartState, restartIndex]
  · norm_num [outcomeAt, stAt, step, daStep, newDaTime]

/-! ### The augmented parameters -/

/-- The state of a member: temperature and augmented parameters (`solution_augmented_ensemble[member]`). -/
structure Member (T : Type) (K : Type*) where
  temperature : T
  params : List K

/-- What `save_checkpoint` stores of a member, lines 2387-2393: block `base_state` only. -/
def saved {T : Type} (m : Member T K) : T := m.temperature

/-- A member after a restart, lines 1672-1701 and 1737-1739: the parameters are read from the database of the member
(`drawn`, the values sampled at start-up). -/
def restored {T : Type} (file : T) (drawn : List K) : Member T K := ⟨file, drawn⟩

/-- C91, parameters (partial: parameters that no assimilation has changed since the start): the restored member is the
checkpointed one. -/
theorem C91_parameters_partial {T : Type} (drawn : List K) (m : Member T K) (h : m.params = drawn) :
    restored (saved m) drawn = m := by
  cases m; simp only at h; subst h; rfl

/-- C91 is false for every member whose parameters were changed by an assimilation: the temperature is restored but the
parameters are those drawn at the start. -/
theorem C91_parameters_refuted {T : Type} (drawn : List K) (m : Member T K) (h : m.params ≠ drawn) :
    (restored (saved m) drawn).temperature = m.temperature ∧ (restored (saved m) drawn).params ≠ m.params :=
  ⟨rfl, fun hc => h hc.symm⟩

example : (⟨(), [1 / 2]⟩ : Member Unit ℚ).params ≠ [1] := by norm_num

end Verif.Driver.EnsembleDA
