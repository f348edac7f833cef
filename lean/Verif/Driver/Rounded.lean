import Verif.Driver.Props
import Verif.Float.Format
import Mathlib.Tactic.Linarith
import Mathlib.Tactic.Ring
import Mathlib.Tactic.NormNum

/-!
# C129: the time loop in floating-point arithmetic

The time loop of `run` (`application/adamantine.hh:1063-1399`, the same as `Verif.Driver.iter`) with every addition, subtraction,
multiplication and division rounded.  Comparisons, `std::min` and `std::max` are exact.  Integers converted to `double` are exact
(they are below `2 ^ 32`).  Simplifications: see `Verif.Float.Format`; no fused multiply-add.
-/

namespace Verif.Driver

open Verif.Float

variable {K : Type*} [Field K] [LinearOrder K] [IsStrictOrderedRing K]

/-- Sampling times of `compute_cells_to_refine`, `adamantine.hh:1120, 565-569`, with rounded operations. -/
def samplesR (R : Rounding K) (time dt : K) (n : ℕ) : List K :=
  let next := R.rd (time + R.rd ((n : K) * dt))                                 -- 1120
  (List.range n).map fun i : ℕ => R.rd (time + R.rd (R.rd ((i : K) / (n : K)) * R.rd (next - time)))

/-- One iteration of the loop body, `adamantine.hh:1063-1399`, with rounded operations. -/
def iterR (R : Rounding K) (c : Cfg K) (s : St K) : St K × Ev K :=
  let tol := R.rd (s.dt * R.rd (1 / 1000000))                                   -- 1074
  let dt := if R.rd (s.time + s.dt) > c.duration then R.rd (c.duration - s.time) else s.dt  -- 1111-1112
  let samples :=                                                                -- 1116-1132
    if (s.n = 1 ∨ s.n % c.refineEvery = 0) ∧ c.thermal = true
    then some (samplesR R s.time dt c.refineEvery) else none
  let opened := R.rd (s.time - s.actEnd) > -tol                                 -- 1139
  let actEnd := if opened then min (R.rd (s.time + max c.activationTime dt)) c.duration else s.actEnd -- 1145-1146
  let activated :=
    if opened then some (lowerBound c.depTimes (R.rd (s.time - tol)), lowerBound c.depTimes actEnd) else none -- 1141-1151
  let time := if c.thermal then R.rd (s.time + dt) else s.time                  -- 1233, 1258 (deal.II returns t + delta_t)
  let checkpoint := if s.n % c.checkpointEvery = 0 then some (time, s.n) else none -- 1349-1369
  let output := decide (s.n % c.outputEvery = 0)                                -- 1389
  (⟨s.n + 1, time, dt, actEnd⟩, ⟨s.n, s.time, time, dt, samples, activated, checkpoint, output⟩)

/-- State before iteration `k` (`while (time < duration)`, line 1063). -/
def stateR (R : Rounding K) (c : Cfg K) (s : St K) : ℕ → St K
  | 0 => s
  | k + 1 => if (stateR R c s k).time < c.duration then (iterR R c (stateR R c s k)).1 else stateR R c s k

/-- The loop is still running before iteration `k`. -/
def RunningR (R : Rounding K) (c : Cfg K) (s : St K) (k : ℕ) : Prop := (stateR R c s k).time < c.duration

/-- What iteration `k` does (meaningful while the loop is running). -/
def evR (R : Rounding K) (c : Cfg K) (s : St K) (k : ℕ) : Ev K := (iterR R c (stateR R c s k)).2

/-- Without rounding this is the model of `Verif.Driver.Model`. -/
theorem iterR_exact (c : Cfg K) (s : St K) : iterR (Rounding.exact K) c s = iter c s := rfl

/-! ## Lemmas -/

section
variable (R : Rounding K)

theorem rd_zero : R.rd 0 = 0 := by
  have := R.rel 0
  rw [abs_zero, mul_zero, sub_zero] at this
  exact abs_eq_zero.1 (le_antisymm this (abs_nonneg _))

theorem rd_nonneg {x : K} (h : 0 ≤ x) : 0 ≤ R.rd x := by
  have := R.mono h
  rwa [rd_zero R] at this

theorem rd_pos {x : K} (h : 0 < x) : 0 < R.rd x := by
  have h1 := R.rel x
  rw [abs_of_pos h] at h1
  have h2 := (abs_le.1 h1).1
  have h3 := mul_lt_mul_of_pos_right R.u_lt h
  linarith

theorem rd_le {x y : K} (hy : R.rd y = y) (h : x ≤ y) : R.rd x ≤ y := by
  have := R.mono h
  rwa [hy] at this

theorem le_rd {x y : K} (hx : R.rd x = x) (h : x ≤ y) : x ≤ R.rd y := by
  have := R.mono h
  rwa [hx] at this

variable (c : Cfg K)

/-- The numbers of the input are numbers of the format: what the program reads from the input file. -/
structure Read : Prop where
  thermal : c.thermal = true
  dt : R.rd c.dt = c.dt
  duration : R.rd c.duration = c.duration
  dt_pos : 0 < c.dt
  duration_pos : 0 < c.duration

theorem stateR_succ (s : St K) (k : ℕ) (h : RunningR R c s k) : stateR R c s (k + 1) = (iterR R c (stateR R c s k)).1 := by
  unfold RunningR at h
  rw [stateR, if_pos h]

theorem stateR_stop (s : St K) (k : ℕ) (h : ¬ RunningR R c s k) : stateR R c s (k + 1) = stateR R c s k := by
  unfold RunningR at h
  rw [stateR, if_neg h]

theorem running_back (s : St K) (k : ℕ) (h : RunningR R c s (k + 1)) : RunningR R c s k := by
  by_contra hc
  rw [RunningR, stateR_stop R c s k hc] at h
  exact hc h

theorem running_le (s : St K) (j k : ℕ) (hjk : j ≤ k) (h : RunningR R c s k) : RunningR R c s j := by
  induction k with
  | zero => rwa [Nat.le_zero.1 hjk]
  | succ k ih =>
    rcases Nat.lt_or_ge j (k + 1) with h1 | h1
    · exact ih (by omega) (running_back R c s k h)
    · rwa [le_antisymm hjk h1]

variable {c}

/-- One iteration of a fresh run whose time step has not been shortened. -/
theorem iter_time (hc : Read R c) (s : St K) (hdt : s.dt = c.dt) (ht : R.rd s.time = s.time) (hrun : s.time < c.duration)
    (h0 : s.time = 0 ∨ c.dt ≤ s.time) :
    let e := (iterR R c s).2
    (R.rd (s.time + c.dt) ≤ c.duration → e.dt = c.dt ∧ e.stop = R.rd (s.time + c.dt)) ∧
    (c.duration < R.rd (s.time + c.dt) → e.dt = c.duration - s.time ∧ e.stop = c.duration ∧ e.dt < c.dt) := by
  have hth := hc.thermal
  simp only [iterR, hth, if_true, hdt]
  constructor
  · intro h
    rw [if_neg (not_lt.2 h)]
    exact ⟨rfl, rfl⟩
  · intro h
    have hlt : c.duration < s.time + c.dt := by
      by_contra hcc
      exact absurd (rd_le R hc.duration (not_lt.1 hcc)) (not_le.2 h)
    have hex : R.rd (c.duration - s.time) = c.duration - s.time := by
      rcases h0 with h0 | h0
      · rw [h0, sub_zero, hc.duration]
      · refine R.sterbenz _ _ hc.duration ht (by linarith) ?_
        have := hc.dt_pos
        linarith
    rw [if_pos h, hex]
    refine ⟨rfl, ?_, by linarith⟩
    rw [add_sub_cancel, hc.duration]

/-- The invariant of a fresh run. -/
theorem fresh (hc : Read R c) (k : ℕ) :
    (RunningR R c (start c) k → (stateR R c (start c) k).n = k + 1) ∧
    R.rd (stateR R c (start c) k).time = (stateR R c (start c) k).time ∧ (stateR R c (start c) k).time ≤ c.duration ∧
    ((stateR R c (start c) k).time = 0 ∧ k = 0 ∨ c.dt ≤ (stateR R c (start c) k).time ∨ (stateR R c (start c) k).time = c.duration) ∧
    (RunningR R c (start c) k → (stateR R c (start c) k).dt = c.dt) := by
  induction k with
  | zero =>
    exact ⟨fun _ => rfl, rd_zero R, hc.duration_pos.le, Or.inl ⟨rfl, rfl⟩, fun _ => rfl⟩
  | succ k ih =>
    obtain ⟨i1, i2, i3, i4, i5⟩ := ih
    by_cases hr : RunningR R c (start c) k
    · have i1 := i1 hr
      have h0 : (stateR R c (start c) k).time = 0 ∨ c.dt ≤ (stateR R c (start c) k).time := by
        rcases i4 with h | h | h
        · exact Or.inl h.1
        · exact Or.inr h
        · exact absurd hr (by rw [RunningR, h]; exact lt_irrefl _)
      obtain ⟨a1, a2⟩ := iter_time R hc _ (i5 hr) i2 hr h0
      have hs := stateR_succ R c (start c) k hr
      have hn : (stateR R c (start c) (k + 1)).n = k + 2 := by rw [hs]; simp only [iterR]; rw [i1]
      have htm : (stateR R c (start c) (k + 1)).time = (iterR R c (stateR R c (start c) k)).2.stop := by rw [hs]; rfl
      have hdt : (stateR R c (start c) (k + 1)).dt = (iterR R c (stateR R c (start c) k)).2.dt := by rw [hs]; rfl
      have ht0 : 0 ≤ (stateR R c (start c) k).time := by
        rcases h0 with h | h
        · rw [h]
        · exact le_trans hc.dt_pos.le h
      refine ⟨fun _ => hn, ?_⟩
      by_cases hle : R.rd ((stateR R c (start c) k).time + c.dt) ≤ c.duration
      · obtain ⟨b1, b2⟩ := a1 hle
        rw [htm, hdt, b1, b2]
        exact ⟨R.idem _, hle, Or.inr (Or.inl (le_rd R hc.dt (by linarith))), fun _ => rfl⟩
      · obtain ⟨b1, b2, b3⟩ := a2 (not_le.1 hle)
        refine ⟨by rw [htm, b2, hc.duration], by rw [htm, b2], Or.inr (Or.inr (by rw [htm, b2])), fun h => ?_⟩
        rw [RunningR, htm, b2] at h
        exact absurd h (lt_irrefl _)
    · rw [stateR_stop R c _ k hr]
      refine ⟨fun h => absurd (running_back R c _ k h) hr, i2, i3, ?_, fun h => ?_⟩
      · rcases i4 with h | h | h
        · exact absurd (by rw [RunningR, h.1]; exact hc.duration_pos) hr
        · exact Or.inr (Or.inl h)
        · exact Or.inr (Or.inr h)
      · exact absurd (running_back R c _ k h) hr

/-- The state of a running fresh run. -/
theorem fresh_running (hc : Read R c) (k : ℕ) (hr : RunningR R c (start c) k) :
    (stateR R c (start c) k).n = k + 1 ∧ (stateR R c (start c) k).dt = c.dt ∧
    R.rd (stateR R c (start c) k).time = (stateR R c (start c) k).time ∧ 0 ≤ (stateR R c (start c) k).time ∧
    ((stateR R c (start c) k).time = 0 ∨ c.dt ≤ (stateR R c (start c) k).time) := by
  obtain ⟨i1, i2, i3, i4, i5⟩ := fresh R hc k
  have i1 := i1 hr
  have h0 : (stateR R c (start c) k).time = 0 ∨ c.dt ≤ (stateR R c (start c) k).time := by
    rcases i4 with h | h | h
    · exact Or.inl h.1
    · exact Or.inr h
    · exact absurd hr (by rw [RunningR, h]; exact lt_irrefl _)
  refine ⟨i1, i5 hr, i2, ?_, h0⟩
  rcases h0 with h | h
  · rw [h]
  · exact le_trans hc.dt_pos.le h

theorem fresh_next (k : ℕ) (hr : RunningR R c (start c) k) :
    (stateR R c (start c) (k + 1)).time = (evR R c (start c) k).stop := by
  rw [stateR_succ R c _ k hr]; rfl

/-! ## Theorems -/

/-- C129: whatever the rounding errors, if the loop of a new run stops, the time reached is the duration, exactly; every step before is
numbered, starts where the one before ended, does not go back, does not pass the duration, uses the time step of the input or less, and
every step but the last uses exactly the time step of the input. -/
theorem C129_final_time (hc : Read R c) (k : ℕ) :
    (¬ RunningR R c (start c) k → (stateR R c (start c) k).time = c.duration) ∧
    (RunningR R c (start c) k →
      (evR R c (start c) k).n = k + 1 ∧
      (evR R c (start c) k).start ≤ (evR R c (start c) k).stop ∧ (evR R c (start c) k).stop ≤ c.duration ∧
      0 < (evR R c (start c) k).dt ∧ (evR R c (start c) k).dt ≤ c.dt ∧
      (evR R c (start c) k).stop = R.rd ((evR R c (start c) k).start + (evR R c (start c) k).dt) ∧
      (RunningR R c (start c) (k + 1) → (evR R c (start c) k).dt = c.dt ∧
        (evR R c (start c) (k + 1)).start = (evR R c (start c) k).stop)) := by
  constructor
  · intro h
    obtain ⟨-, -, i3, -⟩ := fresh R hc k
    exact le_antisymm i3 (not_lt.1 h)
  · intro hr
    obtain ⟨i1, i2, i3, i4, i5⟩ := fresh_running R hc k hr
    obtain ⟨a1, a2⟩ := iter_time R hc _ i2 i3 hr i5
    have hst : (evR R c (start c) k).start = (stateR R c (start c) k).time := rfl
    have hstop : (evR R c (start c) k).stop = R.rd ((evR R c (start c) k).start + (evR R c (start c) k).dt) := by
      unfold evR iterR
      simp only [hc.thermal, if_true]
    have hnext := fresh_next R k hr
    have hlast : (evR R c (start c) (k + 1)).start = (evR R c (start c) k).stop := hnext
    refine ⟨i1, ?_⟩
    by_cases hle : R.rd ((stateR R c (start c) k).time + c.dt) ≤ c.duration
    · obtain ⟨b1, b2⟩ := a1 hle
      have b1' : (evR R c (start c) k).dt = c.dt := b1
      have b2' : (evR R c (start c) k).stop = R.rd ((stateR R c (start c) k).time + c.dt) := b2
      refine ⟨?_, by rw [b2']; exact hle, by rw [b1']; exact hc.dt_pos, b1'.le, hstop, fun _ => ⟨b1', hlast⟩⟩
      rw [b2', hst]
      exact le_rd R i3 (by linarith [hc.dt_pos])
    · obtain ⟨b1, b2, b3⟩ := a2 (not_le.1 hle)
      have b1' : (evR R c (start c) k).dt = c.duration - (stateR R c (start c) k).time := b1
      have b2' : (evR R c (start c) k).stop = c.duration := b2
      have hr' : (stateR R c (start c) k).time < c.duration := hr
      refine ⟨by rw [b2', hst]; exact hr'.le, b2'.le, by rw [b1']; linarith, le_of_lt b3, hstop, fun h => ?_⟩
      rw [RunningR, hnext, b2'] at h
      exact absurd h (lt_irrefl _)

/-- C129: the times at which an iteration looks for the beam before refining the mesh (none unless it is the first iteration or its number
is a multiple of the refinement interval): as many as the interval has steps, in increasing order, the first the time of the iteration, none
before it, and none after the end of the interval, which the program computes as `time + n * dt`; the last for iterations from half of
that end on or at time 0 (otherwise `next - time` is rounded). -/
theorem C129_samples (hc : Read R c) (h1 : R.rd 1 = 1) (he : 0 < c.refineEvery) (k : ℕ) (hr : RunningR R c (start c) k) :
    let e := evR R c (start c) k
    let next := R.rd (e.start + R.rd ((c.refineEvery : K) * e.dt))
    (e.samples.isSome ↔ k = 0 ∨ (k + 1) % c.refineEvery = 0) ∧
    ∀ l, e.samples = some l → l.length = c.refineEvery ∧ l.head? = some e.start ∧ l.Pairwise (· ≤ ·) ∧
      ∀ x ∈ l, e.start ≤ x ∧ (e.start = 0 ∨ next ≤ 2 * e.start → x ≤ next) := by
  intro e next
  obtain ⟨i1, i2, i3, i4, i5⟩ := fresh_running R hc k hr
  obtain ⟨f1, f2⟩ := C129_final_time R hc k
  obtain ⟨g1, g2, g3, g4, g5, g6, g7⟩ := f2 hr
  have hst : e.start = (stateR R c (start c) k).time := rfl
  have hpos : 0 ≤ e.start := by
    rcases i5 with h | h
    · rw [hst, h]
    · rw [hst]; exact le_trans hc.dt_pos.le h
  have hsam : e.samples = if ((stateR R c (start c) k).n = 1 ∨ (stateR R c (start c) k).n % c.refineEvery = 0) ∧ c.thermal = true
      then some (samplesR R e.start e.dt c.refineEvery) else none := rfl
  have hn : (stateR R c (start c) k).n = k + 1 := g1
  rw [hn, hc.thermal] at hsam
  constructor
  · rw [hsam]
    by_cases h : (k + 1 = 1 ∨ (k + 1) % c.refineEvery = 0) ∧ true = true
    · rw [if_pos h]; simp only [Option.isSome_some, true_iff]
      exact h.1.imp (by omega) id
    · rw [if_neg h]; simp only [Option.isSome_none, Bool.false_eq_true, false_iff]
      intro h'
      exact h ⟨h'.imp (by omega) id, rfl⟩
  · intro l hl
    have hl' : l = samplesR R e.start e.dt c.refineEvery := by
      rw [hsam] at hl
      by_cases h : (k + 1 = 1 ∨ (k + 1) % c.refineEvery = 0) ∧ true = true
      · rw [if_pos h] at hl; exact (Option.some.inj hl).symm
      · rw [if_neg h] at hl; cases hl
    have hrdt : R.rd e.start = e.start := i3
    have hw0 : e.start ≤ next := le_rd R hrdt (by
      have : 0 ≤ R.rd ((c.refineEvery : K) * e.dt) := rd_nonneg R (mul_nonneg (Nat.cast_nonneg _) g4.le)
      linarith)
    have hw : 0 ≤ R.rd (next - e.start) := rd_nonneg R (by linarith)
    have hnpos : (0 : K) < c.refineEvery := by exact_mod_cast he
    rw [hl']
    unfold samplesR
    refine ⟨by simp, ?_, ?_, ?_⟩
    · obtain ⟨n, hn'⟩ := Nat.exists_eq_succ_of_ne_zero he.ne'
      rw [hn', List.range_succ_eq_map]
      simp only [List.map_cons, List.head?_cons, Nat.cast_zero, zero_div, rd_zero, zero_mul, add_zero, hrdt]
    · rw [List.pairwise_map]
      refine List.Pairwise.imp ?_ List.pairwise_lt_range
      intro i j hij
      refine R.mono (add_le_add_right (R.mono (mul_le_mul_of_nonneg_right (R.mono ?_) hw)) _)
      exact div_le_div_of_nonneg_right (by exact_mod_cast hij.le) hnpos.le
    · intro x hx
      obtain ⟨i, hi, rfl⟩ := List.mem_map.1 hx
      have hi' : i < c.refineEvery := List.mem_range.1 hi
      have hfrac : 0 ≤ R.rd ((i : K) / (c.refineEvery : K)) := rd_nonneg R (div_nonneg (Nat.cast_nonneg _) hnpos.le)
      have hfrac1 : R.rd ((i : K) / (c.refineEvery : K)) ≤ 1 :=
        rd_le R h1 ((div_le_one hnpos).2 (by exact_mod_cast hi'.le))
      constructor
      · exact le_rd R hrdt (by
          have : 0 ≤ R.rd (R.rd ((i : K) / (c.refineEvery : K)) * R.rd (next - e.start)) := rd_nonneg R (mul_nonneg hfrac hw)
          linarith)
      · intro h
        have hex : R.rd (next - e.start) = next - e.start := by
          rcases h with h | h
          · rw [h, sub_zero]; exact R.idem _
          · exact R.sterbenz _ _ (R.idem _) hrdt h (by linarith)
        have hprod : R.rd (R.rd ((i : K) / (c.refineEvery : K)) * R.rd (next - e.start)) ≤ R.rd (next - e.start) :=
          rd_le R (R.idem _) (by
            have := mul_le_mul_of_nonneg_right hfrac1 hw
            linarith)
        refine rd_le R (R.idem _) ?_
        have hsum := le_trans hprod hex.le
        change e.start + _ ≤ next
        exact le_sub_iff_add_le'.1 hsum

/-- C129: the loop stops if the time step is larger than the rounding error of a time, `u (duration + time_step) < time_step`; time then
strictly increases in every step. -/
theorem C129_terminates [Archimedean K] (hc : Read R c) (hu : R.u * (c.duration + c.dt) < c.dt) :
    (∃ N : ℕ, ∀ k, RunningR R c (start c) k ↔ k < N) ∧
    ∀ k, RunningR R c (start c) k → (evR R c (start c) k).start < (evR R c (start c) k).stop := by
  have hu0 : 0 ≤ R.u := by
    have h1 := R.rel 1
    rw [abs_one, mul_one] at h1
    exact le_trans (abs_nonneg _) h1
  set δ := c.dt - R.u * (c.duration + c.dt) with hδ
  have hδ0 : 0 < δ := by linarith
  -- an unshortened step advances by at least `δ`
  have adv : ∀ k, RunningR R c (start c) k → R.rd ((stateR R c (start c) k).time + c.dt) ≥ (stateR R c (start c) k).time + δ := by
    intro k hr
    obtain ⟨-, -, -, i4, -⟩ := fresh_running R hc k hr
    have hr' : (stateR R c (start c) k).time < c.duration := hr
    have h1 := R.rel ((stateR R c (start c) k).time + c.dt)
    have hp : 0 < (stateR R c (start c) k).time + c.dt := by linarith [hc.dt_pos]
    rw [abs_of_pos hp] at h1
    have h2 := (abs_le.1 h1).1
    have h3 : R.u * ((stateR R c (start c) k).time + c.dt) ≤ R.u * (c.duration + c.dt) :=
      mul_le_mul_of_nonneg_left (by linarith) hu0
    rw [hδ]
    linarith
  have stepAdv : ∀ k, RunningR R c (start c) k →
      (evR R c (start c) k).stop = c.duration ∨ (stateR R c (start c) k).time + δ ≤ (evR R c (start c) k).stop := by
    intro k hr
    obtain ⟨i1, i2, i3, i4, i5⟩ := fresh_running R hc k hr
    obtain ⟨a1, a2⟩ := iter_time R hc _ i2 i3 hr i5
    by_cases hle : R.rd ((stateR R c (start c) k).time + c.dt) ≤ c.duration
    · right
      have := (a1 hle).2
      rw [evR, this]
      exact adv k hr
    · left
      exact (a2 (not_le.1 hle)).2.1
  have grow : ∀ k, RunningR R c (start c) k → (k : K) * δ ≤ (stateR R c (start c) k).time := by
    intro k
    induction k with
    | zero => intro _; simp [stateR, start]
    | succ k ih =>
      intro h
      have hr := running_back R c _ k h
      have h1 := ih hr
      rw [RunningR, fresh_next R k hr] at h
      rw [fresh_next R k hr]
      rcases stepAdv k hr with h2 | h2
      · rw [h2] at h; exact absurd h (lt_irrefl _)
      · push_cast; linarith
  constructor
  · obtain ⟨M, hM⟩ := Archimedean.arch c.duration hδ0
    rw [nsmul_eq_mul] at hM
    have hstop : ∃ m, ¬ RunningR R c (start c) m := by
      refine ⟨M, fun h => ?_⟩
      have h' : (stateR R c (start c) M).time < c.duration := h
      linarith [grow M h]
    classical
    refine ⟨Nat.find hstop, fun k => ⟨fun hr => ?_, fun hk => ?_⟩⟩
    · by_contra hc'
      exact Nat.find_spec hstop (running_le R c _ _ _ (not_lt.1 hc') hr)
    · exact not_not.1 (Nat.find_min hstop hk)
  · intro k hr
    have hr' : (stateR R c (start c) k).time < c.duration := hr
    have hst : (evR R c (start c) k).start = (stateR R c (start c) k).time := rfl
    rcases stepAdv k hr with h2 | h2
    · rw [h2]; exact hr'
    · rw [hst]; linarith

/-- The times of the steps differ from the multiples of the time step by at most one rounding error per step. -/
theorem C129_accuracy (hc : Read R c) (k : ℕ) (hr : RunningR R c (start c) k) :
    |(evR R c (start c) k).start - (k : K) * c.dt| ≤ (k : K) * (R.u * (c.duration + c.dt)) := by
  have hu0 : 0 ≤ R.u := by
    have h1 := R.rel 1
    rw [abs_one, mul_one] at h1
    exact le_trans (abs_nonneg _) h1
  change |(stateR R c (start c) k).time - (k : K) * c.dt| ≤ _
  induction k with
  | zero => simp [stateR, start]
  | succ k ih =>
    have hr0 := running_back R c _ k hr
    have h := ih hr0
    obtain ⟨i1, i2, i3, i4, i5⟩ := fresh_running R hc k hr0
    obtain ⟨a1, a2⟩ := iter_time R hc _ i2 i3 hr0 i5
    have hr0' : (stateR R c (start c) k).time < c.duration := hr0
    by_cases hle : R.rd ((stateR R c (start c) k).time + c.dt) ≤ c.duration
    · have b2 : (evR R c (start c) k).stop = R.rd ((stateR R c (start c) k).time + c.dt) := (a1 hle).2
      rw [fresh_next R k hr0, b2]
      have h1 := R.rel ((stateR R c (start c) k).time + c.dt)
      have hp : 0 < (stateR R c (start c) k).time + c.dt := by linarith [hc.dt_pos]
      rw [abs_of_pos hp] at h1
      have h3 : R.u * ((stateR R c (start c) k).time + c.dt) ≤ R.u * (c.duration + c.dt) :=
        mul_le_mul_of_nonneg_left (by linarith) hu0
      have h4 := abs_le.1 h1
      have h5 := abs_le.1 h
      push_cast
      rw [abs_le]
      constructor <;> linarith [h4.1, h4.2, h5.1, h5.2]
    · have b2 : (evR R c (start c) k).stop = c.duration := (a2 (not_le.1 hle)).2.1
      rw [RunningR, fresh_next R k hr0, b2] at hr
      exact absurd hr (lt_irrefl _)

/-- C129: let `N + 1` be the number of steps in exact arithmetic.  If the accumulated rounding errors are below one time step, the program
does `N`, `N + 1` or `N + 2` steps. -/
theorem C129_step_count (hc : Read R c) (N : ℕ) (h1 : (N : K) * c.dt < c.duration) (h2 : c.duration ≤ ((N + 1 : ℕ) : K) * c.dt)
    (hu : ((N + 1 : ℕ) : K) * (R.u * (c.duration + c.dt)) < c.dt) :
    (∀ k < N, RunningR R c (start c) k) ∧ ¬ RunningR R c (start c) (N + 2) := by
  have hu0 : 0 ≤ R.u := by
    have h1 := R.rel 1
    rw [abs_one, mul_one] at h1
    exact le_trans (abs_nonneg _) h1
  have hE : 0 ≤ R.u * (c.duration + c.dt) := mul_nonneg hu0 (by linarith [hc.dt_pos, hc.duration_pos])
  have mono : ∀ j : ℕ, j ≤ N + 1 → (j : K) * (R.u * (c.duration + c.dt)) < c.dt := by
    intro j hj
    refine lt_of_le_of_lt (mul_le_mul_of_nonneg_right ?_ hE) hu
    exact_mod_cast hj
  constructor
  · intro k
    induction k with
    | zero => intro _; exact hc.duration_pos
    | succ k ih =>
      intro hk
      have hr := ih (by omega)
      -- the step before advances by at most the time step plus its error
      have ha := (abs_le.1 (C129_accuracy R hc k hr)).2
      obtain ⟨i1, i2, i3, i4, i5⟩ := fresh_running R hc k hr
      obtain ⟨a1, a2⟩ := iter_time R hc _ i2 i3 hr i5
      have hr' : (stateR R c (start c) k).time < c.duration := hr
      have hst : (evR R c (start c) k).start = (stateR R c (start c) k).time := rfl
      rw [hst] at ha
      have hp : 0 < (stateR R c (start c) k).time + c.dt := by linarith [hc.dt_pos]
      have h3 := R.rel ((stateR R c (start c) k).time + c.dt)
      rw [abs_of_pos hp] at h3
      have h4 : R.u * ((stateR R c (start c) k).time + c.dt) ≤ R.u * (c.duration + c.dt) :=
        mul_le_mul_of_nonneg_left (by linarith) hu0
      have h5 := (abs_le.1 h3).2
      have h6 := mono (k + 1) (by omega)
      have hk' : ((k : K) + 1 + 1) * c.dt ≤ (N : K) * c.dt := by
        refine mul_le_mul_of_nonneg_right ?_ hc.dt_pos.le
        exact_mod_cast hk
      push_cast at h6
      have h7 : R.rd ((stateR R c (start c) k).time + c.dt) < c.duration := by linarith
      have b2 : (evR R c (start c) k).stop = R.rd ((stateR R c (start c) k).time + c.dt) := (a1 h7.le).2
      rw [RunningR, fresh_next R k hr, b2]
      exact h7
  · intro h
    have hr := running_back R c _ _ h
    have ha := (abs_le.1 (C129_accuracy R hc (N + 1) hr)).1
    obtain ⟨i1, i2, i3, i4, i5⟩ := fresh_running R hc (N + 1) hr
    obtain ⟨a1, a2⟩ := iter_time R hc _ i2 i3 hr i5
    have hst : (evR R c (start c) (N + 1)).start = (stateR R c (start c) (N + 1)).time := rfl
    rw [hst] at ha
    rw [RunningR, fresh_next R (N + 1) hr] at h
    have hge : c.duration ≤ R.rd ((stateR R c (start c) (N + 1)).time + c.dt) := le_rd R hc.duration (by linarith)
    by_cases hle : R.rd ((stateR R c (start c) (N + 1)).time + c.dt) ≤ c.duration
    · have b2 : (evR R c (start c) (N + 1)).stop = R.rd ((stateR R c (start c) (N + 1)).time + c.dt) := (a1 hle).2
      rw [b2] at h
      exact absurd h (not_lt.2 hge)
    · have b2 : (evR R c (start c) (N + 1)).stop = c.duration := (a2 (not_le.1 hle)).2.1
      rw [b2] at h
      exact absurd h (lt_irrefl _)

/-! ### Deposition windows -/

theorem tol_pos {s : St K} (h : 0 < s.dt) : 0 < R.rd (s.dt * R.rd (1 / 1000000)) :=
  rd_pos R (mul_pos h (rd_pos R (by norm_num)))

/-- With an activation time of at most one time step, the window opens in every step and ends where the step ends. -/
theorem window (hc : Read R c) (ha : c.activationTime ≤ c.dt) (k : ℕ) (hr : RunningR R c (start c) k) :
    (k ≠ 0 → (stateR R c (start c) k).actEnd = (stateR R c (start c) k).time) ∧
    (evR R c (start c) k).activated =
      some (lowerBound c.depTimes (R.rd ((evR R c (start c) k).start - R.rd (c.dt * R.rd (1 / 1000000)))),
        lowerBound c.depTimes (evR R c (start c) k).stop) ∧
    (iterR R c (stateR R c (start c) k)).1.actEnd = (evR R c (start c) k).stop := by
  induction k with
  | zero =>
    refine ⟨fun h => absurd rfl h, ?_⟩
    exact window_aux hc ha 0 hr (by
      change R.rd (0 - -1) > -_
      have h1 := rd_pos R (show (0 : K) < 0 - -1 by norm_num)
      have h2 := tol_pos R (s := stateR R c (start c) 0) hc.dt_pos
      exact lt_trans (neg_lt_zero.2 h2) h1)
  | succ k ih =>
    have hr0 := running_back R c _ k hr
    obtain ⟨-, -, j3⟩ := ih hr0
    have hst := stateR_succ R c (start c) k hr0
    have he : (stateR R c (start c) (k + 1)).actEnd = (stateR R c (start c) (k + 1)).time := by
      rw [fresh_next R k hr0, ← j3, hst]
    refine ⟨fun _ => he, ?_⟩
    refine window_aux hc ha (k + 1) hr ?_
    rw [he, sub_self, rd_zero R]
    have hdt : (stateR R c (start c) (k + 1)).dt = c.dt := (fresh_running R hc (k + 1) hr).2.1
    have h2 := tol_pos R (s := stateR R c (start c) (k + 1)) (by rw [hdt]; exact hc.dt_pos)
    linarith
where
  window_aux (hc : Read R c) (ha : c.activationTime ≤ c.dt) (k : ℕ) (hr : RunningR R c (start c) k)
      (ho : R.rd ((stateR R c (start c) k).time - (stateR R c (start c) k).actEnd) >
        -R.rd ((stateR R c (start c) k).dt * R.rd (1 / 1000000))) :
      (evR R c (start c) k).activated =
        some (lowerBound c.depTimes (R.rd ((evR R c (start c) k).start - R.rd (c.dt * R.rd (1 / 1000000)))),
          lowerBound c.depTimes (evR R c (start c) k).stop) ∧
      (iterR R c (stateR R c (start c) k)).1.actEnd = (evR R c (start c) k).stop := by
    obtain ⟨i1, i2, i3, i4, i5⟩ := fresh_running R hc k hr
    obtain ⟨a1, a2⟩ := iter_time R hc _ i2 i3 hr i5
    have hstop : (evR R c (start c) k).stop = R.rd ((evR R c (start c) k).start + (evR R c (start c) k).dt) :=
      ((C129_final_time R hc k).2 hr).2.2.2.2.2.1
    have hend : min (R.rd ((stateR R c (start c) k).time + max c.activationTime (evR R c (start c) k).dt)) c.duration =
        (evR R c (start c) k).stop := by
      by_cases hle : R.rd ((stateR R c (start c) k).time + c.dt) ≤ c.duration
      · obtain ⟨b1, b2⟩ := a1 hle
        have b1' : (evR R c (start c) k).dt = c.dt := b1
        have b2' : (evR R c (start c) k).stop = R.rd ((stateR R c (start c) k).time + c.dt) := b2
        rw [b1', b2', max_eq_right ha, min_eq_left hle]
      · obtain ⟨b1, b2, b3⟩ := a2 (not_le.1 hle)
        have b2' : (evR R c (start c) k).stop = c.duration := b2
        rw [b2', min_eq_right]
        rw [← b2', hstop]
        exact R.mono (by gcongr; exacts [le_rfl, le_max_right _ _])
    have hE : (iterR R c (stateR R c (start c) k)).1.actEnd =
        min (R.rd ((stateR R c (start c) k).time + max c.activationTime (evR R c (start c) k).dt)) c.duration := by
      unfold evR iterR
      simp only
      rw [if_pos ho]
    refine ⟨?_, hE.trans hend⟩
    rw [← hend, ← i2]
    unfold evR iterR
    simp only
    rw [if_pos ho, if_pos ho]

/-- C129: with an activation time of at most one time step, rounding loses no deposition: every box whose time is before the duration is in
the range of the step during which it is due. -/
theorem C129_deposition [Archimedean K] (hc : Read R c) (ha : c.activationTime ≤ c.dt) (hu : R.u * (c.duration + c.dt) < c.dt)
    (hs : c.depTimes.Pairwise (· ≤ ·)) (i : ℕ) (hi : i < c.depTimes.length) (h0 : 0 ≤ c.depTimes[i]) (h1 : c.depTimes[i] < c.duration) :
    ∃ k, RunningR R c (start c) k ∧ (evR R c (start c) k).start ≤ c.depTimes[i] ∧ c.depTimes[i] < (evR R c (start c) k).stop ∧
      ∃ a b, (evR R c (start c) k).activated = some (a, b) ∧ a ≤ i ∧ i < b := by
  obtain ⟨⟨N, hN⟩, -⟩ := C129_terminates R hc hu
  have hNstop : ¬ RunningR R c (start c) N := fun h => absurd ((hN N).1 h) (lt_irrefl _)
  have hex : ∃ k, c.depTimes[i] < (stateR R c (start c) k).time :=
    ⟨N, by rw [(C129_final_time R hc N).1 hNstop]; exact h1⟩
  classical
  set m := Nat.find hex with hm
  have hspec : c.depTimes[i] < (stateR R c (start c) m).time := Nat.find_spec hex
  have hm0 : m ≠ 0 := by
    intro h
    rw [h] at hspec
    exact absurd h0 (not_le.2 hspec)
  obtain ⟨k, hk⟩ := Nat.exists_eq_succ_of_ne_zero hm0
  have hmin : ¬ c.depTimes[i] < (stateR R c (start c) k).time := Nat.find_min hex (by omega)
  have hr : RunningR R c (start c) k := by
    by_contra hc'
    rw [hk, stateR_stop R c _ k hc'] at hspec
    exact hmin hspec
  have hstart : (evR R c (start c) k).start = (stateR R c (start c) k).time := rfl
  rw [hk, Nat.succ_eq_add_one, fresh_next R k hr] at hspec
  refine ⟨k, hr, by rw [hstart]; exact not_lt.1 hmin, hspec, _, _, (window R hc ha k hr).2.1, ?_, lt_lowerBound_of hi hs hspec⟩
  apply lowerBound_le_of hi hs
  refine le_trans (rd_le R (fresh_running R hc k hr).2.2.1 (y := (stateR R c (start c) k).time) ?_) (not_lt.1 hmin)
  rw [hstart]
  have := rd_pos R (mul_pos hc.dt_pos (rd_pos R (show (0 : K) < 1 / 1000000 by norm_num)))
  linarith

/-! ### Restart -/

/-- C129: rounding does not disturb a restart: with an activation time of at most one time step, every step after a restart from a
checkpoint is identical, to the last bit, to the step of the uninterrupted run. -/
theorem C129_restart (hc : Read R c) (ha : c.activationTime ≤ c.dt) (k : ℕ) (cp : K × ℕ) (hk' : RunningR R c (start c) (k + 1))
    (hcp : (evR R c (start c) k).checkpoint = some cp) (j : ℕ) :
    (RunningR R c (restart c cp) j ↔ RunningR R c (start c) (k + 1 + j)) ∧
    (RunningR R c (restart c cp) j → evR R c (restart c cp) j = evR R c (start c) (k + 1 + j)) := by
  have hr := running_back R c _ k hk'
  obtain ⟨i1, i2, i3, i4, -⟩ := fresh_running R hc (k + 1) hk'
  have hcp' : cp = ((stateR R c (start c) (k + 1)).time, k + 1) := by
    have e : (evR R c (start c) k).checkpoint = if (stateR R c (start c) k).n % c.checkpointEvery = 0 then
        some ((evR R c (start c) k).stop, (stateR R c (start c) k).n) else none := rfl
    rw [e] at hcp
    by_cases h1 : (stateR R c (start c) k).n % c.checkpointEvery = 0
    · rw [if_pos h1] at hcp
      rw [← Option.some.inj hcp, fresh_next R k hr, (fresh_running R hc k hr).1]
    · rw [if_neg h1] at hcp
      cases hcp
  set t := stateR R c (start c) (k + 1) with ht
  have hact : t.actEnd = t.time := (window R hc ha (k + 1) hk').1 (by omega)
  have hR : restart c cp = { t with actEnd := -1 } := by
    rw [hcp']
    unfold restart
    ext
    · change k + 1 + 1 = t.n; rw [i1]
    · rfl
    · exact i2.symm
    · rfl
  have htol : 0 < R.rd (t.dt * R.rd (1 / 1000000)) := tol_pos R (by rw [i2]; exact hc.dt_pos)
  -- the first iteration opens the window in both runs
  have hfirst : iterR R c (restart c cp) = iterR R c t := by
    have o1 : R.rd (t.time - -1) > -R.rd (t.dt * R.rd (1 / 1000000)) := by
      have := rd_nonneg R (show (0 : K) ≤ t.time - -1 by linarith)
      linarith
    have o2 : R.rd (t.time - t.actEnd) > -R.rd (t.dt * R.rd (1 / 1000000)) := by
      rw [hact, sub_self, rd_zero R]
      linarith
    rw [hR]
    unfold iterR
    simp only
    rw [if_pos o1, if_pos o2, if_pos o1, if_pos o2]
  have hrun0 : RunningR R c (restart c cp) 0 := by
    change (restart c cp).time < c.duration
    rw [hcp']
    exact hk'
  have hst : ∀ j, stateR R c (restart c cp) (j + 1) = stateR R c (start c) (k + 1 + (j + 1)) := by
    intro j
    induction j with
    | zero =>
      rw [stateR_succ R c _ 0 hrun0, show k + 1 + (0 + 1) = (k + 1) + 1 from rfl, stateR_succ R c _ (k + 1) hk']
      exact congrArg Prod.fst hfirst
    | succ j ih =>
      change (if (stateR R c (restart c cp) (j + 1)).time < c.duration then (iterR R c (stateR R c (restart c cp) (j + 1))).1
          else stateR R c (restart c cp) (j + 1)) =
        if (stateR R c (start c) (k + 1 + (j + 1))).time < c.duration then (iterR R c (stateR R c (start c) (k + 1 + (j + 1)))).1
          else stateR R c (start c) (k + 1 + (j + 1))
      rw [ih]
  cases j with
  | zero =>
    refine ⟨⟨fun _ => hk', fun _ => hrun0⟩, fun _ => ?_⟩
    exact congrArg Prod.snd hfirst
  | succ j =>
    refine ⟨?_, fun _ => ?_⟩
    · unfold RunningR
      rw [hst j]
    · unfold evR
      rw [hst j]

/-- One unshortened step of a fresh run, for evaluations. -/
theorem step_to (hc : Read R c) (k : ℕ) (t t' : K) (hk : (stateR R c (start c) k).time = t) (hr : t < c.duration)
    (h : R.rd (t + c.dt) = t') (h' : t' ≤ c.duration) : (stateR R c (start c) (k + 1)).time = t' := by
  have hr' : RunningR R c (start c) k := by rw [RunningR, hk]; exact hr
  obtain ⟨i1, i2, i3, i4, i5⟩ := fresh_running R hc k hr'
  obtain ⟨a1, -⟩ := iter_time R hc _ i2 i3 hr' i5
  rw [fresh_next R k hr']
  rw [hk] at a1
  have := (a1 (by rw [h]; exact h')).2
  rw [evR, this, h]

end

/-! ## Concrete runs in `double` -/

/-- `time_step = 0.1` and `duration = 1` as read by the program. -/
def tenth : Cfg ℚ := ⟨true, 3602879701896397 / 2 ^ 55, 1, 0, 10, 10, 3, [1 / 2]⟩

theorem tenth_read : Read double tenth where
  thermal := rfl
  dt := round_fixed 53 (by norm_num) tenth.dt ⟨3602879701896397, -55, by norm_num, by norm_num [tenth]⟩
  duration := round_fixed 53 (by norm_num) tenth.duration ⟨1, 0, by norm_num, by norm_num [tenth]⟩
  dt_pos := by norm_num [tenth]
  duration_pos := by norm_num [tenth]

/-- The hypotheses of the theorems above are met by this input. -/
example : tenth.dt = double.rd (1 / 10) ∧ tenth.activationTime ≤ tenth.dt ∧ double.u * (tenth.duration + tenth.dt) < tenth.dt ∧
    ((9 + 1 : ℕ) : ℚ) * (double.u * (tenth.duration + tenth.dt)) < tenth.dt ∧ ((9 : ℕ) : ℚ) * tenth.dt < tenth.duration ∧
    tenth.duration ≤ ((9 + 1 : ℕ) : ℚ) * tenth.dt := by
  refine ⟨?_, ?_, ?_, ?_, ?_, ?_⟩
  · change _ = round 53 (1 / 10)
    rw [round_eval 53 (1 / 10) (-4) 7205759403792794 (by norm_num) (by norm_num) (by norm_num [nearestEven])]
    norm_num [tenth]
  all_goals norm_num [tenth, double, binary]

/-- The hypotheses of `C129_samples` hold for this run; its first and its tenth iteration look for the beam. -/
example : double.rd 1 = 1 ∧ tenth.refineEvery = 10 :=
  ⟨round_fixed 53 (by norm_num) (1 : ℚ) ⟨1, 0, by norm_num, by norm_num⟩, rfl⟩

/-- The times of the first steps, as computed by the program. -/
theorem tenth_times :
    (stateR double tenth (start tenth) 1).time = 3602879701896397 / 36028797018963968 ∧
    (stateR double tenth (start tenth) 2).time = 3602879701896397 / 18014398509481984 ∧
    (stateR double tenth (start tenth) 3).time = 1351079888211149 / 4503599627370496 ∧
    (stateR double tenth (start tenth) 4).time = 3602879701896397 / 9007199254740992 ∧
    (stateR double tenth (start tenth) 5).time = 1 / 2 ∧
    (stateR double tenth (start tenth) 6).time = 5404319552844595 / 9007199254740992 ∧
    (stateR double tenth (start tenth) 7).time = 3152519739159347 / 4503599627370496 ∧
    (stateR double tenth (start tenth) 8).time = 7205759403792793 / 9007199254740992 ∧
    (stateR double tenth (start tenth) 9).time = 2026619832316723 / 2251799813685248 ∧
    (stateR double tenth (start tenth) 10).time = 9007199254740991 / 9007199254740992 := by
  have r0 : double.rd (0 + tenth.dt) = 3602879701896397 / 36028797018963968 := by
    change round 53 _ = _
    rw [round_eval 53 _ (-4) 7205759403792794 (by norm_num [tenth]) (by norm_num [tenth]) (by norm_num [tenth, nearestEven])]
    norm_num
  have r1 : double.rd (3602879701896397 / 36028797018963968 + tenth.dt) = 3602879701896397 / 18014398509481984 := by
    change round 53 _ = _
    rw [round_eval 53 _ (-3) 7205759403792794 (by norm_num [tenth]) (by norm_num [tenth]) (by norm_num [tenth, nearestEven])]
    norm_num
  have r2 : double.rd (3602879701896397 / 18014398509481984 + tenth.dt) = 1351079888211149 / 4503599627370496 := by
    change round 53 _ = _
    rw [round_eval 53 _ (-2) 5404319552844596 (by norm_num [tenth]) (by norm_num [tenth]) (by norm_num [tenth, nearestEven])]
    norm_num
  have r3 : double.rd (1351079888211149 / 4503599627370496 + tenth.dt) = 3602879701896397 / 9007199254740992 := by
    change round 53 _ = _
    rw [round_eval 53 _ (-2) 7205759403792794 (by norm_num [tenth]) (by norm_num [tenth]) (by norm_num [tenth, nearestEven])]
    norm_num
  have r4 : double.rd (3602879701896397 / 9007199254740992 + tenth.dt) = 1 / 2 := by
    change round 53 _ = _
    rw [round_eval 53 _ (-1) 4503599627370496 (by norm_num [tenth]) (by norm_num [tenth]) (by norm_num [tenth, nearestEven])]
    norm_num
  have r5 : double.rd (1 / 2 + tenth.dt) = 5404319552844595 / 9007199254740992 := by
    change round 53 _ = _
    rw [round_eval 53 _ (-1) 5404319552844595 (by norm_num [tenth]) (by norm_num [tenth]) (by norm_num [tenth, nearestEven])]
    norm_num
  have r6 : double.rd (5404319552844595 / 9007199254740992 + tenth.dt) = 3152519739159347 / 4503599627370496 := by
    change round 53 _ = _
    rw [round_eval 53 _ (-1) 6305039478318694 (by norm_num [tenth]) (by norm_num [tenth]) (by norm_num [tenth, nearestEven])]
    norm_num
  have r7 : double.rd (3152519739159347 / 4503599627370496 + tenth.dt) = 7205759403792793 / 9007199254740992 := by
    change round 53 _ = _
    rw [round_eval 53 _ (-1) 7205759403792793 (by norm_num [tenth]) (by norm_num [tenth]) (by norm_num [tenth, nearestEven])]
    norm_num
  have r8 : double.rd (7205759403792793 / 9007199254740992 + tenth.dt) = 2026619832316723 / 2251799813685248 := by
    change round 53 _ = _
    rw [round_eval 53 _ (-1) 8106479329266892 (by norm_num [tenth]) (by norm_num [tenth]) (by norm_num [tenth, nearestEven])]
    norm_num
  have r9 : double.rd (2026619832316723 / 2251799813685248 + tenth.dt) = 9007199254740991 / 9007199254740992 := by
    change round 53 _ = _
    rw [round_eval 53 _ (-1) 9007199254740991 (by norm_num [tenth]) (by norm_num [tenth]) (by norm_num [tenth, nearestEven])]
    norm_num
  have t0 : (stateR double tenth (start tenth) 0).time = 0 := rfl
  have t1 := step_to double tenth_read 0 _ _ t0 (by norm_num [tenth]) r0 (by norm_num [tenth])
  have t2 := step_to double tenth_read 1 _ _ t1 (by norm_num [tenth]) r1 (by norm_num [tenth])
  have t3 := step_to double tenth_read 2 _ _ t2 (by norm_num [tenth]) r2 (by norm_num [tenth])
  have t4 := step_to double tenth_read 3 _ _ t3 (by norm_num [tenth]) r3 (by norm_num [tenth])
  have t5 := step_to double tenth_read 4 _ _ t4 (by norm_num [tenth]) r4 (by norm_num [tenth])
  have t6 := step_to double tenth_read 5 _ _ t5 (by norm_num [tenth]) r5 (by norm_num [tenth])
  have t7 := step_to double tenth_read 6 _ _ t6 (by norm_num [tenth]) r6 (by norm_num [tenth])
  have t8 := step_to double tenth_read 7 _ _ t7 (by norm_num [tenth]) r7 (by norm_num [tenth])
  have t9 := step_to double tenth_read 8 _ _ t8 (by norm_num [tenth]) r8 (by norm_num [tenth])
  have t10 := step_to double tenth_read 9 _ _ t9 (by norm_num [tenth]) r9 (by norm_num [tenth])
  exact ⟨t1, t2, t3, t4, t5, t6, t7, t8, t9, t10⟩

/-- C129: the number of steps is not the duration divided by the time step, rounded up: with `time_step = 0.1` and `duration = 1` ten steps
would reach the duration, but the program does eleven, the last one of length `2 ^ -53`, about `1.1e-16`. -/
theorem C129_extra_step_refuted :
    tenth.duration ≤ 10 * tenth.dt ∧ (∀ k, RunningR double tenth (start tenth) k ↔ k < 11) ∧
    (evR double tenth (start tenth) 10).dt = 1 / 2 ^ 53 := by
  obtain ⟨-, -, -, -, -, -, -, -, -, t10⟩ := tenth_times
  have r10 : RunningR double tenth (start tenth) 10 := by rw [RunningR, t10]; norm_num [tenth]
  obtain ⟨i1, i2, i3, i4, i5⟩ := fresh_running double tenth_read 10 r10
  obtain ⟨-, a2⟩ := iter_time double tenth_read _ i2 i3 r10 i5
  have hgt : tenth.duration < double.rd ((stateR double tenth (start tenth) 10).time + tenth.dt) := by
    rw [t10]
    change _ < round 53 _
    rw [round_eval 53 _ 0 4953959590107545 (by norm_num [tenth]) (by norm_num [tenth]) (by norm_num [tenth, nearestEven])]
    norm_num [tenth]
  obtain ⟨b1, b2, -⟩ := a2 hgt
  have r11 : ¬ RunningR double tenth (start tenth) 11 := by
    rw [RunningR, fresh_next double 10 r10]
    have b2' : (evR double tenth (start tenth) 10).stop = tenth.duration := b2
    rw [b2']
    exact lt_irrefl _
  refine ⟨by norm_num [tenth], fun k => ⟨fun h => ?_, fun h => running_le double tenth _ _ _ (by omega) r10⟩, ?_⟩
  · by_contra hc
    exact r11 (running_le double tenth _ _ _ (not_lt.1 hc) h)
  · rw [evR, b1, t10]
    norm_num [tenth]

/-- The hypotheses of `C129_deposition` and `C129_restart` are met: a box due at `0.5`, a checkpoint after the third step. -/
example : (tenth.depTimes.Pairwise (· ≤ ·) ∧ 0 ≤ (1 / 2 : ℚ) ∧ (1 / 2 : ℚ) < tenth.duration) ∧
    RunningR double tenth (start tenth) 3 ∧
    (evR double tenth (start tenth) 2).checkpoint = some ((stateR double tenth (start tenth) 3).time, 3) := by
  have r3 := ((C129_extra_step_refuted).2.1 3).2 (by norm_num)
  have r2 := running_back double tenth _ 2 r3
  refine ⟨⟨by simp [tenth], by norm_num, by norm_num [tenth]⟩, r3, ?_⟩
  have e : (evR double tenth (start tenth) 2).checkpoint = if (stateR double tenth (start tenth) 2).n % tenth.checkpointEvery = 0 then
      some ((evR double tenth (start tenth) 2).stop, (stateR double tenth (start tenth) 2).n) else none := rfl
  rw [e, (fresh_running double tenth_read 2 r2).1, fresh_next double 2 r2, if_pos (by decide)]

/-- C129: a restart with another time step can end after the duration.  `duration = 0.9`, `time_step = 1`, restarted from a checkpoint at
`0.3` (which a run with `time_step = 0.3` writes after its first step): `0.3 + (0.9 - 0.3)` is `0.9000000000000001`. -/
def longer : Cfg ℚ := ⟨true, 1, 8106479329266893 / 9007199254740992, 0, 10, 10, 100, []⟩

theorem C129_restart_overshoot_refuted :
    longer.duration = double.rd (9 / 10) ∧ (stateR double longer (restart longer (double.rd (3 / 10), 1)) 1).time = 4053239664633447 / 4503599627370496 ∧
    ¬ RunningR double longer (restart longer (double.rd (3 / 10), 1)) 1 ∧
    longer.duration < (stateR double longer (restart longer (double.rd (3 / 10), 1)) 1).time := by
  have h9 : double.rd (9 / 10) = 8106479329266893 / 9007199254740992 := by
    change round 53 _ = _
    rw [round_eval 53 _ (-1) 8106479329266893 (by norm_num) (by norm_num) (by norm_num [nearestEven])]
    norm_num
  have h3 : double.rd (3 / 10) = 5404319552844595 / 18014398509481984 := by
    change round 53 _ = _
    rw [round_eval 53 _ (-2) 5404319552844595 (by norm_num) (by norm_num) (by norm_num [nearestEven])]
    norm_num
  have g1 : double.rd (5404319552844595 / 18014398509481984 + 1) = 5854679515581645 / 4503599627370496 := by
    change round 53 _ = _
    rw [round_eval 53 _ (0) 5854679515581645 (by norm_num) (by norm_num) (by norm_num [nearestEven])]
    norm_num
  have g2 : double.rd (8106479329266893 / 9007199254740992 - 5404319552844595 / 18014398509481984) = 1351079888211149 / 2251799813685248 := by
    change round 53 _ = _
    rw [round_eval 53 _ (-1) 5404319552844596 (by norm_num) (by norm_num) (by norm_num [nearestEven])]
    norm_num
  have g3 : double.rd (5404319552844595 / 18014398509481984 + 1351079888211149 / 2251799813685248) = 4053239664633447 / 4503599627370496 := by
    change round 53 _ = _
    rw [round_eval 53 _ (-1) 8106479329266894 (by norm_num) (by norm_num) (by norm_num [nearestEven])]
    norm_num
  rw [h3]
  have hr : RunningR double longer (restart longer (5404319552844595 / 18014398509481984, 1)) 0 := by
    change (5404319552844595 / 18014398509481984 : ℚ) < 8106479329266893 / 9007199254740992
    norm_num
  have ht : (stateR double longer (restart longer (5404319552844595 / 18014398509481984, 1)) 1).time = 4053239664633447 / 4503599627370496 := by
    rw [stateR_succ double longer _ 0 hr]
    change double.rd ((5404319552844595 / 18014398509481984 : ℚ) + if double.rd (5404319552844595 / 18014398509481984 + 1) > 8106479329266893 / 9007199254740992 then double.rd (8106479329266893 / 9007199254740992 - 5404319552844595 / 18014398509481984) else 1) = _
    rw [g1, if_pos (by norm_num), g2, g3]
  refine ⟨h9.symm, ht, ?_, ?_⟩
  · rw [RunningR, ht]; norm_num [longer]
  · rw [ht]; norm_num [longer]

/-- C129: the loop need not stop when the time step is below the rounding error of the times: with `p` bits, `time_step = 1` and
`duration = 2 ^ (p + 1)` the time stays at `2 ^ p`. -/
def slow (p : ℕ) : Cfg ℚ := ⟨true, 1, 2 ^ (p + 1), 0, 10, 10, 100, []⟩

theorem C129_stagnation_refuted (p : ℕ) (hp : 2 ≤ p) (k : ℕ) :
    RunningR (binary p (by omega)) (slow p) (start (slow p)) k ∧
    (stateR (binary p (by omega)) (slow p) (start (slow p)) k).time = min (k : ℚ) (2 ^ p) := by
  have hp1 : 1 ≤ p := by omega
  have hc : Read (binary p hp1) (slow p) :=
    { thermal := rfl
      dt := round_fixed p hp1 (slow p).dt ⟨1, 0, by simpa using one_le_pow₀ (n := p) (show (1 : ℤ) ≤ 2 by norm_num), by norm_num [slow]⟩
      duration := round_fixed p hp1 (slow p).duration
        ⟨1, ((p + 1 : ℕ) : ℤ), by simpa using one_le_pow₀ (n := p) (show (1 : ℤ) ≤ 2 by norm_num), by
          rw [zpow_natCast]; simp [slow]⟩
      dt_pos := by norm_num [slow]
      duration_pos := by simp [slow] }
  have hlt : (2 : ℚ) ^ p < 2 ^ (p + 1) := by rw [pow_succ]; linarith [pow_pos (show (0 : ℚ) < 2 by norm_num) p]
  have key : (stateR (binary p hp1) (slow p) (start (slow p)) k).time = min (k : ℚ) (2 ^ p) := by
    induction k with
    | zero => simp [stateR, start]
    | succ k ih =>
      have hmin : min (k : ℚ) (2 ^ p) ≤ 2 ^ p := min_le_right _ _
      refine step_to (binary p hp1) hc k _ _ ih (lt_of_le_of_lt hmin hlt) ?_ (le_trans (min_le_right _ _) hlt.le)
      change round p (min (k : ℚ) (2 ^ p) + 1) = _
      by_cases hk : k + 1 ≤ 2 ^ p
      · have h1 : ((k : ℚ) + 1) ≤ 2 ^ p := by exact_mod_cast hk
        rw [min_eq_left (by linarith), min_eq_left (by push_cast; exact h1)]
        refine (round_fixed p hp1 ((k : ℚ) + 1) ⟨(k + 1 : ℤ), 0, ?_, by norm_num⟩).trans (by push_cast; rfl)
        rw [abs_of_nonneg (by positivity)]
        exact_mod_cast hk
      · have h1 : (2 : ℚ) ^ p ≤ k := by
          have : 2 ^ p ≤ k := by omega
          exact_mod_cast this
        rw [min_eq_right h1, min_eq_right (by push_cast; linarith)]
        have hhalf : (2 : ℚ) ^ p = 2 * 2 ^ (p - 1) := by rw [← pow_succ']; congr 1; omega
        have hone : (1 : ℚ) ≤ 2 ^ (p - 1) := one_le_pow₀ (by norm_num)
        have hev : nearestEven (((2 : ℚ) ^ p + 1) / 2 ^ ((p : ℤ) - p + 1)) = 2 ^ (p - 1) := by
          have hx : ((2 : ℚ) ^ p + 1) / 2 ^ ((p : ℤ) - p + 1) = ((2 ^ (p - 1) : ℤ) : ℚ) + 1 / 2 := by
            rw [sub_self, zero_add, zpow_one, hhalf]; push_cast; ring
          have hfl : ⌊((2 ^ (p - 1) : ℤ) : ℚ) + 1 / 2⌋ = 2 ^ (p - 1) := by
            rw [Int.floor_intCast_add]; norm_num
          have h2 : (2 : ℤ) ^ (p - 1) % 2 = 0 := by
            obtain ⟨q, hq⟩ : ∃ q, p - 1 = q + 1 := ⟨p - 2, by omega⟩
            rw [hq, pow_succ]; omega
          unfold nearestEven
          rw [hx, hfl, if_neg (by push_cast; norm_num), if_neg (by push_cast; norm_num), if_pos h2]
        rw [round_eval p _ p (2 ^ (p - 1)) (by rw [zpow_natCast]; linarith)
          (by rw [zpow_add₀ (by norm_num), zpow_natCast, zpow_one]; linarith) hev]
        rw [sub_self, zero_add, zpow_one, hhalf]
        push_cast
        ring
  refine ⟨?_, key⟩
  rw [RunningR, key]
  exact lt_of_le_of_lt (min_le_right _ _) hlt

end Verif.Driver
