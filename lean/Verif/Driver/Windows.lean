import Verif.Driver.Growing

/-!
# C19: exactly which deposition events of a run with a fixed duration are activated

Closed form of the activation windows (`application/adamantine.hh:1139-1151`) for every `deposition_time`, not only whole multiples of the time step.
-/

namespace Verif.Driver

variable {K : Type*} [Field K] [LinearOrder K] [IsStrictOrderedRing K]

/-- While the loop is running, step `k` starts at `k` full time steps after the start. -/
theorem running_full (c : Cfg K) (s : St K) (hth : c.thermal = true) (hdt : 0 < s.dt) (k : ℕ) :
    Running c s k ↔ s.time + k * s.dt < c.duration := by
  constructor
  · induction k with
    | zero => intro h; simpa [Running, stateAt] using h
    | succ k ih =>
      intro h
      by_cases hr : (stateAt c s k).time < c.duration
      · obtain ⟨-, e2, e3⟩ := stateAt_full c s hth hdt k (ih hr)
        unfold Running at h
        rw [stateAt_succ hr] at h
        simp only [iter, hth, if_true, e2, e3] at h
        by_cases hc : s.time + (k : K) * s.dt + s.dt > c.duration
        · rw [if_pos hc] at h; exfalso; linarith
        · rw [if_neg hc] at h; push_cast; linarith
      · exfalso
        unfold Running at h
        rw [stateAt, if_neg hr] at h
        exact hr h
  · intro h
    unfold Running
    rw [(stateAt_full c s hth hdt k h).2.1]
    exact h

/-- The end of the last window, while the loop is running. -/
theorem actEnd_stride (c : Cfg K) (s : St K) (hth : c.thermal = true) (hdt : 0 < s.dt) (p : ℕ) (hp : Stride c.activationTime s.dt p)
    (hinit : s.time - s.actEnd > -(s.dt / 1000000)) (k : ℕ) (hk : s.time + k * s.dt < c.duration) :
    (k = 0 ∧ (stateAt c s k).actEnd = s.actEnd) ∨ ∃ q r : ℕ, k = p * q + r ∧ 0 < r ∧ r ≤ p ∧
      (stateAt c s k).actEnd = min (s.time + (p * q : ℕ) * s.dt + max c.activationTime s.dt) c.duration := by
  have hp0 := stride_pos hdt hp
  have htol : 0 < s.dt / 1000000 := by positivity
  have htol1 : s.dt / 1000000 < s.dt := by rw [div_lt_iff₀ (by norm_num)]; nlinarith
  have e1 : s.dt * (1 / 1000000) = s.dt / 1000000 := by ring
  induction k with
  | zero => exact Or.inl ⟨rfl, rfl⟩
  | succ k ih =>
    right
    push_cast at hk
    have hk' : s.time + (k : K) * s.dt < c.duration := by nlinarith
    obtain ⟨-, h2, h3⟩ := stateAt_full c s hth hdt k hk'
    have hr : (stateAt c s k).time < c.duration := by rw [h2]; exact hk'
    have hnc : ¬ s.time + (k : K) * s.dt + s.dt > c.duration := by linarith
    rw [stateAt_succ hr]
    simp only [iter, h2, h3, if_neg hnc, e1]
    rcases ih hk' with ⟨rfl, h⟩ | ⟨q, r, rfl, hr0, hrp, h⟩
    · refine ⟨0, 1, by omega, by omega, hp0, ?_⟩
      rw [h, if_pos (by push_cast; linarith)]
      simp
    · rw [h]
      rcases Nat.lt_or_ge r p with hlt | hge
      · refine ⟨q, r + 1, by omega, by omega, hlt, ?_⟩
        rw [if_neg]
        have := hp.2 r hlt
        push_cast at hk ⊢
        intro hc
        have hmin : s.time + (p * q + r) * s.dt + s.dt / 1000000 ≤
            min (s.time + ↑p * ↑q * s.dt + max c.activationTime s.dt) c.duration :=
          le_min (by nlinarith) (by linarith)
        linarith
      · obtain rfl : r = p := by omega
        refine ⟨q + 1, 1, by ring, by omega, hp0, ?_⟩
        rw [if_pos]
        · congr 1
        · have := hp.1
          push_cast
          have hmin : min (s.time + ↑r * ↑q * s.dt + max c.activationTime s.dt) c.duration ≤
            s.time + ↑r * ↑q * s.dt + max c.activationTime s.dt := min_le_left _ _
          nlinarith

/-- C19 (exact): for every `deposition_time`, time step and duration, let `p` be the least number of steps that get to the end of a window (up to a millionth of
a step).  Then the steps of the run that activate the event number `i` are exactly the steps `k` that are multiples of `p` (or start less than a millionth of a
step before the end of the run), start before the end of the run, and whose window - from the start of the step (up to a millionth of a step) until `max(deposition_time, time_step)` later or the end of the run - contains the
time of the event. -/
theorem C19_exact (c : Cfg K) (s : St K) (hth : c.thermal = true) (hdt : 0 < s.dt) (p : ℕ) (hp : Stride c.activationTime s.dt p)
    (hinit : s.time - s.actEnd > -(s.dt / 1000000)) (hsorted : c.depTimes.Pairwise (· ≤ ·)) (i : ℕ) (hi : i < c.depTimes.length) (k : ℕ) :
    (Running c s k ∧ Activates c s k i) ↔
      ((p ∣ k ∨ c.duration - s.dt / 1000000 < s.time + k * s.dt) ∧ s.time + k * s.dt < c.duration ∧ s.time + k * s.dt - s.dt / 1000000 ≤ c.depTimes[i] ∧
        c.depTimes[i] < s.time + k * s.dt + max c.activationTime s.dt ∧ c.depTimes[i] < c.duration) := by
  have htol : 0 < s.dt / 1000000 := by positivity
  have e1 : s.dt * (1 / 1000000) = s.dt / 1000000 := by ring
  rw [running_full c s hth hdt k]
  have key : s.time + k * s.dt < c.duration → (Activates c s k i ↔ (p ∣ k ∨ c.duration - s.dt / 1000000 < s.time + k * s.dt) ∧ s.time + k * s.dt - s.dt / 1000000 ≤ c.depTimes[i] ∧
      c.depTimes[i] < s.time + k * s.dt + max c.activationTime s.dt ∧ c.depTimes[i] < c.duration) := by
    intro hk
    obtain ⟨-, h2, h3⟩ := stateAt_full c s hth hdt k hk
    have hopen : ((stateAt c s k).time - (stateAt c s k).actEnd > -((stateAt c s k).dt * (1 / 1000000))) ↔
        (p ∣ k ∨ c.duration - s.dt / 1000000 < s.time + k * s.dt) := by
      rw [h2, h3, e1]
      rcases actEnd_stride c s hth hdt p hp hinit k hk with ⟨rfl, h⟩ | ⟨q, r, rfl, hr0, hrp, h⟩
      · rw [h]
        refine ⟨fun _ => Or.inl (dvd_zero _), fun _ => ?_⟩
        push_cast; linarith
      · rw [h]
        rcases Nat.lt_or_ge r p with hlt | hge
        · have h5 := hp.2 r hlt
          constructor
          · intro hc
            right
            by_contra hcon
            have hmin : s.time + ((p * q + r : ℕ) : K) * s.dt + s.dt / 1000000 ≤
                min (s.time + ((p * q : ℕ) : K) * s.dt + max c.activationTime s.dt) c.duration := by
              refine le_min ?_ (by linarith)
              push_cast; nlinarith
            linarith
          · rintro (hdvd | hend)
            · exfalso
              have : p ∣ r := (Nat.dvd_add_right (dvd_mul_right p q)).mp hdvd
              exact absurd (Nat.le_of_dvd hr0 this) (by omega)
            · have := min_le_right (s.time + ((p * q : ℕ) : K) * s.dt + max c.activationTime s.dt) c.duration
              linarith
        · obtain rfl : r = p := by omega
          refine ⟨fun _ => Or.inl ⟨q + 1, by ring⟩, fun _ => ?_⟩
          have := hp.1
          have hmin : min (s.time + ((r * q : ℕ) : K) * s.dt + max c.activationTime s.dt) c.duration ≤
            s.time + ((r * q : ℕ) : K) * s.dt + max c.activationTime s.dt := min_le_left _ _
          push_cast at hmin ⊢
          nlinarith
    have hend : min (s.time + (k : K) * s.dt + max c.activationTime
        (if s.time + (k : K) * s.dt + s.dt > c.duration then c.duration - (s.time + (k : K) * s.dt) else s.dt)) c.duration =
        min (s.time + k * s.dt + max c.activationTime s.dt) c.duration := by
      split
      · rename_i hc
        have h6 := le_max_right c.activationTime (c.duration - (s.time + (k : K) * s.dt))
        have h7 := le_max_right c.activationTime s.dt
        rw [min_eq_right (by linarith), min_eq_right (by linarith)]
      · rfl
    have hact : Activates c s k i ↔ ((p ∣ k ∨ c.duration - s.dt / 1000000 < s.time + k * s.dt) ∧
        lowerBound c.depTimes (s.time + k * s.dt - s.dt / 1000000) ≤ i ∧
        i < lowerBound c.depTimes (min (s.time + k * s.dt + max c.activationTime s.dt) c.duration)) := by
      unfold Activates
      simp only [evAt, iter]
      by_cases ho : (stateAt c s k).time - (stateAt c s k).actEnd > -((stateAt c s k).dt * (1 / 1000000))
      · simp only [if_pos ho]
        have hd := hopen.mp ho
        rw [h2, h3, e1, hend]
        constructor
        · rintro ⟨a, b, hab, ha, hb⟩
          simp only [Option.some.injEq, Prod.mk.injEq] at hab
          rw [hab.1, hab.2]
          exact ⟨hd, ha, hb⟩
        · rintro ⟨-, ha, hb⟩
          exact ⟨_, _, rfl, ha, hb⟩
      · simp only [if_neg ho]
        constructor
        · rintro ⟨a, b, hab, -⟩
          cases hab
        · rintro ⟨hd, -⟩
          exact absurd (hopen.mpr hd) ho
    rw [hact]
    constructor
    · rintro ⟨hd, ha, hb⟩
      refine ⟨hd, ?_, ?_⟩
      · by_contra hcon
        have := lt_lowerBound_of hi hsorted (not_le.mp hcon)
        omega
      · have : c.depTimes[i] < min (s.time + k * s.dt + max c.activationTime s.dt) c.duration := by
          by_contra hcon
          have := lowerBound_le_of hi hsorted (not_lt.mp hcon)
          omega
        exact lt_min_iff.mp this
    · rintro ⟨hd, ha, hb⟩
      exact ⟨hd, lowerBound_le_of hi hsorted ha, lt_lowerBound_of hi hsorted (lt_min_iff.mpr hb)⟩
  constructor
  · rintro ⟨h1, h2⟩
    obtain ⟨a, b⟩ := (key h1).mp h2
    exact ⟨a, h1, b⟩
  · rintro ⟨a, h1, b⟩
    exact ⟨h1, (key h1).mpr ⟨a, b⟩⟩

/-- C19 (partial: the window ends at most a millionth of a step before the start of the next one): every event with a time in `[start, duration)` is
activated, in a step that starts at most a millionth of a step after its time. -/
theorem C19_safe_windows_partial [FloorSemiring K] (c : Cfg K) (s : St K) (hth : c.thermal = true) (hdt : 0 < s.dt) (p : ℕ)
    (hp : Stride c.activationTime s.dt p) (hinit : s.time - s.actEnd > -(s.dt / 1000000)) (hsorted : c.depTimes.Pairwise (· ≤ ·))
    (hsafe : p * s.dt - s.dt / 1000000 ≤ max c.activationTime s.dt) (i : ℕ) (hi : i < c.depTimes.length)
    (h0 : s.time ≤ c.depTimes[i]) (h1 : c.depTimes[i] < c.duration - s.dt / 1000000) :
    ∃ k, Running c s k ∧ Activates c s k i ∧ (evAt c s k).start ≤ c.depTimes[i] + s.dt / 1000000 := by
  have htol : 0 < s.dt / 1000000 := by positivity
  have hp0 := stride_pos hdt hp
  set τ := c.depTimes[i] with hτ
  have hmd : 0 < (p : K) * s.dt := mul_pos (by exact_mod_cast hp0) hdt
  have hx : 0 ≤ (τ + s.dt / 1000000 - s.time) / (p * s.dt) := div_nonneg (by linarith) hmd.le
  set q := ⌊(τ + s.dt / 1000000 - s.time) / (p * s.dt)⌋₊
  have hq1 : (q : K) ≤ (τ + s.dt / 1000000 - s.time) / (p * s.dt) := Nat.floor_le hx
  have hq2 : (τ + s.dt / 1000000 - s.time) / (p * s.dt) < q + 1 := Nat.lt_floor_add_one _
  rw [le_div_iff₀ hmd] at hq1
  rw [div_lt_iff₀ hmd] at hq2
  have hlt : s.time + ((p * q : ℕ) : K) * s.dt < c.duration := by push_cast; linarith
  have := (C19_exact c s hth hdt p hp hinit hsorted i hi (p * q)).mpr
    ⟨Or.inl (dvd_mul_right p q), hlt, by rw [← hτ]; push_cast; linarith, by rw [← hτ]; push_cast; linarith, by rw [← hτ]; linarith⟩
  refine ⟨p * q, this.1, this.2, ?_⟩
  have hst : (evAt c s (p * q)).start = (stateAt c s (p * q)).time := (evAt_basic c s (p * q)).2.1
  rw [hst, (stateAt_full c s hth hdt (p * q) hlt).2.1]
  push_cast; linarith

/-- C19 is false for all other window lengths: if a window ends more than a millionth of a step before the next one starts, then in every run that is long
enough for two windows an event at the end of the first window is never activated. -/
theorem C19_unsafe_windows_refuted (c : Cfg K) (s : St K) (hth : c.thermal = true) (hdt : 0 < s.dt) (p : ℕ)
    (hp : Stride c.activationTime s.dt p) (hinit : s.time - s.actEnd > -(s.dt / 1000000)) (hsorted : c.depTimes.Pairwise (· ≤ ·))
    (hunsafe : max c.activationTime s.dt < p * s.dt - s.dt / 1000000) (hlong : s.time + p * s.dt < c.duration) (i : ℕ) (hi : i < c.depTimes.length)
    (hτ : c.depTimes[i] = s.time + max c.activationTime s.dt) (k : ℕ) : ¬ (Running c s k ∧ Activates c s k i) := by
  rw [C19_exact c s hth hdt p hp hinit hsorted i hi k, hτ]
  rintro ⟨hd, h1, h2, h3, h4⟩
  have hp0 := stride_pos hdt hp
  have hkp : k < p := by
    by_contra hcon
    have h5 : (p : K) ≤ k := by exact_mod_cast not_lt.mp hcon
    have := mul_le_mul_of_nonneg_right h5 hdt.le
    linarith
  have hk0 : 0 < k := by
    rcases Nat.eq_zero_or_pos k with rfl | h
    · exfalso; push_cast at h3; linarith
    · exact h
  rcases hd with hd | hd
  · exact absurd (Nat.le_of_dvd hk0 hd) (by omega)
  · have h5 : (k : K) + 1 ≤ p := by exact_mod_cast hkp
    have := mul_le_mul_of_nonneg_right h5 hdt.le
    have htol1 : s.dt / 1000000 < s.dt := by rw [div_lt_iff₀ (by norm_num)]; nlinarith
    linarith

/-- The run with time step 1 and `deposition_time` 2.5 has windows every 3 steps that end half a step too early. -/
example : Stride gap.activationTime (start gap).dt 3 ∧ max gap.activationTime (start gap).dt < (3 : ℕ) * (start gap).dt - (start gap).dt / 1000000 ∧
    (start gap).time + (3 : ℕ) * (start gap).dt < gap.duration ∧ (start gap).time - (start gap).actEnd > -((start gap).dt / 1000000) ∧
    gap.depTimes[0]? = some ((start gap).time + max gap.activationTime (start gap).dt) := by
  refine ⟨⟨?_, fun r hr => ?_⟩, ?_, ?_, ?_, ?_⟩
  · norm_num [gap, start]
  · have : (r : ℚ) ≤ 2 := by exact_mod_cast Nat.lt_succ_iff.mp hr
    norm_num [gap, start]; linarith
  all_goals norm_num [gap, start]

/-- The demo run with two steps in a window is safe. -/
example : Stride (demo true (3 / 5)).activationTime (start (demo true (3 / 5))).dt 2 ∧
    ((2 : ℕ) : ℚ) * (start (demo true (3 / 5))).dt - (start (demo true (3 / 5))).dt / 1000000 ≤
      max (demo true (3 / 5)).activationTime (start (demo true (3 / 5))).dt := by
  refine ⟨⟨?_, fun r hr => ?_⟩, ?_⟩
  · norm_num [demo, start]
  · have : (r : ℚ) ≤ 1 := by exact_mod_cast Nat.lt_succ_iff.mp hr
    norm_num [demo, start]; linarith
  · norm_num [demo, start]

end Verif.Driver
