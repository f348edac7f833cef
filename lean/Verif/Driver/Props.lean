import Verif.Driver.Model
import Std.Data.String.ToNat
import Mathlib.Tactic.Linarith
import Mathlib.Tactic.Ring
import Mathlib.Tactic.NormNum
import Mathlib.Tactic.FieldSimp
import Mathlib.Tactic.Positivity
import Mathlib.Tactic.Push
import Mathlib.Algebra.Order.Floor.Semiring
import Mathlib.Algebra.Order.Ring.Rat
import Mathlib.Data.Rat.Floor

/-! # C17, C19, C20, C23 -/

namespace Verif.Driver

variable {K : Type*} [Field K] [LinearOrder K] [IsStrictOrderedRing K]

/-! ## Closed form of the loop -/

omit [IsStrictOrderedRing K] in
theorem stateAt_succ {c : Cfg K} {s : St K} {k : ℕ} (h : (stateAt c s k).time < c.duration) :
    stateAt c s (k + 1) = (iter c (stateAt c s k)).1 := by
  simp only [stateAt, if_pos h]

/-- While `k` full steps fit, the state is the expected one. -/
theorem stateAt_full (c : Cfg K) (s : St K) (hth : c.thermal = true) (hdt : 0 < s.dt) (k : ℕ)
    (hk : s.time + k * s.dt < c.duration) :
    (stateAt c s k).n = s.n + k ∧ (stateAt c s k).time = s.time + k * s.dt ∧ (stateAt c s k).dt = s.dt := by
  induction k with
  | zero => simp [stateAt]
  | succ k ih =>
    have hlt : s.time + (k : K) * s.dt < c.duration := by push_cast at hk; nlinarith
    obtain ⟨h1, h2, h3⟩ := ih hlt
    have hr : (stateAt c s k).time < c.duration := by rw [h2]; exact hlt
    have hnc : ¬ s.time + (k : K) * s.dt + s.dt > c.duration := by push_cast at hk; linarith
    rw [stateAt_succ hr]
    simp only [iter, h1, h2, h3, if_neg hnc, hth, if_true]
    refine ⟨by omega, ?_, trivial⟩
    push_cast; ring

/-- Number of steps of a run. -/
theorem exists_steps [Archimedean K] (c : Cfg K) (s : St K) (hdt : 0 < s.dt) (hs : s.time < c.duration) :
    ∃ N : ℕ, s.time + N * s.dt < c.duration ∧ c.duration ≤ s.time + (N + 1 : ℕ) * s.dt := by
  classical
  have hex : ∃ n : ℕ, c.duration ≤ s.time + n * s.dt := by
    obtain ⟨n, hn⟩ := Archimedean.arch (c.duration - s.time) hdt
    exact ⟨n, by rw [nsmul_eq_mul] at hn; linarith⟩
  have h1 := Nat.find_spec hex
  have h2 := fun m => Nat.find_min hex (m := m)
  generalize Nat.find hex = n at *
  cases n with
  | zero => exact absurd hs (by simpa using h1)
  | succ N => exact ⟨N, not_le.mp (h2 N (Nat.lt_succ_self N)), h1⟩

theorem stateAt_last (c : Cfg K) (s : St K) (hth : c.thermal = true) (hdt : 0 < s.dt) (N : ℕ)
    (h1 : s.time + N * s.dt < c.duration) (h2 : c.duration ≤ s.time + (N + 1 : ℕ) * s.dt) :
    (stateAt c s (N + 1)).time = c.duration ∧ (stateAt c s (N + 1)).n = s.n + N + 1 := by
  obtain ⟨e1, e2, e3⟩ := stateAt_full c s hth hdt N h1
  have hr : (stateAt c s N).time < c.duration := by rw [e2]; exact h1
  rw [stateAt_succ hr]
  simp only [iter, hth, if_true, e1, e2, e3]
  push_cast at h2
  refine ⟨?_, trivial⟩
  split
  · ring
  · rename_i h; linarith

theorem running_iff (c : Cfg K) (s : St K) (hth : c.thermal = true) (hdt : 0 < s.dt) (N : ℕ)
    (h1 : s.time + N * s.dt < c.duration) (h2 : c.duration ≤ s.time + (N + 1 : ℕ) * s.dt) (k : ℕ) :
    Running c s k ↔ k ≤ N := by
  constructor
  · intro hr
    by_contra hk
    have : ∀ j, (stateAt c s (N + 1 + j)).time = c.duration := by
      intro j
      induction j with
      | zero => exact (stateAt_last c s hth hdt N h1 h2).1
      | succ j ih =>
        have : ¬ (stateAt c s (N + 1 + j)).time < c.duration := by rw [ih]; exact lt_irrefl _
        rw [show N + 1 + (j + 1) = (N + 1 + j) + 1 by omega]
        simp only [stateAt, if_neg this]; exact ih
    have hj := this (k - (N + 1))
    rw [show N + 1 + (k - (N + 1)) = k by omega] at hj
    unfold Running at hr; rw [hj] at hr; exact lt_irrefl _ hr
  · intro hk
    have hkN : (k : K) ≤ N := by exact_mod_cast hk
    have hlt : s.time + (k : K) * s.dt < c.duration := by nlinarith
    unfold Running
    rw [(stateAt_full c s hth hdt k hlt).2.1]; exact hlt

theorem evAt_basic (c : Cfg K) (s : St K) (k : ℕ) :
    (evAt c s k).n = (stateAt c s k).n ∧ (evAt c s k).start = (stateAt c s k).time ∧
    (Running c s k → (evAt c s k).stop = (stateAt c s (k + 1)).time ∧ (evAt c s k).dt = (stateAt c s (k + 1)).dt) := by
  refine ⟨rfl, rfl, fun h => ?_⟩
  unfold Running at h
  simp only [stateAt, if_pos h]
  exact ⟨rfl, rfl⟩

/-! ## C17 -/

/-- C17 (partial: a thermal simulation): from any start before the duration the loop stops after finitely many
iterations, time strictly increases at every iteration by the step that was used, no step is longer than the
requested one, step numbers are consecutive, and the final time is exactly the duration. -/
theorem C17_reaches_duration_partial [Archimedean K] (c : Cfg K) (s : St K) (hth : c.thermal = true) (hdt : 0 < s.dt)
    (hs : s.time < c.duration) :
    ∃ N : ℕ, (∀ k, Running c s k ↔ k < N) ∧ (stateAt c s N).time = c.duration ∧
      ∀ k < N, (evAt c s k).start < (evAt c s k).stop ∧ (evAt c s k).stop ≤ c.duration ∧
        (evAt c s k).stop - (evAt c s k).start = (evAt c s k).dt ∧ (evAt c s k).dt ≤ s.dt ∧
        (evAt c s k).n = s.n + k ∧ (k + 1 < N → (evAt c s (k + 1)).start = (evAt c s k).stop) := by
  obtain ⟨N, h1, h2⟩ := exists_steps c s hdt hs
  refine ⟨N + 1, fun k => ?_, (stateAt_last c s hth hdt N h1 h2).1, fun k hk => ?_⟩
  · rw [running_iff c s hth hdt N h1 h2 k]; omega
  · have hr := (running_iff c s hth hdt N h1 h2 k).mpr (by omega)
    have hkN : (k : K) ≤ N := by exact_mod_cast (by omega : k ≤ N)
    have hlt : s.time + (k : K) * s.dt < c.duration := by nlinarith
    obtain ⟨e1, e2, e3⟩ := stateAt_full c s hth hdt k hlt
    obtain ⟨b1, b2, b3⟩ := evAt_basic c s k
    obtain ⟨b4, b5⟩ := b3 hr
    have hstop : (evAt c s k).stop = (stateAt c s k).time + (evAt c s k).dt := by
      simp [evAt, iter, hth]
    have hd : (evAt c s k).dt = if s.time + k * s.dt + s.dt > c.duration then c.duration - (s.time + k * s.dt) else s.dt := by
      simp [evAt, iter, e2, e3]
    have hdpos : 0 < (evAt c s k).dt := by
      rw [hd]; split
      · linarith
      · exact hdt
    have hdle : (evAt c s k).dt ≤ s.dt := by
      rw [hd]; split
      · rename_i h; linarith
      · exact le_refl _
    have hdle2 : (stateAt c s k).time + (evAt c s k).dt ≤ c.duration := by
      rw [hd, e2]; split
      · linarith
      · rename_i h; linarith
    refine ⟨by rw [hstop, b2]; linarith, by rw [hstop]; exact hdle2, by rw [hstop, b2]; ring, hdle,
      by rw [b1, e1], fun hk1 => ?_⟩
    rw [(evAt_basic c s (k + 1)).2.1, b4]

/-- C17 is false for a simulation without thermal physics: time never advances and the loop never stops. -/
theorem C17_mechanics_only_refuted (c : Cfg K) (s : St K) (hth : c.thermal = false) (hs : s.time < c.duration) :
    ∀ k, Running c s k ∧ (stateAt c s k).time = s.time := by
  intro k
  have : (stateAt c s k).time = s.time := by
    induction k with
    | zero => rfl
    | succ k ih =>
      simp only [stateAt]
      split
      · simp [iter, hth, ih]
      · exact ih
  exact ⟨by unfold Running; rw [this]; exact hs, this⟩

/-- A concrete run (thermal or not): dt = 0.3, duration 1, deposition at 0 and 0.6. -/
def demo (thermal : Bool) (activation : ℚ) : Cfg ℚ := ⟨thermal, 3/10, 1, activation, 2, 1, 2, [0, 3/5]⟩

example : (demo true 0).thermal = true ∧ 0 < (start (demo true 0)).dt ∧
    (start (demo true 0)).time < (demo true 0).duration := by
  refine ⟨rfl, ?_, ?_⟩ <;> norm_num [demo, start]

example : (demo false 0).thermal = false ∧ (start (demo false 0)).time < (demo false 0).duration := by
  refine ⟨rfl, ?_⟩; norm_num [demo, start]

/-! ## C20 -/

theorem samples_mem (time dt : K) (R i : ℕ) (hi : i < R) : time + i * dt ∈ refinementSamples time dt R := by
  unfold refinementSamples
  refine List.mem_map.mpr ⟨i, List.mem_range.mpr hi, ?_⟩
  have : (R : K) ≠ 0 := by exact_mod_cast (by omega : R ≠ 0)
  field_simp
  ring

/-- C20: in a thermal run from the beginning (first step number 1, positive refinement period) the start time of every
step is one of the sampling times of the last refinement at or before that step. -/
theorem C20_refined_ahead [Archimedean K] (c : Cfg K) (s : St K) (hth : c.thermal = true) (hdt : 0 < s.dt)
    (hs : s.time < c.duration) (hn : s.n = 1) (hR : 0 < c.refineEvery) (k : ℕ) (hk : Running c s k) :
    ∃ j ≤ k, ∃ l, (evAt c s j).samples = some l ∧ (evAt c s k).start ∈ l ∧
      ∀ i, j < i → i ≤ k → (evAt c s i).samples = none := by
  obtain ⟨N, h1, h2⟩ := exists_steps c s hdt hs
  have hkN := (running_iff c s hth hdt N h1 h2 k).mp hk
  have full : ∀ i ≤ N, (stateAt c s i).n = s.n + i ∧ (stateAt c s i).time = s.time + i * s.dt ∧
      (stateAt c s i).dt = s.dt := by
    intro i hi
    have hiN : (i : K) ≤ N := by exact_mod_cast hi
    exact stateAt_full c s hth hdt i (by nlinarith)
  -- samples of iteration i
  have hsam : ∀ i ≤ N, (evAt c s i).samples = if 1 + i = 1 ∨ (1 + i) % c.refineEvery = 0 then
      some (refinementSamples (s.time + i * s.dt) (evAt c s i).dt c.refineEvery) else none := by
    intro i hi
    obtain ⟨e1, e2, e3⟩ := full i hi
    rw [hn] at e1
    simp [evAt, iter, e1, e2, hth]
  have hdti : ∀ i < N, (evAt c s i).dt = s.dt := by
    intro i hi
    obtain ⟨e1, e2, e3⟩ := full i hi.le
    have hiN : (i : K) + 1 ≤ N := by exact_mod_cast hi
    have : ¬ s.time + (i : K) * s.dt + s.dt > c.duration := by nlinarith
    simp [evAt, iter, e2, e3, if_neg this]
  set R := c.refineEvery with hRdef
  -- last refinement
  obtain ⟨j, hjk, hjref, hlast, hdist⟩ : ∃ j ≤ k, (1 + j = 1 ∨ (1 + j) % R = 0) ∧
      (∀ i, j < i → i ≤ k → ¬ (1 + i = 1 ∨ (1 + i) % R = 0)) ∧ k - j < R := by
    by_cases hkr : 1 + k < R
    · refine ⟨0, Nat.zero_le _, Or.inl rfl, ?_, by omega⟩
      intro i hi hik h
      rcases h with h | h
      · omega
      · rw [Nat.mod_eq_of_lt (by omega)] at h; omega
    · have hm := Nat.mod_lt (1 + k) hR
      have hle : (1 + k) % R ≤ k := by
        rcases Nat.lt_or_ge k R with h | h
        · have : 1 + k = R := by omega
          rw [this, Nat.mod_self]; omega
        · omega
      refine ⟨k - (1 + k) % R, by omega, Or.inr ?_, ?_, by omega⟩
      · rw [show 1 + (k - (1 + k) % R) = (1 + k) - (1 + k) % R by omega]
        exact Nat.mod_eq_zero_of_dvd (Nat.dvd_sub_mod (1 + k))
      · intro i hi hik h
        rcases h with h | h
        · omega
        · have h1 : (1 + k) % R = (k - i) % R := by
            have : 1 + k = (1 + i) + (k - i) := by omega
            rw [this, Nat.add_mod, h, Nat.zero_add, Nat.mod_mod]
          have h2 : k - i < (1 + k) % R := by omega
          rw [Nat.mod_eq_of_lt (lt_trans h2 hm)] at h1
          omega
  refine ⟨j, hjk, _, by rw [hsam j (by omega), if_pos hjref], ?_, fun i hi hik => ?_⟩
  · rw [(evAt_basic c s k).2.1, (full k hkN).2.1]
    rcases Nat.eq_or_lt_of_le hjk with rfl | hlt
    · have := samples_mem (s.time + (j : K) * s.dt) (evAt c s j).dt R 0 hR
      simpa using this
    · have := samples_mem (s.time + (j : K) * s.dt) (evAt c s j).dt R (k - j) hdist
      rw [hdti j (by omega), Nat.cast_sub hjk] at this
      rw [hdti j (by omega)]
      convert this using 1
      ring
  · rw [hsam i (by omega), if_neg (hlast i hi hik)]

example : (start (demo true 0)).n = 1 ∧ 0 < (demo true 0).refineEvery := ⟨rfl, by norm_num [demo]⟩

/-! ## C19 -/

theorem lowerBound_le_of {l : List K} {x : K} {i : ℕ} (hi : i < l.length) (hs : l.Pairwise (· ≤ ·)) (h : x ≤ l[i]) :
    lowerBound l x ≤ i := by
  induction l generalizing i with
  | nil => simp at hi
  | cons a l ih =>
    unfold lowerBound
    by_cases ha : a < x
    · cases i with
      | zero => exact absurd h (not_le.mpr (by simpa using ha))
      | succ i =>
        have := ih (i := i) (by simpa using hi) (List.pairwise_cons.mp hs).2 (by simpa using h)
        simpa [List.takeWhile_cons, ha, lowerBound] using this
    · simp [List.takeWhile_cons, ha]

theorem lt_lowerBound_of {l : List K} {x : K} {i : ℕ} (hi : i < l.length) (hs : l.Pairwise (· ≤ ·)) (h : l[i] < x) :
    i < lowerBound l x := by
  induction l generalizing i with
  | nil => simp at hi
  | cons a l ih =>
    have ha : a < x := by
      cases i with
      | zero => simpa using h
      | succ i =>
        have hi' : i < l.length := by simpa using hi
        have := (List.pairwise_cons.mp hs).1 l[i] (List.getElem_mem _)
        exact lt_of_le_of_lt this (by simpa using h)
    cases i with
    | zero => simp [lowerBound, List.takeWhile_cons, ha]
    | succ i =>
      have := ih (i := i) (by simpa using hi) (List.pairwise_cons.mp hs).2 (by simpa using h)
      simpa [List.takeWhile_cons, ha, lowerBound] using this

/-- Box `i` is in the activation range of iteration `k`. -/
def Activates (c : Cfg K) (s : St K) (k i : ℕ) : Prop :=
  ∃ a b, (evAt c s k).activated = some (a, b) ∧ a ≤ i ∧ i < b

/-- Window state when the window length is `m` steps: before iteration `k` the window end is that of the last
multiple of `m`. -/
theorem actEnd_closed (c : Cfg K) (s : St K) (hth : c.thermal = true) (hdt : 0 < s.dt) (m : ℕ) (hm : 0 < m)
    (hmax : max c.activationTime s.dt = m * s.dt) (hinit : s.actEnd < s.time) (k : ℕ)
    (hk : s.time + k * s.dt < c.duration) (hk0 : 0 < k) :
    (stateAt c s k).actEnd = min (s.time + (m * ((k - 1) / m) + m : ℕ) * s.dt) c.duration := by
  induction k with
  | zero => omega
  | succ k ih =>
    have hlt : s.time + (k : K) * s.dt < c.duration := by push_cast at hk; nlinarith
    obtain ⟨e1, e2, e3⟩ := stateAt_full c s hth hdt k hlt
    have hr : (stateAt c s k).time < c.duration := by rw [e2]; exact hlt
    have hnc : ¬ s.time + (k : K) * s.dt + s.dt > c.duration := by push_cast at hk; linarith
    have hstep : (stateAt c s (k + 1)).actEnd =
        if s.time + k * s.dt - (stateAt c s k).actEnd > -(s.dt * (1/1000000)) then
          min (s.time + k * s.dt + m * s.dt) c.duration else (stateAt c s k).actEnd := by
      rw [stateAt_succ hr]
      simp only [iter, e2, e3, if_neg hnc, hmax]
    rw [hstep, Nat.add_sub_cancel]
    rcases Nat.eq_zero_or_pos k with hz | hz
    · subst hz
      have : s.time + ((0 : ℕ) : K) * s.dt - (stateAt c s 0).actEnd > -(s.dt * (1/1000000)) := by
        simp only [stateAt]; push_cast
        have : 0 < s.dt * (1/1000000) := by positivity
        linarith
      rw [if_pos this]; simp
    · rw [ih hlt hz]
      by_cases hd : m ∣ k
      · obtain ⟨q, rfl⟩ := hd
        have hq : 0 < q := by
          rcases Nat.eq_zero_or_pos q with h | h
          · subst h; simp at hz
          · exact h
        have e : (m * q - 1) / m = q - 1 := by
          have : m * q - 1 = (m - 1) + m * (q - 1) := by
            obtain ⟨q', rfl⟩ : ∃ q', q = q' + 1 := ⟨q - 1, by omega⟩
            simp [Nat.mul_add]; omega
          rw [this, Nat.add_mul_div_left _ _ hm, Nat.div_eq_of_lt (by omega)]; simp
        have e' : m * (q - 1) + m = m * q := by
          obtain ⟨q', rfl⟩ : ∃ q', q = q' + 1 := ⟨q - 1, by omega⟩
          simp [Nat.mul_add]
        have e'' : m * (m * q / m) + m = m * q + m := by rw [Nat.mul_div_cancel_left _ hm]
        rw [e, e', e'']
        have hopen : s.time + ((m * q : ℕ) : K) * s.dt - min (s.time + ((m * q : ℕ) : K) * s.dt) c.duration >
            -(s.dt * (1/1000000)) := by
          have : min (s.time + ((m * q : ℕ) : K) * s.dt) c.duration ≤ s.time + ((m * q : ℕ) : K) * s.dt := min_le_left _ _
          have : 0 < s.dt * (1/1000000) := by positivity
          linarith
        rw [if_pos hopen]; congr 1; push_cast; ring
      · have hdiv : (k - 1) / m = k / m := by
          have hlt := Nat.mod_lt k hm
          have hpos : 0 < k % m := Nat.pos_of_ne_zero fun h => hd (Nat.dvd_of_mod_eq_zero h)
          have hk' := Nat.div_add_mod k m
          have : k - 1 = (k % m - 1) + m * (k / m) := by omega
          rw [this, Nat.add_mul_div_left _ _ hm, Nat.div_eq_of_lt (by omega), Nat.zero_add]
        rw [hdiv]
        have hlt := Nat.mod_lt k hm
        have hkm := Nat.div_add_mod k m
        have hge : k + 1 ≤ m * (k / m) + m := by omega
        have hgeK : (k : K) + 1 ≤ ((m * (k / m) + m : ℕ) : K) := by exact_mod_cast hge
        have hclosed : ¬ s.time + (k : K) * s.dt - min (s.time + ((m * (k / m) + m : ℕ) : K) * s.dt) c.duration >
            -(s.dt * (1/1000000)) := by
          push_cast at hk
          have h1 : s.time + (k : K) * s.dt + s.dt ≤ s.time + ((m * (k / m) + m : ℕ) : K) * s.dt := by nlinarith
          have h2 : s.time + (k : K) * s.dt + s.dt ≤ min (s.time + ((m * (k / m) + m : ℕ) : K) * s.dt) c.duration :=
            le_min h1 (by linarith)
          have : s.dt * (1/1000000) ≤ s.dt := by nlinarith
          linarith
        rw [if_neg hclosed]

/-- At a step number that is a multiple of `m` the window is open. -/
theorem window_open (c : Cfg K) (s : St K) (hth : c.thermal = true) (hdt : 0 < s.dt) (m : ℕ) (hm : 0 < m)
    (hmax : max c.activationTime s.dt = m * s.dt) (hinit : s.actEnd < s.time) (q : ℕ)
    (hk : s.time + (m * q : ℕ) * s.dt < c.duration) :
    (evAt c s (m * q)).activated =
      some (lowerBound c.depTimes (s.time + (m * q : ℕ) * s.dt - s.dt * (1/1000000)),
        lowerBound c.depTimes (min (s.time + (m * q : ℕ) * s.dt + max c.activationTime (evAt c s (m * q)).dt) c.duration)) := by
  obtain ⟨e1, e2, e3⟩ := stateAt_full c s hth hdt (m * q) hk
  have htol : 0 < s.dt * (1/1000000) := by positivity
  have hopen : (stateAt c s (m * q)).time - (stateAt c s (m * q)).actEnd > -((stateAt c s (m * q)).dt * (1/1000000)) := by
    rw [e3]
    rcases Nat.eq_zero_or_pos q with hz | hz
    · subst hz; simp only [Nat.mul_zero, stateAt]; linarith
    · have hpos : 0 < m * q := Nat.mul_pos hm hz
      rw [actEnd_closed c s hth hdt m hm hmax hinit (m * q) hk hpos, e2]
      have e : m * ((m * q - 1) / m) + m = m * q := by
        obtain ⟨q', rfl⟩ : ∃ q', q = q' + 1 := ⟨q - 1, by omega⟩
        have : m * (q' + 1) - 1 = (m - 1) + m * q' := by simp [Nat.mul_add]; omega
        rw [this, Nat.add_mul_div_left _ _ hm, Nat.div_eq_of_lt (by omega)]; simp [Nat.mul_add]
      rw [e]
      have := min_le_left (s.time + ((m * q : ℕ) : K) * s.dt) c.duration
      linarith
  simp only [evAt, iter, if_pos hopen]
  rw [e2, e3]

/-- C19 (partial: the activation window `max(deposition_time, time_step)` is a whole number `m` of time steps — for
instance whenever `deposition_time ≤ time_step`): every box with a deposition time in `[start, duration)` is in the
activation range of an iteration that starts not after the deposition time and at most one window before it. -/
theorem C19_every_box_activated_partial [Archimedean K] [FloorSemiring K] (c : Cfg K) (s : St K) (hth : c.thermal = true)
    (hdt : 0 < s.dt) (m : ℕ) (hm : 0 < m) (hmax : max c.activationTime s.dt = m * s.dt) (hinit : s.actEnd < s.time)
    (hsorted : c.depTimes.Pairwise (· ≤ ·)) (i : ℕ) (hi : i < c.depTimes.length) (h0 : s.time ≤ c.depTimes[i])
    (h1 : c.depTimes[i] < c.duration) :
    ∃ k, Running c s k ∧ Activates c s k i ∧ (evAt c s k).start ≤ c.depTimes[i] ∧
      c.depTimes[i] < (evAt c s k).start + max c.activationTime s.dt := by
  set τ := c.depTimes[i] with hτ
  have hmd : 0 < (m : K) * s.dt := mul_pos (by exact_mod_cast hm) hdt
  have hx : 0 ≤ (τ - s.time) / (m * s.dt) := div_nonneg (by linarith) hmd.le
  set q := ⌊(τ - s.time) / (m * s.dt)⌋₊
  have hq1 : (q : K) ≤ (τ - s.time) / (m * s.dt) := Nat.floor_le hx
  have hq2 : (τ - s.time) / (m * s.dt) < q + 1 := Nat.lt_floor_add_one _
  rw [le_div_iff₀ hmd] at hq1
  rw [div_lt_iff₀ hmd] at hq2
  have hstart : s.time + ((m * q : ℕ) : K) * s.dt ≤ τ := by push_cast; linarith
  have hend : τ < s.time + ((m * q : ℕ) : K) * s.dt + m * s.dt := by push_cast; linarith
  have hlt : s.time + ((m * q : ℕ) : K) * s.dt < c.duration := lt_of_le_of_lt hstart h1
  obtain ⟨e1, e2, e3⟩ := stateAt_full c s hth hdt (m * q) hlt
  have hst : (evAt c s (m * q)).start = s.time + ((m * q : ℕ) : K) * s.dt := by
    rw [(evAt_basic c s (m * q)).2.1, e2]
  refine ⟨m * q, by unfold Running; rw [e2]; exact hlt, ⟨_, _, window_open c s hth hdt m hm hmax hinit q hlt, ?_, ?_⟩,
    by rw [hst]; exact hstart, by rw [hst, hmax]; exact hend⟩
  · have : 0 < s.dt * (1/1000000) := by positivity
    exact lowerBound_le_of hi hsorted (by linarith)
  · apply lt_lowerBound_of hi hsorted
    apply lt_min _ h1
    have hd : (evAt c s (m * q)).dt = if s.time + ((m * q : ℕ) : K) * s.dt + s.dt > c.duration
        then c.duration - (s.time + ((m * q : ℕ) : K) * s.dt) else s.dt := by
      simp [evAt, iter, e2, e3]
    rw [hd]; split
    · have h3 : c.duration - (s.time + ((m * q : ℕ) : K) * s.dt) ≤
          max c.activationTime (c.duration - (s.time + ((m * q : ℕ) : K) * s.dt)) := le_max_right _ _
      linarith
    · rw [hmax]; exact hend

/-- The demo run with windows of one and of two steps. -/
example : max (demo true 0).activationTime (start (demo true 0)).dt = (1 : ℕ) * (start (demo true 0)).dt ∧
    max (demo true (3/5)).activationTime (start (demo true (3/5))).dt = (2 : ℕ) * (start (demo true (3/5))).dt ∧
    (start (demo true 0)).actEnd < (start (demo true 0)).time ∧
    (demo true 0).depTimes.Pairwise (· ≤ ·) := by
  refine ⟨?_, ?_, ?_, ?_⟩ <;> norm_num [demo, start]

/-- The run of the refutation: time step 1, `deposition_time` 2.5, one box at time 2.5. -/
def gap : Cfg ℚ := ⟨true, 1, 10, 5/2, 10, 1, 100, [5/2]⟩

/-- C19 is false when the window is not a whole number of time steps: with time step 1 and `deposition_time` 2.5 a box
at time 2.5 is never activated in a run until time 10. -/
theorem C19_every_box_activated_refuted :
    ∀ k, Running gap (start gap) k → ¬ Activates gap (start gap) k 0 := by
  intro k hr ⟨a, b, hab, ha, hb⟩
  have hdt : 0 < (start gap).dt := by norm_num [start, gap]
  have hN := (running_iff gap (start gap) rfl hdt 9 (by norm_num [start, gap]) (by norm_num [start, gap]) k).mp hr
  have hkQ : (k : ℚ) ≤ 9 := by exact_mod_cast hN
  have hlt : (start gap).time + (k : ℚ) * (start gap).dt < gap.duration := by
    norm_num [start, gap]; linarith
  obtain ⟨e1, e2, e3⟩ := stateAt_full gap (start gap) rfl hdt k hlt
  rcases Nat.lt_or_ge k 3 with h3 | h3
  · have : k = 0 ∨ k = 1 ∨ k = 2 := by omega
    rcases this with rfl | rfl | rfl
    · norm_num [evAt, iter, stateAt, start, gap, lowerBound] at hab
      omega
    · norm_num [evAt, iter, stateAt, start, gap, lowerBound] at hab
      cases hab
    · norm_num [evAt, iter, stateAt, start, gap, lowerBound] at hab
      cases hab
  · have hk3 : (3 : ℚ) ≤ k := by exact_mod_cast h3
    have hstart : ∀ x : ℚ, x > 5/2 → lowerBound gap.depTimes x = 1 := by
      intro x hx; simp [lowerBound, gap, hx]
    simp only [evAt, iter] at hab
    split at hab
    · simp only [Option.some.injEq, Prod.mk.injEq] at hab
      rw [e2, e3, hstart _ (by norm_num [start, gap]; linarith)] at hab
      omega
    · cases hab

/-! ## C23 -/

/-- The state after a restart is the state of the uninterrupted run, except for the activation window. -/
theorem stateAt_add (c : Cfg K) (s : St K) (a b : ℕ) : stateAt c s (a + b) = stateAt c (stateAt c s a) b := by
  induction b with
  | zero => rfl
  | succ b ih => rw [← Nat.add_assoc]; simp only [stateAt, ih]

/-- Two states that agree except for the window run through the same steps. -/
theorem same_steps (c : Cfg K) (s s' : St K) (hn : s.n = s'.n) (ht : s.time = s'.time) (hd : s.dt = s'.dt) (k : ℕ) :
    (stateAt c s k).n = (stateAt c s' k).n ∧ (stateAt c s k).time = (stateAt c s' k).time ∧
      (stateAt c s k).dt = (stateAt c s' k).dt := by
  induction k with
  | zero => exact ⟨hn, ht, hd⟩
  | succ k ih =>
    obtain ⟨h1, h2, h3⟩ := ih
    simp only [stateAt, h2]
    split
    · simp only [iter, h1, h2, h3]; exact ⟨trivial, trivial, trivial⟩
    · exact ⟨h1, h2, h3⟩

/-- C23 (partial: activation windows and file names are treated separately): a run restarted from the checkpoint written
in iteration `k` performs the remaining iterations of the uninterrupted run: same step numbers, times, time steps,
mesh-refinement sampling times, checkpoints and outputs. -/
theorem C23_restart_same_steps_partial [Archimedean K] (c : Cfg K) (hth : c.thermal = true) (hdt : 0 < c.dt) (k : ℕ)
    (cp : K × ℕ) (hk : Running c (start c) k) (hk' : Running c (start c) (k + 1))
    (hcp : (evAt c (start c) k).checkpoint = some cp) (j : ℕ) :
    let u := evAt c (start c) (k + 1 + j)
    let v := evAt c (restart c cp) j
    (Running c (restart c cp) j ↔ Running c (start c) (k + 1 + j)) ∧ v.n = u.n ∧ v.start = u.start ∧ v.stop = u.stop ∧
      v.dt = u.dt ∧ v.samples = u.samples ∧ v.checkpoint = u.checkpoint ∧ v.output = u.output := by
  have h0 : 0 < (start c).dt := hdt
  have hs : (start c).time < c.duration := by
    by_contra hcon
    have hst : ∀ j, stateAt c (start c) j = start c := by
      intro j
      induction j with
      | zero => rfl
      | succ j ih => simp only [stateAt, ih, if_neg hcon]
    unfold Running at hk; rw [hst] at hk; exact hcon hk
  obtain ⟨N, h1, h2⟩ := exists_steps c (start c) h0 hs
  have hkN := (running_iff c (start c) hth h0 N h1 h2 (k + 1)).mp hk'
  have hK : (((k + 1 : ℕ)) : K) ≤ N := by exact_mod_cast hkN
  obtain ⟨e1, e2, e3⟩ := stateAt_full c (start c) hth h0 (k + 1) (by nlinarith)
  have hcp' : cp = ((stateAt c (start c) (k + 1)).time, (stateAt c (start c) k).n) := by
    unfold Running at hk
    simp only [stateAt, if_pos hk]
    simp only [evAt, iter, hth, if_true] at hcp
    split_ifs at hcp
    all_goals first
      | (simp only [Option.some.injEq] at hcp; rw [← hcp]; simp [iter, hth, *])
      | cases hcp
  have hn : (restart c cp).n = (stateAt c (start c) (k + 1)).n := by
    rw [hcp']
    unfold Running at hk
    simp only [restart, stateAt, if_pos hk, iter]
  have ht : (restart c cp).time = (stateAt c (start c) (k + 1)).time := by rw [hcp']; rfl
  have hd : (restart c cp).dt = (stateAt c (start c) (k + 1)).dt := by rw [e3]; rfl
  obtain ⟨f1, f2, f3⟩ := same_steps c _ _ hn ht hd j
  rw [← stateAt_add] at f1 f2 f3
  intro u v
  refine ⟨by unfold Running; rw [f2], ?_⟩
  simp only [u, v, evAt, iter, f1, f2, f3]
  exact ⟨trivial, trivial, trivial, trivial, trivial, trivial, trivial⟩

/-- When the window is not longer than a time step it is reopened at every step. -/
theorem activated_short (c : Cfg K) (s : St K) (hth : c.thermal = true) (hdt : 0 < s.dt) (ha : c.activationTime ≤ s.dt)
    (hinit : s.actEnd < s.time) (k : ℕ) (hk : s.time + k * s.dt < c.duration) :
    (stateAt c s k).time - (stateAt c s k).actEnd > -((stateAt c s k).dt * (1/1000000)) := by
  have hmax : max c.activationTime s.dt = (1 : ℕ) * s.dt := by rw [max_eq_right ha]; simp
  obtain ⟨e1, e2, e3⟩ := stateAt_full c s hth hdt k hk
  have htol : 0 < s.dt * (1/1000000) := by positivity
  rw [e3]
  rcases Nat.eq_zero_or_pos k with hz | hz
  · subst hz; simp only [stateAt]; linarith
  · rw [actEnd_closed c s hth hdt 1 one_pos hmax hinit k hk hz, e2]
    have e : 1 * ((k - 1) / 1) + 1 = k := by simp; omega
    rw [e]
    have := min_le_left (s.time + (k : K) * s.dt) c.duration
    linarith

/-- C23 (partial: `deposition_time ≤ time_step`): the restarted run also activates the same ranges of boxes in the same
steps. -/
theorem C23_restart_same_activation_partial [Archimedean K] (c : Cfg K) (hth : c.thermal = true) (hdt : 0 < c.dt)
    (ha : c.activationTime ≤ c.dt) (k : ℕ)
    (cp : K × ℕ) (hk : Running c (start c) k) (hk' : Running c (start c) (k + 1))
    (hcp : (evAt c (start c) k).checkpoint = some cp) (j : ℕ) (hj : Running c (restart c cp) j) :
    evAt c (restart c cp) j = evAt c (start c) (k + 1 + j) := by
  obtain ⟨r1, r2, r3, r4, r5, r6, r7, r8⟩ := C23_restart_same_steps_partial c hth hdt k cp hk hk' hcp j
  have hju := r1.mp hj
  have h0 : 0 < (start c).dt := hdt
  have hs : (start c).time < c.duration := by
    by_contra hcon
    have hst : ∀ j, stateAt c (start c) j = start c := by
      intro j
      induction j with
      | zero => rfl
      | succ j ih => simp only [stateAt, ih, if_neg hcon]
    unfold Running at hk; rw [hst] at hk; exact hcon hk
  obtain ⟨N, h1, h2⟩ := exists_steps c (start c) h0 hs
  have hkN := (running_iff c (start c) hth h0 N h1 h2 (k + 1 + j)).mp hju
  have hK : (((k + 1 + j : ℕ)) : K) ≤ N := by exact_mod_cast hkN
  have hlt : (start c).time + ((k + 1 + j : ℕ) : K) * (start c).dt < c.duration := by nlinarith
  have o1 := activated_short c (start c) hth h0 ha (by simp [start]) (k + 1 + j) hlt
  -- time of the checkpoint
  have hcpt : cp.1 = (stateAt c (start c) (k + 1)).time := by
    unfold Running at hk
    simp only [stateAt, if_pos hk]
    simp only [evAt, iter, hth, if_true] at hcp
    split_ifs at hcp
    all_goals first
      | (simp only [Option.some.injEq] at hcp; rw [← hcp]; simp [iter, hth, *])
      | cases hcp
  have hK1 : (((k + 1 : ℕ)) : K) ≤ ((k + 1 + j : ℕ) : K) := by exact_mod_cast Nat.le_add_right _ _
  obtain ⟨e1, e2, e3⟩ := stateAt_full c (start c) hth h0 (k + 1) (by nlinarith)
  obtain ⟨g1, g2, g3⟩ := stateAt_full c (start c) hth h0 (k + 1 + j) hlt
  have hcpt' : cp.1 = ((k + 1 : ℕ) : K) * c.dt := by
    rw [hcpt, e2]; simp [start]
  have hpos : 0 ≤ cp.1 := by rw [hcpt']; positivity
  have hltr : (restart c cp).time + (j : K) * (restart c cp).dt < c.duration := by
    simp only [restart, hcpt']
    simp only [start] at hlt
    push_cast at hlt ⊢
    linarith
  have o2 := activated_short c (restart c cp) hth hdt ha (by simp only [restart]; linarith) j hltr
  have f1 : (stateAt c (restart c cp) j).time = (stateAt c (start c) (k + 1 + j)).time := r3
  have f3 : (stateAt c (restart c cp) j).dt = (stateAt c (start c) (k + 1 + j)).dt := by
    obtain ⟨_, _, q3⟩ := stateAt_full c (restart c cp) hth hdt j hltr
    rw [q3, g3]; rfl
  have r9 : (evAt c (restart c cp) j).activated = (evAt c (start c) (k + 1 + j)).activated := by
    simp only [evAt, iter, if_pos o1, if_pos o2]
    rw [f1, f3]
  exact Ev.ext r2 r3 r4 r5 r6 r9 r7 r8

/-- A run of ten unit steps with checkpoints at every step and a window of two steps. -/
def shift : Cfg ℚ := ⟨true, 1, 10, 2, 10, 1, 1, [4]⟩

/-- C23 is false for the activation of material when `deposition_time` is longer than a time step: the uninterrupted run
activates the box at time 4 in the step that starts at time 4, the run restarted from the first checkpoint in the step
that starts at time 3. -/
theorem C23_restart_activation_refuted :
    ∃ cp, (evAt shift (start shift) 0).checkpoint = some cp ∧
      (evAt shift (restart shift cp) 2).start = 3 ∧ Activates shift (restart shift cp) 2 0 ∧
      (evAt shift (start shift) 3).start = 3 ∧ ¬ Activates shift (start shift) 3 0 := by
  refine ⟨(1, 1), ?_, ?_, ?_, ?_, ?_⟩
  · norm_num [evAt, iter, stateAt, start, shift]
  · norm_num [evAt, iter, stateAt, restart, shift]
  · refine ⟨0, 1, ?_, ?_, ?_⟩ <;> norm_num [evAt, iter, stateAt, restart, shift, lowerBound]
  · norm_num [evAt, iter, stateAt, start, shift]
  · rintro ⟨a, b, hab, ha, hb⟩
    norm_num [evAt, iter, stateAt, start, shift, lowerBound] at hab
    cases hab

/-- The demo run writes a checkpoint in its second iteration and goes on. -/
example : Running (demo true 0) (start (demo true 0)) 1 ∧ Running (demo true 0) (start (demo true 0)) 2 ∧
    (evAt (demo true 0) (start (demo true 0)) 1).checkpoint = some (3/5, 2) ∧ (0 : ℚ) < (demo true 0).dt ∧
    (demo true 0).activationTime ≤ (demo true 0).dt := by
  refine ⟨?_, ?_, ?_, ?_, ?_⟩ <;> norm_num [Running, evAt, iter, stateAt, start, demo]

/-- C23: the time file and the mesh of a checkpoint can be found by one restart prefix exactly when no output directory
is set. -/
theorem C23_files_found_iff (outputDir pre : String) :
    RestartFinds outputDir pre pre ↔ outputDir = "" := by
  unfold RestartFinds timeFileRead timeFileWritten
  constructor
  · rintro ⟨-, h⟩
    have := congrArg String.length h
    simp only [String.length_append] at this
    exact String.length_eq_zero_iff.mp (by omega)
  · rintro rfl; simp

/-- C23 is false with an output directory: no restart prefix finds both files. -/
theorem C23_output_dir_refuted (outputDir pre : String) (h : outputDir ≠ "") :
    ¬ ∃ r, RestartFinds outputDir pre r := by
  rintro ⟨r, hr, hf⟩
  subst hr
  exact h ((C23_files_found_iff outputDir r).mp ⟨rfl, hf⟩)

example : ("output/" : String) ≠ "" := by decide

/-- C23: without `overwrite_files` different checkpoints go to different files. -/
theorem C23_checkpoint_names_distinct (name : String) (n m : ℕ) (h : n ≠ m) :
    checkpointPrefix false name n ≠ checkpointPrefix false name m := by
  intro he
  simp only [checkpointPrefix, Bool.false_eq_true, if_false] at he
  have h2 := congrArg String.toList he
  simp only [String.toList_append, List.append_cancel_left_eq] at h2
  have h3 := String.toList_inj.mp h2
  exact h (Nat.repr_injective h3)

end Verif.Driver
