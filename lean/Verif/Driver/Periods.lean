import Verif.Driver.Props

/-!
# C89: outputs and checkpoints follow the configured periods (`application/adamantine.hh:978-990, 1349-1399`)
-/

namespace Verif.Driver

variable {K : Type*} [Field K] [LinearOrder K] [IsStrictOrderedRing K]

/-- C89: in a new thermal run with `c.duration > 0` the steps are numbered 1, 2, …; the step with number `k + 1` ends at
`min ((k + 1) * time_step) duration`, its solution is written exactly if the output period divides its number, and a checkpoint
is written exactly if the checkpoint period divides its number; the checkpoint holds the time reached and the step's number. -/
theorem C89_periods [Archimedean K] (c : Cfg K) (hth : c.thermal = true) (hdt : 0 < c.dt) (k : ℕ)
    (hk : Running c (start c) k) :
    (evAt c (start c) k).n = k + 1 ∧
    (evAt c (start c) k).stop = min (((k + 1 : ℕ) : K) * c.dt) c.duration ∧
    ((evAt c (start c) k).output = true ↔ c.outputEvery ∣ k + 1) ∧
    (evAt c (start c) k).checkpoint =
      if c.checkpointEvery ∣ k + 1 then some (min (((k + 1 : ℕ) : K) * c.dt) c.duration, k + 1) else none := by
  have h0 : 0 < (start c).dt := hdt
  have hs : (start c).time < c.duration := by
    by_contra hcon
    have hst : ∀ j, stateAt c (start c) j = start c := by
      intro j
      induction j with
      | zero => rfl
      | succ j ih => simp only [stateAt, ih, if_neg hcon]
    unfold Running at hk
    rw [hst] at hk
    exact hcon hk
  obtain ⟨N, h1, h2⟩ := exists_steps c (start c) h0 hs
  have hkN := (running_iff c (start c) hth h0 N h1 h2 k).mp hk
  have hkN' : (k : K) ≤ N := by exact_mod_cast hkN
  have hst : (start c).time = 0 := rfl
  have hsd : (start c).dt = c.dt := rfl
  have hsn : (start c).n = 1 := rfl
  have hlt : (start c).time + (k : K) * (start c).dt < c.duration := by nlinarith
  obtain ⟨e1, e2, e3⟩ := stateAt_full c (start c) hth h0 k hlt
  rw [hst, zero_add, hsd] at e2
  rw [hsd] at e3
  rw [hsn] at e1
  have hstop : (evAt c (start c) k).stop = min (((k + 1 : ℕ) : K) * c.dt) c.duration := by
    simp only [evAt, iter, e2, e3, hth, if_true]
    push_cast
    split
    · rename_i hgt
      rw [min_eq_right (by linarith)]; ring
    · rename_i hgt
      rw [min_eq_left (by linarith)]; ring
  have hn : (evAt c (start c) k).n = k + 1 := by
    simp only [evAt, iter, e1]; omega
  refine ⟨hn, hstop, ?_, ?_⟩
  · have : (evAt c (start c) k).output = decide ((evAt c (start c) k).n % c.outputEvery = 0) := rfl
    rw [this, hn, decide_eq_true_eq, Nat.dvd_iff_mod_eq_zero]
  · have : (evAt c (start c) k).checkpoint =
        if (evAt c (start c) k).n % c.checkpointEvery = 0 then some ((evAt c (start c) k).stop, (evAt c (start c) k).n) else none :=
      rfl
    rw [this, hn, hstop]
    simp only [Nat.dvd_iff_mod_eq_zero]

/-- C89, end of the run: a thermal run takes `N` steps, where `N` is the least number with `N * time_step ≥ duration`, and the
state at the end is written exactly if the output period divides `N`. -/
theorem C89_final_state_partial [Archimedean K] (c : Cfg K) (hth : c.thermal = true) (hdt : 0 < c.dt) (hd : 0 < c.duration)
    (N : ℕ) (h1 : (N : K) * c.dt < c.duration) (h2 : c.duration ≤ ((N + 1 : ℕ) : K) * c.dt) :
    (∀ k, Running c (start c) k ↔ k < N + 1) ∧
    (stateAt c (start c) (N + 1)).time = c.duration ∧
    ((evAt c (start c) N).output = true ↔ c.outputEvery ∣ N + 1) := by
  have h1' : (start c).time + (N : K) * (start c).dt < c.duration := by simpa [start] using h1
  have h2' : c.duration ≤ (start c).time + ((N + 1 : ℕ) : K) * (start c).dt := by simpa [start] using h2
  have hr := running_iff c (start c) hth hdt N h1' h2'
  refine ⟨fun k => by rw [hr]; omega, (stateAt_last c (start c) hth hdt N h1' h2').1, ?_⟩
  exact (C89_periods c hth hdt N ((hr N).2 le_rfl)).2.2.1

/-- C89 is false for the final state: in the run with time step 1, duration 5 and an output every 2 steps the last step is not
written (nothing is written after the loop). -/
theorem C89_final_state_refuted :
    let c : Cfg ℚ := ⟨true, 1, 5, 0, 10, 2, 100, []⟩
    Running c (start c) 4 ∧ (evAt c (start c) 4).stop = 5 ∧ ¬ Running c (start c) 5 ∧ (evAt c (start c) 4).output = false := by
  intro c
  have hth : c.thermal = true := rfl
  have hdt : 0 < c.dt := by norm_num [c]
  obtain ⟨a1, a2, a3⟩ := C89_final_state_partial c hth hdt (by norm_num [c]) 4 (by norm_num [c]) (by norm_num [c])
  have hr : Running c (start c) 4 := (a1 4).2 (by omega)
  refine ⟨hr, ?_, fun h => by have := (a1 5).1 h; omega, ?_⟩
  · rw [(C89_periods c hth hdt 4 hr).2.1]; norm_num [c]
  · rw [Bool.eq_false_iff]
    intro h
    have := a3.1 h
    revert this
    decide

/-- The demo run takes four steps of which the last ends at the duration 1. -/
example : let c := demo true 0
    0 < c.duration ∧ ((3 : ℕ) : ℚ) * c.dt < c.duration ∧ c.duration ≤ ((3 + 1 : ℕ) : ℚ) * c.dt := by
  norm_num [demo]

end Verif.Driver
