import Mathlib.Data.List.Basic
import Mathlib.Tactic.NormNum

/-!
# C77: which displacement is written

Model of the order of events in the time loop of `run`, `application/adamantine.hh:1100-1398`, for a thermo-mechanical simulation: mesh refinement
(1114-1133), material addition (1137-1216), mechanical solve (1290-1345), output (1387-1399).
-/

namespace Verif.Mechanics

/-- Versions: `mesh` counts the changes of the mesh (refinement, activation); the displacement and stress belong to the mesh version `dispMesh` and were
computed in step `dispStep`. -/
structure Sched where
  mesh : ℕ
  dispMesh : ℕ
  dispStep : ℕ
deriving DecidableEq

/-- Input parameters: refinement interval, mechanical factor, output interval, and the steps in which material is added. -/
structure SchedParams where
  refine : ℕ
  mech : ℕ
  out : ℕ
  activate : ℕ → Bool

/-- What an output contains: step, mesh version written, mesh version and step of the displacement and stress. -/
structure OutRec where
  step : ℕ
  mesh : ℕ
  dispMesh : ℕ
  dispStep : ℕ
deriving DecidableEq

/-- One time step with number `n`, `adamantine.hh:1114-1399`. -/
def schedStep (p : SchedParams) (n : ℕ) (s : Sched) : Sched × List OutRec :=
  let s1 := if n = 1 ∨ n % p.refine = 0 then { s with mesh := s.mesh + 1 } else s
  let s2 := if p.activate n then { s1 with mesh := s1.mesh + 1 } else s1
  let s3 := if n % p.mech = 0 ∨ n % p.out = 0 then { s2 with dispMesh := s2.mesh, dispStep := n } else s2
  (s3, if n % p.out = 0 then [⟨n, s3.mesh, s3.dispMesh, s3.dispStep⟩] else [])

/-- `k` time steps starting with number `n`. -/
def schedRun (p : SchedParams) : ℕ → ℕ → Sched → Sched × List OutRec
  | 0, _, s => (s, [])
  | k + 1, n, s =>
    let r := schedStep p n s
    let t := schedRun p k (n + 1) r.1
    (t.1, r.2 ++ t.2)

/-- The whole run: initial solve (`:933-956`) and output (`:979-981`) with step number 0, then `k` time steps. -/
def schedAll (p : SchedParams) (k : ℕ) : Sched × List OutRec :=
  let t := schedRun p k 1 ⟨0, 0, 0⟩
  (t.1, ⟨0, 0, 0, 0⟩ :: t.2)

theorem schedRun_out (p : SchedParams) (k n : ℕ) (s : Sched) (r : OutRec) (h : r ∈ (schedRun p k n s).2) :
    r.dispStep = r.step ∧ r.dispMesh = r.mesh ∧ r.step % p.out = 0 ∧ n ≤ r.step ∧ r.step < n + k := by
  induction k generalizing n s with
  | zero => simp [schedRun] at h
  | succ k ih =>
    simp only [schedRun, List.mem_append] at h
    rcases h with h | h
    · simp only [schedStep] at h
      by_cases ho : n % p.out = 0
      · rw [if_pos ho, if_pos (Or.inr ho), List.mem_singleton] at h
        rw [h]
        exact ⟨rfl, rfl, ho, le_refl _, by simp⟩
      · rw [if_neg ho] at h
        simp at h
    · obtain ⟨h1, h2, h3, h4, h5⟩ := ih _ _ h
      exact ⟨h1, h2, h3, by omega, by omega⟩

/-- **C77**, outputs: for every choice of intervals and every pattern of material additions, every output of a run shows the displacement and stress computed in
that very step on the mesh that is written, although the mechanical problem is not solved in every step. -/
theorem C77_output_current_partial (p : SchedParams) (k : ℕ) (r : OutRec) (h : r ∈ (schedAll p k).2) :
    r.dispStep = r.step ∧ r.dispMesh = r.mesh := by
  unfold schedAll at h
  simp only [List.mem_cons] at h
  rcases h with h | h
  · subst h; exact ⟨rfl, rfl⟩
  · obtain ⟨h1, h2, _⟩ := schedRun_out p k 1 _ r h
    exact ⟨h1, h2⟩

/-- Every multiple of the output interval is written. -/
theorem C77_output_all_partial (p : SchedParams) (k n : ℕ) (h1 : 1 ≤ n) (hk : n ≤ k) (hn : n % p.out = 0) :
    ∃ r ∈ (schedAll p k).2, r.step = n := by
  have key : ∀ (k m : ℕ) (s : Sched), m ≤ n → n < m + k → ∃ r ∈ (schedRun p k m s).2, r.step = n := by
    intro k
    induction k with
    | zero => intro m s a b; omega
    | succ k ih =>
      intro m s a b
      simp only [schedRun, List.mem_append]
      by_cases hm : m = n
      · subst hm
        refine ⟨⟨m, (schedStep p m s).1.mesh, (schedStep p m s).1.dispMesh, (schedStep p m s).1.dispStep⟩, Or.inl ?_, rfl⟩
        simp [schedStep, hn]
      · obtain ⟨r, hr, hs⟩ := ih (m + 1) (schedStep p m s).1 (by omega) (by omega)
        exact ⟨r, Or.inr hr, hs⟩
  obtain ⟨r, hr, hs⟩ := key k 1 ⟨0, 0, 0⟩ h1 (by omega)
  exact ⟨r, List.mem_cons_of_mem _ hr, hs⟩

example : (schedAll ⟨3, 2, 4, fun n => n == 5⟩ 9).2 = [⟨0, 0, 0, 0⟩, ⟨4, 2, 2, 4⟩, ⟨8, 4, 4, 8⟩] := by decide

/-- **C77 refuted** for the displacement returned at the end of the run (`:1407-1436`): with a mechanical solve every second step, a run of three steps
with a refinement in the third returns the displacement of step 2, of another mesh than the temperature. -/
theorem C77_returned_refuted :
    (schedAll ⟨3, 2, 2, fun _ => false⟩ 3).1 = ⟨2, 1, 2⟩ := by decide

/-- **C77**: the returned displacement is that of the last step if its number is a multiple of the mechanical factor or the output interval. -/
theorem C77_returned_partial (p : SchedParams) (k : ℕ) (h : (k + 1) % p.mech = 0 ∨ (k + 1) % p.out = 0) :
    (schedAll p (k + 1)).1.dispStep = k + 1 ∧ (schedAll p (k + 1)).1.dispMesh = (schedAll p (k + 1)).1.mesh := by
  have key : ∀ (k n : ℕ) (s : Sched), ((n + k) % p.mech = 0 ∨ (n + k) % p.out = 0) →
      (schedRun p (k + 1) n s).1.dispStep = n + k ∧ (schedRun p (k + 1) n s).1.dispMesh = (schedRun p (k + 1) n s).1.mesh := by
    intro k
    induction k with
    | zero =>
      intro n s hn
      rw [Nat.add_zero] at hn
      have : (schedRun p (0 + 1) n s).1 = (schedStep p n s).1 := rfl
      rw [this]
      simp [schedStep, hn]
    | succ k ih =>
      intro n s hn
      have := ih (n + 1) (schedStep p n s).1 (by rw [show n + 1 + k = n + (k + 1) from by omega]; exact hn)
      have e : (schedRun p (k + 1 + 1) n s).1 = (schedRun p (k + 1) (n + 1) (schedStep p n s).1).1 := rfl
      rw [e]
      exact ⟨by omega, this.2⟩
  have := key k 1 ⟨0, 0, 0⟩ (by rw [Nat.add_comm 1 k]; exact h)
  have e : (schedAll p (k + 1)).1 = (schedRun p (k + 1) 1 ⟨0, 0, 0⟩).1 := rfl
  rw [e]
  exact ⟨by omega, this.2⟩

example : (schedAll ⟨3, 2, 5, fun _ => true⟩ (3 + 1)).1.dispStep = 4 := by decide

end Verif.Mechanics
