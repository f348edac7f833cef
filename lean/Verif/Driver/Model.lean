import Mathlib.Algebra.Order.Field.Basic
import Mathlib.Algebra.Order.Archimedean.Basic
import Mathlib.Data.List.Basic

/-!
# Model of the time loop of `run` (`application/adamantine.hh:956-1400`)

`double` is a linear ordered field `K`.  The duration is fixed (for `scan_path_for_duration` see `Verif.Driver.ScanEnd`),
so the deposition times are fixed too.  `evolve_one_time_step` returns `time + time_step` (deal.II's contract for
its explicit schemes, see `Verif.Thermal`).  What the physics does to the temperature is not part of this model.
A period of zero steps is a modulo by zero in C++; theorems that need it assume positive periods (see C60).
-/

namespace Verif.Driver

variable {K : Type*} [Field K] [LinearOrder K]

/-- The input parameters the loop uses: `physics.thermal` (751-760), `time_stepping.time_step` (993),
`time_stepping.duration` (1002-1004), `geometry.deposition_time` (976), the three periods (1010, 1013, 839)
and the sorted deposition times (985-988). -/
structure Cfg (K : Type*) where
  thermal : Bool
  dt : K
  duration : K
  activationTime : K
  refineEvery : ℕ
  outputEvery : ℕ
  checkpointEvery : ℕ
  depTimes : List K

/-- The loop variables `n_time_step`, `time`, `time_step`, `activation_time_end`. -/
@[ext] structure St (K : Type*) where
  n : ℕ
  time : K
  dt : K
  actEnd : K

/-- What one iteration does. -/
@[ext] structure Ev (K : Type*) where
  n : ℕ
  /-- time at the start and at the end of the iteration -/
  start : K
  stop : K
  /-- the time step used -/
  dt : K
  /-- times at which the heat sources are sampled for mesh refinement, if the mesh is refined -/
  samples : Option (List K)
  /-- the range `[activation_start, activation_end)` of deposition boxes, if the window is opened -/
  activated : Option (ℕ × ℕ)
  /-- contents `(time, n_time_step)` of the checkpoint written -/
  checkpoint : Option (K × ℕ)
  output : Bool

/-- `std::lower_bound(l.begin(), l.end(), x) - l.begin()` on a sorted vector: number of leading entries below `x`. -/
def lowerBound (l : List K) (x : K) : ℕ := (l.takeWhile (fun y => decide (y < x))).length

/-- Sampling times of `compute_cells_to_refine`, `adamantine.hh:565-569`, with
`next_refinement_time = time + time_steps_refinement * time_step` (line 1120). -/
def refinementSamples (time dt : K) (R : ℕ) : List K :=
  (List.range R).map fun i : ℕ => time + (i : K) / (R : K) * ((time + (R : K) * dt) - time)

/-- One iteration of the loop body, `adamantine.hh:1063-1399`. -/
def iter (c : Cfg K) (s : St K) : St K × Ev K :=
  let tol := s.dt * (1 / 1000000)                                             -- 1074
  let dt := if s.time + s.dt > c.duration then c.duration - s.time else s.dt  -- 1111-1112
  let samples :=                                                              -- 1116-1132
    if (s.n = 1 ∨ s.n % c.refineEvery = 0) ∧ c.thermal = true
    then some (refinementSamples s.time dt c.refineEvery) else none
  let opened := s.time - s.actEnd > -tol                                      -- 1139
  let actEnd := if opened then min (s.time + max c.activationTime dt) c.duration else s.actEnd -- 1145-1146
  let activated :=
    if opened then some (lowerBound c.depTimes (s.time - tol), lowerBound c.depTimes actEnd) else none -- 1141-1151
  let time := if c.thermal then s.time + dt else s.time                       -- 1233, 1258
  let checkpoint := if s.n % c.checkpointEvery = 0 then some (time, s.n) else none -- 1349-1369
  let output := decide (s.n % c.outputEvery = 0)                              -- 1389
  (⟨s.n + 1, time, dt, actEnd⟩, ⟨s.n, s.time, time, dt, samples, activated, checkpoint, output⟩)

/-- State before iteration `k` (`while (time < duration)`, line 1063). -/
def stateAt (c : Cfg K) (s : St K) : ℕ → St K
  | 0 => s
  | k + 1 => if (stateAt c s k).time < c.duration then (iter c (stateAt c s k)).1 else stateAt c s k

/-- The loop is still running before iteration `k`. -/
def Running (c : Cfg K) (s : St K) (k : ℕ) : Prop := (stateAt c s k).time < c.duration

/-- What iteration `k` does (meaningful while the loop is running). -/
def evAt (c : Cfg K) (s : St K) (k : ℕ) : Ev K := (iter c (stateAt c s k)).2

/-- Loop variables of a new run, `adamantine.hh:959-961, 982, 993`. -/
def start (c : Cfg K) : St K := ⟨1, 0, c.dt, -1⟩

/-- Loop variables after a restart from a checkpoint `(time, n_time_step)`, `adamantine.hh:964-974, 982, 993`. -/
def restart (c : Cfg K) (cp : K × ℕ) : St K := ⟨cp.2 + 1, cp.1, c.dt, -1⟩

/-! ## Checkpoint files -/

/-- Prefix of a checkpoint, `adamantine.hh:1361-1364`. -/
def checkpointPrefix (overwrite : Bool) (name : String) (n : ℕ) : String :=
  if overwrite then name else name ++ "_" ++ toString n

/-- Name of the time file that is written, `adamantine.hh:1366`; the mesh and the fields are written to the prefix
itself (line 1365). -/
def timeFileWritten (outputDir pre : String) : String := outputDir ++ pre ++ "_time.txt"

/-- Name of the time file that a restart reads, `adamantine.hh:970`; mesh and fields are read from the prefix
(line 920). -/
def timeFileRead (restartPrefix : String) : String := restartPrefix ++ "_time.txt"

/-- A restart with prefix `r` finds the mesh and the time written by a checkpoint with prefix `pre`. -/
def RestartFinds (outputDir pre r : String) : Prop :=
  r = pre ∧ timeFileRead r = timeFileWritten outputDir pre

end Verif.Driver
