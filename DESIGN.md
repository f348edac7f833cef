# A Lean 4 model of adamantine and proofs of its user-visible properties

Source modelled: `/repo` (adamantine, C++). Properties: `properties.jsonl` (C01…). Status: `MANIFEST.json`.

## 1. Approach

* Every modelled C++ function becomes a total Lean function under `lean/Verif/<Area>/Model.lean`; each definition cites
  the file and lines it models and states simplifications.
* `lean/Verif/<Area>/Spec.lean` (when the property needs vocabulary of its own) holds small specifications written from the
  English property, not from the model.
* `lean/Verif/<Area>/Props.lean` holds the property theorems (`Cnn_…`), each followed by an `example` with a concrete,
  non-trivial instance that meets its hypotheses. Helper lemmas live in `Lemmas.lean` or above the theorem.
* Where the code **violates** a property, the violation is proved with a concrete witness (`Cnn_…_refuted`) and the part
  that does hold is proved with the suffix `_partial`, under the weakest hypothesis we found. See section 4.

### Numbers
`double` is modelled by an arbitrary linear ordered field `K` (or by `ℝ` when square roots, trigonometry, exponentials or
integrals occur): arithmetic is exact, rounding, overflow and signed zeros are **not** modelled, except in the models of
`Float/` and the properties that name rounding (C129, C130, …), where every operation is rounded to a format. Where a C++ division by zero
would yield NaN/inf and matters, the model returns a distinct outcome (`none`, `nan`). `unsigned int` is `ℕ` unless wrap-around
matters (then it is stated in the comment). Out-of-range reads and other undefined behaviour are a distinct outcome (`ub`),
exceptions are `thrown`.

### External libraries
deal.II, ArborX, Boost, Kokkos, MPI are not modelled as code; the parts of their contract used by a model are parameters or
are written down in the model's comment (for instance: bounding-volume query returns exactly the intersecting pairs,
cell-data transfer gives children the parent's data, `std::sort` returns a sorted permutation).

## 2. Plan per property

| Property | Model | Proof |
|---|---|---|
| C01–C03 | `Quaternion`: four reals; `rotate`, `inv_rotate`, `*=`, `/=`, `pow` | ring identities; trigonometric addition for `pow`; `pow` of ±1 is 0/0 → refutation + partial |
| C04, C05 | `ScanPath` loaders over lists of tokenised records | induction over the record list with accumulator invariant |
| C06–C08, C10 | look-up with the cached segment index as explicit state; queries as a state machine | invariant "cached index ≤ true index"; refutation for decreasing times, partial for non-decreasing ones |
| C09 | `get_quaternion` (slerp) | uses C03; refutation for opposite quaternions |
| C11–C16 | deposition reader, box generator (fuel-free loop via explicit iteration relation/measure), merge, activation list | induction; measure for termination; non-termination witness |
| C17–C20, C23, C26 | driver loop as a transition system on (time, step number, window end, …) | invariants over reachable states; closed forms |
| C21 | refinement forest (inductive tree), flagging and execution | structural induction |
| C22, C41–C43 | cells as lists with optional material data; pack/unpack | induction over the cell list |
| C24, C25 | rank/member arithmetic | `Nat` division lemmas |
| C27–C29 | random stream as `ℕ → K`; trees as inductive type; maximum over ranks | induction; refutations where found |
| C30–C37 | phase update, table look-up, polynomial, latent heat, radiation, averages | ordered-field reasoning, invariants over histories, interval integral |
| C38 | lanes as lists, literal loop structure of the vectorised code | refutation for width ≥ 2, partial for width 1 |
| C39, C40 | tensor apply; forward Euler | ring identities |
| C44–C49 | return mapping in an inner-product space; cell matrices as sums over quadrature points; pack/unpack | norms, sums of squares, list induction |
| C50–C54 | Gaspari–Cohn; covariance; H; update; gather/scatter | calculus/inequalities, sums, permutations |
| C55–C57 | log reader, mappings, ray/face search | induction |
| C58–C64 | boundary tables, validator, unit map, STL bytes, powder layer | case analysis, induction |
| C65–C67 | heat-source formulas | real inequalities |
| C68–C72 | microstructure, nearest-point transfer, post-processor names, timers | induction |
| C73–C77 | mechanics schedule: transfer of displacement and plastic data at activation, right-hand side assembly, reported stress, melting resets | case analysis over cell lists; refutations with concrete meshes |
| C78–C81 | data assimilation: localised covariance, effect of one observation, dof mapping, singular systems | positive semi-definiteness, explicit small counterexamples |
| C82 | frame files | induction over lines |
| C83–C86 | deposition method key, time stepping input, exit code, empty STL | case analysis |
| C87 | vectorised heat source | lanes as functions; refutation |
| C93–C99 | `Thermal/Assembly`: cells and faces with local shape data, hanging-node constraints as a matrix, literal fold over cells and faces; `Thermal/Balance`, `Thermal/Energy` | transposition of finite sums; partition of unity; induction over steps; concrete meshes for refutations |
| C100–C104 | `Material/Fill*`: the reader of the material database (texts split, parsed and put in slots, with an outcome for throwing and for undefined behaviour); `Material/Update`: property update of a cell | frame lemmas for the nested loops; refutations for texts |
| C105–C106 | `Material/CellState`: the map from cells to columns of the state, the copies of the state in the lanes of the host operator and the positions of the device operator | frame lemmas for loops that write one column or one block of positions per cell |
| C107 | `Thermal/Device`: right-hand side of the device operator, source on the host, device mass inversion | same weak form as the host term by term; runs by induction on the steps; refutations for small cells and for varying heat capacity |
| C108 | `HeatSource/Learn`: augmented parameters, extraction into the member's input tree, `update_physics_parameters` | induction on the frames with the invariant "every source agrees with its entry"; heat by C65; refutations (no beam, range, restart) |
| C109 | `Thermal/Initial`: activation loop of the constructor, with the initial state of C64 | induction on the cells; alignment is the `Holds` of C21/C41 |
| C110 | `Thermal/Initial`: mesh formats, scaling, material ids | case analysis; refutation by a mesh file with an unknown id |
| C111, C112 | `Mechanics/System`: assembled matrix and right-hand side over all cells with affine constraints, exact solution | tested form = virtual work; positive definiteness, finite-dimensional linear algebra; refutation: iteration limit |
| C113 | `Mechanics/StressBalance`: any sequence of solve + compute_stress | invariant over the steps (stress of the old displacement minus a traceless part); refutations: shear cell that yields, heated bar |
| C114 | `Deposition/Inside`: is_within_stl with the contract of the two searches | segments from the centre to the nearest point do not cross the surface (connectedness); projection on a convex set; refutations: acute edge, 2D |
| C115 | `Thermal/Convergence`, `Thermal/ConvergenceMesh`, `Thermal/ConvergenceOrder`: the steppers of C40 on any operator and on the assembled one | local error + discrete Gronwall with steps that contain a switching time counted separately; local Lipschitz bounds of the assembled right-hand side; for the order: Taylor expansions of the stages around the exact solution, its linearisation and a compact tube on which the right-hand side is replaced by a globally Lipschitz one |
| C116 | `Thermal/Stability`: the operator of C93 written as heat exchange between degrees of freedom and with the surroundings | discrete maximum principle for forward Euler; Runge-Kutta steps as means of Euler steps for temperature-independent data; refutation: rod of one cell beyond the limit |
| C117 | `DataAssim/Noise`: draws of a generator shared by all members, diagonal and Cholesky branch, then the update of C53 | moments by linearity of Mathlib's Bochner integral over any white noise (proved for independent standard normal draws); bilinear form of the sample covariance; refutation: noise after a restart |
| C118 | `Thermal/Stages`: the operator with `_liquid_ratio`, `_powder_ratio`, `_face_powder_ratio` threaded through the stages of the three time steppers (`PMesh.eval`, `PMesh.evolve`, `PMesh.run`, `PMesh.published`); specification `Leaves` (clamped linear liquid fraction of the last evaluated field, least powder over all evaluated fields). Proved by composition of evaluations over any number of steps; without powder the run equals `Thermal.steps` of the frozen operator. The claim for the *current* temperature is refuted (one step late with forward Euler, stage temperatures with Runge-Kutta) |
| C119 | `Deposition/FiveAxis` on the model of `Deposition/Model`: closed form of the loop for a segment that is not shorter on the part than in the machine (`chord_closed`), rows of segments during which the table stands still (`C119_rows_partial`), termination, boxes under rotations about the vertical; the direction of the boxes, the box containing the beam and turning tables are refuted |
| C120 | | C120 | `Material/History`: refinement trees that carry the fractions of cells and points; runs of operator applications, outputs and adaptations; on top of `Material/Phase`, `Refinement/Forest` (`C21`, `C22`, `C105`, `C106` justify the composition) | induction over the run with a backward simulation: every later cell has an ancestor whose data bound its own; prefix-freeness of the active cells | |
| C121 | | C121 | `Input/Rules`: a declarative specification `Rules` of the input with literal entry and option names, against the model of every check in `Input/Validate` | each section is shown equivalent to its rules; induction over the boundary lines and over the names of a line; the deviations are the three restrictions of `Ordinary`, refuted otherwise | |
| C122 | | C122 | `Ensemble/Loop`: the whole ensemble (groups, members with their databases, meshes and temperatures) in the loop of `run_ensemble`, on top of `Driver.iter`, the refinement of `Refinement/Forest` and the bounding sources of `Ensemble/Params` | induction over the iterations with the invariant that meshes and loop variables agree; the resolution of all beams by composing C21 and C29; violations by explicit runs | |
| C123 | | C123 | `Ensemble/Loop`: which sections of the member's and of the common database every function of the loop is given | stripping the unused entries from all member databases commutes with every iteration (induction); the section `sources` and three entries are used, material properties are not (refuted) | |
| C124 | `Text/Split` (`boost::split` with `token_compress_on`), `ScanPath/Text`: both loaders from the characters of the file, with `std::stod`/`std::stoi` as parameters, feeding the token level loaders of `ScanPath/Model` | the split of a line that consists of given fields is computed by induction over the fields; then induction over the lines and C04/C05 | |
| C125 | `Deposition/Text`: `read_material_deposition` from the characters of the file, with `std::stod`/`std::stoi` as parameters | the tokens of a line that spells a record (`Text/Split`), induction over the lines, then C11 | |
| C126 | `Driver/CheckpointFiles`: file operations (open, fill) of every checkpoint on a disk, with the interleavings of the processes at the time file; the restart reads the disk | a file that is filled last is complete; names of different numbered checkpoints differ (digits, then an ending without leading digit); later operations do not touch earlier names; refutations for overwritten checkpoints and an output directory | |
| C127 | `Thermal/Parallel`: distributed vectors (owner, ghost copies), the loops of deal.II as fetch - local work - compress, one process per cell and face, the stateful operator of C118 | what a cell or face adds depends only on entries its process holds; sums over processes are sums over cells; invariant 'the owner stores the serial value' through evaluations, stages and steps; counterexample at a surface between processes | |
| C128 | `Mechanics/Dissipation`: consequences of the radial return of `Mechanics/Plasticity` over histories | Kuhn-Tucker form of the update; Cauchy-Schwarz; the update is the projection onto a convex set in the energy norm; induction over histories; counterexample for kinematic hardening | |
| C129 | `Float/Format`: roundings (monotone, idempotent, Sterbenz, relative error) and the binary format with p bits, ties to even; `Driver/Rounded`: the loop of `Driver/Model` with every operation rounded | invariant of the loop: the last step is shortened only when the time is at least half the duration, so the subtraction is exact; error accumulation by induction; windows end where the step ends because both are the same rounded sum; counterexamples by evaluating roundings | |
| C130 | `Float/Phases`: the update of a point and the averages of a cell of `Material/Phase` with every operation rounded | monotone rounding keeps the fractions in range because `1 - liquid` is the same rounded number in the minimum and in the difference; sums of k fractions stay below k; error accumulation; counterexample by evaluating roundings | |
| C131 | the assembled operator and the time stepper of C93/C40 with any number of runs side by side; mesh changes as affine maps of the temperatures | the right-hand side preserves combinations of temperatures and power densities whose weights sum to one; induction over stages, steps and legs; a mesh of one degree of freedom shows that constant data are needed | |
| C132 | the loader and the queries of C04/C05 with each operation followed by an arbitrary rounding (Float/Format), agreeing with the exact model when the rounding is the identity (`valueR_exact`) | induction over the records with a factor (1±u) per addition; monotonicity of rounding for order and direction; a product of error factors for the 14 u bound; two paths evaluated in double precision show that the end point is missed | |
| C133 | the loop of C12/C13 with each operation followed by an arbitrary rounding, `Point::distance` as the rounded square root of rounded squares; equal to the exact model without rounding (`state_exact`, `track_exact`) | the projection on the segment grows by at least half of min(length, eps) per pass while the loop runs and is bounded by the length; relative error calculus for distance, direction and times; a segment on which a tiny deposition length stagnates | |
| C134 | the model of C01, C03, C09, with non-unit quaternions; specification by a positive factor times a unit quaternion (`Writes`) | the rotation matrix of `c u` is `(1 - c²) id + c² R(u)`; powers do not see positive factors, the interpolation keeps the factor of the first record; exact condition for NaN | |
| C135 | the models of C06, C65, C66, C12 (two objects, one on the moved and delayed path) | simulation relation between the two objects over the whole history; induction over the segments and the loop states of the deposition | |
| C136 | `Mechanics/History`: event histories over lists of cells, on top of `setupDofs` (C49) and `stressUpdate` (C44); the transfer copies the data of the old cell point by point (the default strategies of `dealii::CellDataTransfer`: first child on coarsening) | invariant over the run; the return mapping keeps it by C44, C45 and C128 | |
| C137 | `Driver/Growing`: the loop of `run` with re-reading and deposition together (refines the model of C18, theorem `growAt_toScan`); events are rows sorted by time, `lower_bound` windows | closed form of the windows for every `deposition_time` (stride `p`), exact set of rows activated in each step, invariant for the number of reads, simulation argument for causality | |
| C138 | `ScanPath/Waiting`: program counter, `_last_write_time` and memory of a process as a transition system driven by an arbitrary schedule against an arbitrary history of the disk | invariant relating the time stamp, the last load and the disk; refutations by general theorems over all schedules and by literal schedules | |
| C139 | `Material/Parallel`: the kernel as a program of single reads and writes of the shared views, threads interleaved by an arbitrary schedule | the accesses of a thread are in the column of its cell (C105); threads with disjoint accesses end like sequential runs (invariant over the schedule); the sequential run is `update` of C104; a lost update if two cells shared a column | |
| C140 | `Thermal/DeviceThreads`: the cell loop as threads of single reads, writes and atomic additions under an arbitrary schedule, with the addition of the machine as parameter ; `Thermal/DeviceThreadsVmult`: the cells of a mesh of C107 | invariant over the schedule: private entries end as in a run alone, an entry of `dst` is a fold over a permutation of the contributions; error bound of a rounded sum by induction | |
| C141 | `Mechanics/MeshLoop`: `mesh_loop` as a transition system (start a cell with dirty copy data, one access of any worker, copy the oldest finished cell), the workers as programs of single accesses | invariant: folding the copier over the result, what each active worker will leave, and the cells not started, never changes; workers without shared accesses satisfy it always, the load worker if nobody overwrites what is still to be read; refuted for the load as programmed; `Mechanics/MeshLoopSystem`: with the terms of `Stiffness` and the copier of the constraints the loop computes the system of C111-C113 | |
| C142 | `Thermal/HostThreads`: the cell loop as phases of ranges, each a program of single reads and writes (no atomics) under an arbitrary schedule | non-interference: programs with disjoint locations end, under every schedule, in the memory of running them one after the other; then induction over phases and batches; without the colouring a contribution can be lost (C142_needs_colours). `Thermal/HostThreadsVmult`: with the cells and faces of `Thermal/Assembly` as batches the loop computes the `vmult` of C93 | |
| C88… | see `properties.jsonl`; each file's header names the modelled functions | |

Not expressible / not modelled: see section 5.

## 3. Trusted base
* Lean 4.33.0 kernel; Mathlib definitions. Theorems depend at most on `propext`, `Classical.choice`, `Quot.sound`. No axioms
  are added, no compiled evaluation is used in proofs.
* The correspondence between the C++ text and the Lean model (checked by reading; citations in each definition).
* The assumptions on external libraries listed in section 1 and in the definition comments.

## 4. Findings (places where the code violates the listed property)

Each is proved in Lean with a witness (a theorem of the property whose name ends in `_refuted`, or, where the property's
statement was weakened, the hypothesis of its `_partial` theorem).

* **C03** `pow` of the quaternions ±1 divides 0 by 0. **C09** hence interpolation between equal/opposite quaternions is NaN.
* **C06** scan-path queries at decreasing times return the wrong segment (cached index).
* **C12** box generation never ends for a vertical powered segment and for a five-axis path with rotation only. **C13** a powered
  zero-duration spot gives a NaN deposition time. **C14** sloped segments are not covered by the boxes.
* **C17** a mechanics-only run never advances the time. **C18** with a live scan path the loop never ends unless the file is
  finished at start-up. **C19** deposition gap when the path is re-read. **C23** restart: activation windows differ from the
  uninterrupted run; `output_dir` breaks restart. **C24/C26** ensemble communicator and loop-end details (see notes).
* **C27** rejection sampling depends on the partition; negative means make it endless. **C29** Goldak depth read from "diameter".
* **C30/C31/C38** host SIMD phase update resets the powder flag inside the lane loop; mesh adaptation averages bring back powder.
  **C32** solidus = liquidus divides 0 by 0. **C33** a full 12-row table loses its last interval. **C35** host operator misses the latent
  heat of melting powder.
* **C41/C42** newly activated cells are marked as melted; coarsening gives the parent the mark of its first child; nodes shared between ranks lose the old temperature. **C43** `run` writes the
  checkpoint with stale state ratios.
* **C44** back stress uses the plastic modulus squared. **C46** von Mises output uses `[2][1]` twice and never `[0][2]`.
  **C73** old displacement zeroed at shared nodes of newly solid cells depending on cell order. **C74** shared index buffer race in `assemble_rhs`.
  **C75** reported stress ignores the thermal strain. **C76** melting between two mechanical solves keeps the stress. **C77**
  returned displacement may be stale.
* **C54** augmented parameters on non-root ranks become 0 and are gathered. **C78** the localised covariance is not positive semi-definite.
  **C79** the step function can move the prediction away from the observation. **C80** `nth_index_in_set` used instead of the dof
  indices. **C81** default uncertainty 0 makes the system singular.
* **C55** a gap in the log is accepted, a missing camera time shifts later ones, an extra column writes out of bounds. **C57** rays are
  lost. **C82** an empty field shifts the columns.
* **C58** printed_surface overwrites a condition; **C59** validator order of "radiative,adiabatic"; **C60** accepted inputs that do not run;
  **C62** unit typos give scaling 0; **C63** short STL uses an uninitialised count; **C64** powder layer with few states writes out of
  bounds; **C83** method "file" always rejected; **C84** zero step accepted; **C85** rejected input exits with 0; **C86** empty STL.
* **C65** zero-duration first record → NaN heat, electron beam negative heat, 2D beam height from second column. **C66** boxes of
  scaling < √5 miss heated points, five-axis box rotated the wrong way. **C87** vectorised heat ignores the cut-off per lane.
* **C68** cooling rate computed as `old - new / dt`. **C71** two-physics output ignores `output_dir`; pvd entries doubled; restart
  overwrites the pvd. **C72** covariance-sparsity timer never stopped.
* **C88** after the end of a five-axis path the reported orientation is the last rotation, but `rotate` leaves points unchanged.
* **C89** the final state is not written unless the output period divides the number of steps. **C90** a step that ends exactly one window
  after a frame is not written. **C91** an ensemble restart after the first frame throws (or reads out of bounds) and forgets the
  parameters learnt by the data assimilation.
* **C92** a mechanical input without elastic constants is accepted.
* **C95** conduction between materials of different heat capacity creates or destroys energy (the whole equation is divided by `ρ c_p` before
  integration by parts). **C96** a boundary declared both adiabatic and radiative is silently adiabatic when all boundaries are such;
  a face handled by the process that owns only the empty side uses material 0 without powder. **C97** the stored temperature of a
  hanging node grows by the factor `1 + dt` per step until the next output. **C98** the printed heat input uses Gauss quadrature even if the
  operator uses Lobatto.
* **C101** mechanical properties ignore the temperature (first value only). **C102** a property text with one number in table format reads out of
  bounds; a third number of a row is dropped silently; a table read as polynomial gives a nonsense polynomial. **C103** an unreadable constant is
  taken as missing (largest number). **C104** after the boundary update the first three properties of a cell are zero. **C107** on the device a node with lumped mass at most
  1e-15 (cells of 10 µm) never changes temperature; the source is scaled by the cell mean of 1/(ρ c_p), so that it differs from the host where
  the heat capacity varies in a cell; boundary conditions other than adiabatic throw.
- **C108** learnt parameters are not clamped (a negative absorption is installed), are lost at a restart, and with `n_beams 0` the empty block is read out of bounds. **C110** material ids of
  an imported mesh are never compared with the number of materials; `material_height` and `powder_layer` are in metres whatever `units.mesh` says.
- **C112** the conjugate gradient method may take a tenth of the number of unknowns as iterations; below ten unknowns it fails at once. **C113** the linear system has no term for the plastic
  strain, so after yielding the stored stress does not balance the load, however often the step is repeated; with thermal expansion the stored stress contains the thermal part
  `(3λ+2μ) α ΔT` of a free body. `GravityForce` exists but the application never passes body forces (C111 is about the library).
- **C114** at an acute edge several triangles are equally near to an outside point and the sign of the dot product differs between them, so a cell outside the shape may be accepted; in 2D the
  function returns false for every cell, so with an STL file nothing is ever deposited; with ArborX < 2 the shape is ignored.
- **C115** holds for locally Lipschitz data. The apparent heat capacity jumps at solidus and liquidus, where no Lipschitz bound exists: convergence through a phase change is not proved. The order of accuracy (`C115_order`, `C115_order_mesh`) is proved for every right-hand side that is, near the exact solution, as often continuously differentiable as the order of the method; tables and phase changes are not differentiable at their nodes, beams not at switching times, and there the order drops to one (`C115_first_order`).
- **C116** no time step is ever compared with a stability limit: a rod of one cell with a time step of at least 3/(4a), a = k/(rho c_p h^2), reaches arbitrarily negative temperatures with each of the methods. Within the limit (and non-negative couplings, as on cubes) the maximum principle holds.
- **C117** the random number generator is default-seeded and not part of a checkpoint: the first assimilation after a restart repeats the perturbations of the first assimilation of the run instead of continuing the stream.
- **C118** The state is updated with the temperatures that are handed to the operator, not with the result of the step. With forward Euler the written liquid and powder fractions belong to the temperature of the step before the written one (`C118_lag_refuted`: powder at 2300 is written as unmelted powder); with `rk_third_order` the extrapolated third stage can melt powder for good although no temperature at a step boundary reaches the solidus (`C118_overshoot_refuted`).
- **C119** Five-axis boxes are turned with `rotate` although the centres are brought to the part with `inv_rotate` (`material_deposition.cc:220-223`): on a table tilted by a quarter turn about x every box lies above the beam (`C119_tilted_path_refuted`, `C119_wrong_side_refuted`). Only two opposite corners are turned, so for other tilts the box does not even contain the point under the beam (`C119_beam_outside_refuted`). While the beam stands still and the table turns with the power on, only one box is generated (`C119_turntable_refuted`).
- **C120** - C120: with `coarsen_after_beam` the parent of a coarsened family gets the fractions of its first child (`CellDataTransfer` default strategy; debug builds throw if the children differ), so molten material turns back into powder and the amount of powder in the coarse cell can double (`C120_coarsening_refuted`).
- **C121** - C121: outside `Ordinary` the check deviates both ways: `radiative,adiabatic` is accepted and deposition from a file is rejected (`C121_everywhere_refuted`).
- **C122** - C122: a perturbed `geometry.material_height` gives the members different active cells (it is read from the member database, `C122_height_refuted`); with `scan_path_for_duration` groups may have read different contents of the scan path file and then deposit different boxes (`C122_reread_refuted`).
- **C123** - C123: perturbed material properties, boundary conditions and every other parameter outside `sources`, the two temperatures and the material height have no effect: `MaterialProperty` and `Boundary` are built from the common database (`C123_materials_refuted`).
- **C124** in an event series a blank or comma at the start or the end of a line makes `std::stod` throw for the empty token (`ScanPath.cc:168-191`); a line without power is accepted and the beam gets the z coordinate as its power (`split_line.back()`); in a segment file an empty line is an error although an event series may have them.
- **C125** an empty line in a deposition file (for instance an additional line feed at its end) ends the program with an exception of `std::stod`; a line without angle reads outside of the token vector (undefined behaviour, `material_deposition.cc:108`).
- **C126** with `checkpoint.overwrite_files true` (the usual setting) a crash between saving the mesh and writing the time file leaves the new mesh with the old time, and a restart silently continues with both; a crash after the first file has been opened leaves no usable checkpoint at all (`C126_overwrite_refuted`). The files should be written under a temporary name and renamed.
- **C127** a surface of the material that is also a boundary between two processes uses the face state of the process that works on the face; if that process owns only the cell without material, the powder fraction and material id are those of an empty cell, so the heat loss (and the temperatures) change with the number of processes (`C127_interface_refuted`)
- **C128** with kinematic hardening the back stress of a point on the yield surface grows by `(1 - beta) H^2` times the normal even when the strain increment is zero, so repeating a time step without any load changes the stress (`C128_rest_refuted`)
- **C129** with time_step = 0.1 and duration = 1 the accumulated time after ten steps is 0.9999999999999999 and the program does an eleventh step of 1.1e-16 (`C129_extra_step_refuted`); a restart with a larger time step can end one bit after the duration (`C129_restart_overshoot_refuted`); below the rounding error the loop never stops (`C129_stagnation_refuted`)
- **C130** the solid fraction stored for a cell is computed from two rounded means and can be negative: eight points of powder at 2 % of the mushy zone give -2.2e-16 (`C130_cell_refuted`)
- **C132** The computed beam does not end where its segment ends: in double precision a beam sent from 0 to 7 m in 25 s ends at 7+2^-50 m (`C132_overshoot_refuted`), one sent from 0 to 1 m in 49 s ends at 1-2^-53 m and jumps at the next segment (`C132_end_refuted`); harmless for physics, but a comparison of the end position with the file must use a tolerance (`source/ScanPath.cc:250-254`).
- **C133** A deposition length below half an ulp of the coordinates makes `deposition_along_scan_path` add the same box for ever (`C133_lost_refuted`: from x = 1 m to 2 m with length 2^-54 m in double precision); positive lengths are not checked against the size of the coordinates (`source/material_deposition.cc:199-313`).
- **C134** Writing the same orientation with different digits in two consecutive records (`0.7071 0 0.7071 0`, then `0.70710678 0 0.70710678 0`) makes the orientation between them NaN: the quotient has no axis, and `get_quaternion` only tests for equal texts (`source/ScanPath.cc:313`, `source/Quaternion.cc:113-118`; `C134_same_rotation_refuted`, exact condition `C134_undefined_iff`).
- **C135** A path whose first record ends at time zero has no position at time zero (0/0), but has one when it is delayed (`C135_first_refuted`); a first record with power is deposited at time 1e-10 however late it ends (`C135_first_power_refuted`); deposition times that fall before 1e-10 because of the lead time are cut off and so not delayed.
- **C136** The stresses of refined and coarsened cells are transferred with the default strategies of `CellDataTransfer` (`source/MechanicalPhysics.cc:37-39`), not with `ClosestQuadPointAdaptation`, which no code outside the tests uses: the point q of a child gets the data of the point q of the parent, wherever they are (`C136_refine`), a merged cell gets the stress of its first child and the others are lost - a debug build stops in `check_equality` (`C136_coarsen_refuted`). If cells of which one was liquid at the last mechanical step are merged into a cell that takes part, its yield radius is NaN (`C136_merge_refuted`).
- **C137** Events of a growing path get lost. The file is read again only in the first step that starts at or after the end of the old path, and the activation window of the steps before was computed with the old list: events added between the end of the old path and that step (`C137_uneven_refuted`), within a `deposition_time` window that is already open (`C137_long_window_refuted`), or - always, if `deposition_lead_time` is positive - deposited before the end of the old path (second part of `C137_growing_path_refuted`) are never activated.
- **C138** Reading a file that is being written: (a) two versions with the same time stamp (coarse file clock): the second one is never read and the program waits for ever; (b) the second call of `last_write_time` in `wait_for_file_to_update` is outside the `try` block, so a file that is missing for the length of two looks ends the program although the code means to allow this, and a file missing for one look is taken as updated; (c) each MPI process reads the file for itself, so processes may go on with different paths (and different deposition lists in collective operations); (d) a line cut by the writer is accepted as a record with a wrong end point.
- **C140** The order of the atomic additions is not fixed, so device runs are not reproducible bit by bit: three contributions 2^53, 1, 1 give 2^53 or 2^53 + 2 (C140_reproducible_refuted).
- **C141** `temperature_local_dof_indices` is declared outside of the worker and captured by reference: two cells of temperatures 0 and 1 can be assembled with load 2 instead of 1 (C141_load_refuted); declaring it inside of the worker repairs it (C141_load_repaired).

## 5. Not modelled
MPI message passing itself, deal.II finite-element internals (shape functions, constraints, solvers; the identity of `boundary_id()` on an inner face is a field of the model), Kokkos device kernels,
file-system timing (`wait_for_file`), Caliper/Adiak instrumentation, floating-point rounding (except where `Float/*` models it: C129, C130, C132, C133).

## 6. Conformance with the project's own tests

These are tests of the model against the expectations written in `/repo/tests`, not proofs; they are evidence that the model
says what the code says.

- `tools/conformance/validate_input.py > Conf.lean; cd lean; lake env lean Conf.lean` turns every check of
  `tests/test_validate_input_database.cc` (69 trees, accepted or refused) and every shipped `.info` file into an evaluation of
  the model's validator and start-up. All 69 verdicts agree with the test. All shipped inputs are accepted and start, except
  `tests/data/thermoelastic_bare_plate.info`: its default boundary `adiabatic` has no mechanical condition, which the validator
  (of the code and of the model) refuses; the integration test that uses the file calls `run` without validating.
- `Verif/Conformance/ScanPath`, `Deposition` and `HeatSource` replay `tests/test_scan_path.cc` (segments of both file formats from the text
  of the data files, positions, power after the end), `tests/test_material_deposition.cc` (`deposition_from_scan_path_2d` and `_3d`: boxes,
  times, cosines, sines) and `tests/test_heat_source.cc` (both beams in 3D, Goldak in 2D, before, during and after the path) on the model:
  the values the project expects are the model's values, exactly (over the reals), checked by the kernel.
- `Verif/Conformance/Validate` replays the whole of `tests/test_validate_input_database.cc` (every `put`, `erase`, expected pass and
  expected throw, in order, and the four input files it reads) in the kernel; `Material` replays the ratios, tables and polynomials
  of `tests/test_material_property.hh`, `Quaternion` the test `tests/test_quaternion.cc`, `Timestamps` the test `timestamp` of
  `tests/test_experimental_data.cc`.
