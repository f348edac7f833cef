{
"C03": {
"note": "pow of plus or minus the identity is 0/0 (C03_pow_identity_refuted, exact set in C03_pow_nan_iff); the rest of the claim is proved for all other unit quaternions."
},
"C04": {
"note": "Tokenised records; a SCAN_PATH_END marker placed directly after the declared count is not noticed (C04_marker_after_declared_count_unnoticed)."
},
"C06": {
"note": "False for times earlier than a saved one (C06_history_independent_refuted); proved when no earlier saving query asked for a later time."
},
"C07": {
"note": "For t <= 0 with a first record ending at time 0 the position is NaN (outside the claimed range)."
},
"C08": {
"note": "Histories include growing re-reads; an empty path is read outside its list (C08_empty_path)."
},
"C09": {
"note": "False when consecutive records are opposite quaternions of the same rotation (C09_opposite_sign_refuted)."
},
"C10": {
"note": "Answers after re-reads proved for saved times not after the query; a shrinking file reads outside the list."
},
"C17": {
"note": "Thermal runs: proved from every start state. Without thermal physics time is never advanced and the loop never ends (C17_mechanics_only_refuted)."
},
"C18": {
"note": "Only paths finished at start-up end the run; otherwise the loop never ends because the in-loop block cannot set the duration (C18_ends_after_updates_refuted, for all file histories). C18_rereads: at every step of every history, finished paths are left alone and unfinished paths that have come to their end are read again exactly once before the step."
},
"C19": {
"note": "C19_exact: exactly which steps activate an event, for every deposition_time. Safe exactly if the window max(deposition_time, time_step) ends within a millionth of a step of a multiple of the time step (C19_safe_windows_partial, C19_unsafe_windows_refuted); counterexample deposition_time 2.5, time step 1."
},
"C20": {
"note": "Runs from the beginning with a positive refinement period; fixed duration."
},
"C23": {
"note": "Steps, times, refinement, outputs: equal. Activation ranges equal if deposition_time <= time_step, else refuted. With an output directory no restart prefix finds both files (refuted)."
},
"C24": {
"note": "Refuted for every group whose first member is not member 0; such groups exist in all runs with several ranks and members."
},
"C25": {
"note": "Comparison of the double n/e is that of the rational."
},
"C26": {
"note": "Proved for first_frame = 0, no restart, at most one stamp in the last step; refuted for first_frame > 0 (never assimilated / out of bounds) and for two frames in the last step."
},
"C11": {
"note": "Tokenised lines."
},
"C12": {
"note": "Exact characterisation for unrotated paths in three dimensions (ends iff no powered vertical segment); in two dimensions every unrotated path ends (C12_terminates_2d) and rotated ones are refused (C12_rotation_2d). Never ends for vertical powered segments and for five-axis paths whose build-frame move is shorter than the machine-frame segment; C119_terminates_partial covers the other five-axis paths."
},
"C13": {
"note": "Block structure and minimum time for every path; row formula and monotone times for unrotated paths with positive segment durations. Powered spot with zero duration gets a NaN time."
},
"C14": {
"note": "Planar, unrotated powered segments in 3d; horizontal ones in 2d (C14_cover_2d), every bead of every unrotated 2d path with its time (C14_beads_2d); deposition length at least 2e-10. C14_sloped_not_covered shows that sloped segments are not followed."
},
"C15": {
"note": "For every permutation std::sort may return."
},
"C16": {
"note": "ArborX query modelled by its contract."
},
"C27": {
"note": "False as soon as a draw is rejected (for every generator stream with a negative first number); proved when no draw is negative. A negative mean with zero deviation never returns."
},
"C28": {
"note": "Leaves of the ensemble section must be distinct *_stddev keys."
},
"C29": {
"note": "Depth is read from the key diameter: the bounding source is shallower than a member whose beam is deeper than wide."
},
"C21": {
"note": "Forest of axis-parallel octrees of any dimension; deal.II/p4est flag execution is the contract Adapts, which leaves all balancing and coarsening choices open."
},
"C22": {
"note": "Cell data transfer by the contract Transferred: refined children copy the parent, a coarsened parent copies the child deal.II's strategy picks."
},
"C30": {
"note": "Proved for MaterialProperty::update and the device code; the host SIMD loop resets the powder ratio of all lanes in every iteration, so it fails for powder in batches of two or more lanes."
},
"C31": {
"note": "Cell powder never increases (host, device, update); a molten point gets powder back when ratios are averaged at mesh adaptation, and in non-last SIMD lanes on the host."
},
"C32": {
"note": "At solidus = liquidus the fraction at the melting temperature is 0/0."
},
"C33": {
"note": "Last interval of a full 12-row table returns the last value."
},
"C35": {
"note": "Host operator tests liquid*solid > 0, which misses melting powder."
},
"C38": {
"note": "Phase fractions only; heat source lanes are in C65."
},
"C41": {
"note": "refuted twice: newly activated cells are marked as melted (indicator still infinity), and in parallel a node of an old cell whose owner rank has only new cells gets the new-material temperature; proved: everything else, serial temperatures fully"
},
"C42": {
"note": "exact between mesh changes; refuted for cells created by adding material (marked at creation); partial theorems characterise exactly all histories of marking and adding material, and on an adapting mesh all histories of marking, adding and refining (C42_adapting_partial); refuted with coarsening (the parent takes the mark of its first child)."
},
"C43": {
"note": "stored fields round-trip on any partition; refuted: run() writes checkpoints with stale state ratios (no set_state_to_material_properties before save_checkpoint)"
},
"C40": {
"note": "deal.II Runge-Kutta tableaus are part of the trusted base"
},
"C44": {
"note": "Elastic branch and definedness proved; plastic branch proved for isotropic/no hardening. Refuted with kinematic hardening: back stress moved by plastic_modulus^2 instead of plastic_modulus*increment."
},
"C45": {
"note": "Proved for one update and every loading history."
},
"C46": {
"note": "Refuted: shear terms [1][2] and [2][1] are both used, [0][2] never; exact condition for agreement proved."
},
"C47": {
"note": "Symmetry, energy identity, PSD, kernel, translations."
},
"C48": {
"note": "Proved for cells with temperature; C49_setup shows no mechanical cell lacks temperature."
},
"C49": {
"note": "Pack/unpack round trip by address arithmetic, setup_dofs case analysis."
},
"C73": {
"note": "Refuted: zeros of newly solid cells overwrite shared nodes depending on cell order; exact characterisation proved."
},
"C74": {
"note": "Refuted: the dof index buffer is shared between mesh_loop workers; sequential execution proved correct."
},
"C75": {
"note": "Load proved in 3D; reported stress refuted (thermal strain is not subtracted)."
},
"C76": {
"note": "Refuted for melting between two mechanical steps; partial when a mechanical step sees the melt."
},
"C77": {
"note": "All outputs current; the returned displacement can be stale."
},
"C50": {
"note": "Gaspari-Cohn: values, antitone and continuous by calculus; scaling applied to covariance entries."
},
"C51": {
"note": "Unbiased covariance characterised by pairwise differences."
},
"C52": {
"note": "Observation matrix = calc_Hx; mapping from nearest-point query."
},
"C53": {
"note": "Gain formula with matrix inverse, zero innovation, uncorrelated entries, mean, length check; the GMRES solver is a contract."
},
"C54": {
"note": "Block 0 and global round trip proved; refuted for parameters when a member runs on two ranks (non-root copies become 0, and the zeros are gathered at the next assimilation)."
},
"C56": {
"note": "Exactly the mapped entries change, last observation wins."
},
"C78": {
"note": "Symmetry and variances proved; PSD refuted for the step function and for parameters with any localisation; 'none' with a cutoff distance localises."
},
"C79": {
"note": "Proved for PSD covariance and R=rI; refuted with the step function."
},
"C80": {
"note": "C80_support_points, C80_support_order: get_dof_to_support_mapping; C80_assembled_partial: after any history, on any number of ranks, the assembled matrix is the localised covariance of the current mesh and the distance map is never read where it has no entry, if the support points come in the order of the owned dofs and the sphere search meets its contract. Missing: the order (nth_index_in_set is used instead of dof_indices); C80_order_matters_refuted, C80_assembled_order_refuted."
},
"C81": {
"note": "Proved for positive uncertainty and PSD covariance; refuted for the default uncertainty 0 with two observations at one dof."
},
"C55": {
"note": "Holds for every readable log as far as which stamps are returned (C55_requested_frames_partial, C55_complete_log_partial), and from the characters of the file for a complete log (C55_text_partial). Refuted: a log with a gap is accepted because the compared variable is re-initialised for each line; a camera without a time for one frame shifts the later ones; an extra column writes out of bounds; an empty line ends the program."
},
"C57": {
"note": "Nearest among the examined, non-parallel flat faces is proved; for axis-aligned cells the reported point is the first point of the ray in any examined cell. Refuted in general: rays are lost behind the first rank's box, behind eight boxes, and for very short direction vectors. Search structure (ArborX) is a parameter."
},
"C82": {
"note": "Character-level model of the row parser; strtod is a parameter that does not read past a comma. Empty fields shift the columns (C82_empty_field_shifts)."
},
"C58": {
"note": "Explicit, default and missing conditions proved for every mesh boundary unless a printed surface is given and the boundary is the largest id; that case is refuted (the printed surface overwrites the last boundary). Lists of ids proved; on meshes with gaps in the ids they contain ids that are not on the mesh (refuted). Wrong ids rejected (proved)."
},
"C59": {
"note": "Interpretation proved independent of order and repetition. Acceptance by the validator proved to depend only on the set of names unless adiabatic is mixed with radiative/convective, where it depends on the order (refuted)."
},
"C60": {
"note": "Exact: an accepted input with thermal physics is run iff it satisfies Usable (one material with at most five coefficients, documented spelling, complete checkpoint section, positive counts, ...); the property for every accepted input is refuted with six accepted inputs. Existence of files, MaterialProperty's own checks and mechanics-only inputs are not in the model."
},
"C61": {
"note": "All listed ranges proved to be enforced."
},
"C62": {
"note": "Proved for lower-case units other than centimeter/second; refuted for centimeter/second (typo in the table) and for other letter cases."
},
"C63": {
"note": "Proved for files of at least 84 bytes and, for all files, that no facet outside the file is used; refuted for shorter files (uninitialised count)."
},
"C64": {
"note": "Proved for three-state materials and without powder; with a powder layer and a material without powder state the table is written out of bounds (refuted)."
},
"C83": {
"note": "Deposition along scan paths proved; deposition from a file is always rejected unless a dotted key is put at the top level (refuted)."
},
"C84": {
"note": "Only non-negativity of the step is enforced; zero step and negative duration are accepted (refuted)."
},
"C85": {
"note": "Failing set-up gives a non-zero status (proved); rejected inputs and inputs for which nothing is run return zero (refuted)."
},
"C86": {
"note": "Proved for non-empty shapes and boxes; an empty shape gives an inverted box (refuted)."
},
"C65": {
"note": "Proved for Goldak and electron beam (scalar 2D/3D, vectorised 3D) and cube; total power equals absorbed power for the formula and is never exceeded by the truncated code. Refuted at the instant where a zero-duration first record makes the position 0/0 (value NaN while off)."
},
"C66": {
"note": "Box contains the scalar heated region for scaling >= sqrt 5 and unrotated frames (2D, 3D) and for the cube. Refuted for scaling in [1, sqrt 5) (refinement uses 2) and for rotated five-axis frames (box rotated forward, heat region is the inverse rotation)."
},
"C67": {
"note": "Full, every dimension and lane count."
},
"C87": {
"note": "Holds if no lane or every lane is beyond sqrt 5 radii; refuted otherwise (xpy_mask only used for the early return)."
},
"C71": {
"note": "Names and records over all runs of the modelled driver loop (new and restarted), all ranks and members. Refuted: two-physics and experimental-data post-processors ignore output_dir, relative output_dir doubled inside the pvd, restart overwrites the pvd record."
},
"C68": {
"note": "Points, gradient and R proved exact for every mesh of Lagrange cells (points shared by cells once per cell). Refuted for the rate: code computes old - new/dt, right only for dt = 1 (or old = 0), negative for small dt."
},
"C69": {
"note": "Any interleaving of the ranks' events, any number of ranks."
},
"C70": {
"note": "Real positions; numeric_limits<double>::max is assumed to exceed all squared distances. The class ClosestQuadPointAdaptation is used by the project's tests only; the application transfers with the default strategies (C136)."
},
"C72": {
"note": "All call sequences, and all traces of start/stop calls of a run. Refuted: covariance-sparsity timer started twice, never stopped."
},
"C88": {
"note": "Power exactly per record; rotation agrees with the reported orientation until the end. Refuted: after the end of a five-axis path the orientation is the last recorded one, but rotate() leaves points unchanged."
},
"C89": {
"note": "The schedule is proved; the final state is written only if the output period divides the number of steps (C89_final_state_refuted)."
},
"C90": {
"note": "Proved for first_frame = 0 except when a step ends exactly one half window after a frame (C90_exact_window_refuted)."
},
"C91": {
"note": "Proved when nothing was assimilated before the checkpoint; otherwise the reader is not advanced and the run stops with the exception or reads out of bounds, and learnt parameters are not stored in the checkpoint."
},
"C92": {
"note": "All inputs and parsers; refuted for the elastic constants of mechanical runs (never checked)."
},
"C93": {
"note": "Quadrature data and constraints of deal.II are parameters; proved for all meshes."
},
"C94": {
"note": "Proved for all three methods; dissipation is of the semi-discrete system."
},
"C95": {
"note": "Integral of the temperature proved for all methods; energy balance for uniform heat capacity over histories mixing all three methods and any step sizes (stage-wise delivered minus lost power; Simpson mean of the source power for insulated bodies; exactly P times the elapsed time for steady sources); refuted for two materials."
},
"C96": {
"note": "Refuted for boundaries that are both adiabatic and radiative, and for faces processed by the owner of the empty side."
},
"C97": {
"note": "The field is independent of stored hanging values; the stored values grow by 1+dt per step."
},
"C98": {
"note": "Equal when the operator uses the printing quadrature and scalar and vectorised sources agree; refuted for Lobatto."
},
"C99": {
"note": ""
},
"C101": {
"note": "First value of the solid's table or polynomial is what is used, independence of other states proved; refuted for the temperature dependence."
},
"C102": {
"note": "Acceptance characterised exactly (iff), driver's polynomial order suffices; refuted: undefined behaviour on a plain number, silently accepted malformed texts."
},
"C103": {
"note": "Refuted for unreadable texts, which are silently taken as missing."
},
"C104": {
"note": "Refuted: after the boundary-only update the first three properties of a cell are zero."
},
"C100": {
"note": ""
},
"C105": {
"note": "Proved for every list of locally owned cells with distinct degrees of freedom."
},
"C106": {
"note": "Proved for every arrangement of the cells into batches and every injective assignment of device positions."
},
"C107": {
"note": "Proved for adiabatic boundaries, Gauss quadrature, heat capacity constant in each cell and lumped masses above 1e-15. Refuted: nodes with mass <= 1e-15 are frozen on the device; source scaled with the cell mean of 1/(rho cp). The latent heat of powder also differs (C35), and the lane handling of powder (C38)."
},
"C108": {
"note": "Proved for every run. Refuted: range of the learnt values, restart, input without beams."
},
"C109": {
"note": "Proved for every mesh of a rank."
},
"C110": {
"note": "Proved but for the existence of a material for every id of the file, which is refuted."
},
"C111": {
"note": "The load is the sum over all unknowns of an axis; the partition of unity of the shape functions and the component of each unknown are hypotheses (true for FE_Q)."
},
"C112": {
"note": "Exact arithmetic; the conjugate gradient method is taken to return a solution when it returns. Refuted part: iteration limit n_dofs/10."
},
"C113": {
"note": "Fixed mesh and solid cells (melting and adding cells: C49, C73, C76). Proved: Hooke's law of the last displacement in the elastic regime, the decomposition for any plastic history, the balance; refuted: balance after yielding, and stress with thermal expansion."
},
"C114": {
"note": "Proved for convex solids without acute edges (any tie-breaking), and for any solid when the nearest surface point is on no edge; cells inside a convex solid are always accepted. Refuted at acute edges and in 2D. ArborX is modelled by the contract of its two queries."
},
"C115": {
"note": "Convergence for any operator (C115_error_bound, _convergence, _first_order, _convergence_local) and for the assembled one with locally Lipschitz material data (C115_mesh_partial: missing the jump of the heat capacity at solidus/liquidus and changing states). C115_order: full order of accuracy (1, 3, 4) for every right-hand side with that many continuous derivatives near the exact solution; C115_order_mesh: the same for the assembled operator; C115_order_linear: without smallness of the step for constant data and a steady beam."
},
"C116": {
"note": "C116_range_partial (forward Euler, any temperature dependence), C116_no_cooling_partial (with sources), C116_constant_data_partial (all methods, constant data) within the explicit time-step limit StepLimit; C116_unstable_refuted: the limit is not enforced."
},
"C117": {
"note": "C117_noise, C117_update (any covariance, also localised), C117_kalman_covariance (no localisation) proved for every number of members and observations; C117_restart_refuted: a restarted run does not use the perturbations of the uninterrupted one. Contracts: white noise draws, Cholesky factor, linear solver."
},
"C118": {
"note": "C118_forward_euler_partial, C118_stages, C118_runge_kutta_partial give the exact state after any number of steps (fields evaluated in order); C118_published_partial the written cell fractions; C118_no_memory the equality with the memoryless operator without powder; C118_idempotent. Missing from the full claim, and refuted: the state belongs to the current temperature (C118_lag_refuted, C118_overshoot_refuted)."
},
"C119": {
"note": "C119_rows_partial (placement, order, spacing, times; table still during the segment), C119_terminates_partial (no powered segment shorter on the part than in the machine), C119_turning_spot, C119_no_tilt (rotations about the vertical), C119_identity. Refuted: C119_tilted_path_refuted, C119_wrong_side_refuted, C119_beam_outside_refuted, C119_turntable_refuted. Missing: rows of segments during which the table turns."
},
"C120": {
"note": "Without coarsening the powder and melting statements are proved for all runs (molten: device code); partition of unity for the device code; refuted with coarsen_after_beam (C120_coarsening_refuted). Host code with powder and several lanes: see C30/C31."
},
"C121": {
"note": "Equivalence proved for all inputs whose boundary lines do not mix adiabatic with radiative or convective, that do not deposit from a file and do not set time.scan_path_for_duration; outside these the code deviates from the rules (C121_everywhere_refuted, C59_order_refuted, C83_deposition_file_refuted, C84_refuted). The duration of the simulation is not checked by the code (C84) and not among the rules."
},
"C122": {
"note": "Proved for fixed deposition boxes common to the groups, sources without cubes and unperturbed material height, from a fresh start or any start with equal meshes; refuted for a perturbed height and for re-read scan paths. The resolution of every member's beams assumes beams at least as wide as deep (C29_depth_refuted) and boxes that grow with diameter and depth (three-axis paths)."
},
"C123": {
"note": "Proved: the results depend on the drawn databases only through sources, initial and new-material temperature and material height; these are used. Refuted for material properties, which are silently not perturbed."
},
"C124": {
"note": "Exact for every file whose lines spell records; refuted for blanks at the start or end of a line, for a missing power (silently the z coordinate) and for empty lines in a segment file."
},
"C125": {
"note": "Exact for every file whose lines spell records (accepted and rejected files); refuted for empty lines and a missing angle."
},
"C126": {
"note": "Proved for numbered checkpoints without output directory at every crash point; for overwritten checkpoints only while no checkpoint is being written, refuted otherwise; refuted with an output directory. deal.II's list of files is a parameter."
},
"C127": {
"note": "Proved between changes of the mesh for equal face states (C127_steps_partial, C127_any_two_partial, C127_printed_heat); refuted at material surfaces on process boundaries, and by C41_parallel_temperature_refuted when material is added."
},
"C128": {
"note": "Proved as stated, i.e. for isotropic or no hardening (C128_kuhn_tucker, C128_maximum_dissipation, C128_dissipation, C128_contractive, C128_contractive_perfect, C128_rest, C128_load_steps). C128_rest_refuted shows in addition that the restriction is needed: with kinematic hardening a zero strain increment changes the state.",
"status": "proved"
},
"C129": {
"note": "Final time, monotonicity, accuracy, depositions and bitwise restart are proved for every rounding with Sterbenz' property (C129_final_time, C129_terminates, C129_accuracy, C129_deposition for activation times up to one step, C129_restart); the number of steps is proved up to one (C129_step_count) and refuted exactly (C129_extra_step_refuted); restarts with another time step refuted (C129_restart_overshoot_refuted)."
},
"C130": {
"note": "Point level proved (C130_liquid, C130_point); cell level proved up to (4n+8) rounding errors for the solid fraction (C130_cell_partial), exact range refuted (C130_cell_refuted)."
},
"C131": {
"note": "Proved for every family of runs (C131_combination), two sets of sources (C131_superposition), scaled power (C131_proportional), initial temperatures (C131_initial), changing meshes (C131_changing_mesh); for arbitrary data C131_total_power and C131_order. Hypotheses: boundaries are not at once adiabatic and convective or radiative, sources that are off deliver nothing (C65)."
},
"C132": {
"note": "Proved as stated: C132_load, C132_position, C132_forward, C132_ends for every rounding; C132_overshoot_refuted and C132_end_refuted show in addition that a segment need not end exactly at its end point. Not rounded: Point::distance in the loader (a parameter).",
"status": "proved"
},
"C133": {
"note": "Proved as stated: C133_terminates, C133_track, C133_reach, C133_boxes, C133_box_size, C133_times. C133_lost_refuted shows in addition that the condition on the deposition length is needed. Underflow and overflow are not modelled; five-axis segments: exact arithmetic only (C119).",
"status": "proved"
},
"C134": {
"note": "Proved: C134_rotate, C134_round_trip, C134_undefined_iff and, for paths whose consecutive rotations are equal or not proportional, C134_orientation_partial. Refuted for proportional ones (C134_same_rotation_refuted): the orientation is NaN."
},
"C135": {
"note": "Proved: C135_heat, C135_delay, C135_box (times not in a first record that ends at zero), C135_deposition; C135_deposition_delay_partial needs a first record without power and times that are not cut off at 1e-10. Without these conditions the statement is false of the code (C135_first_refuted, C135_first_power_refuted)."
},
"C136": {
"note": "Proved for all event histories: C136_defined_partial, C136_inside_partial (isotropic or no hardening; for kinematic hardening see C44_refuted), C136_refine. The hypothesis that merged cells take part together or not at all is needed (C136_merge_refuted); stresses are not conserved by coarsening (C136_coarsen_refuted)."
},
"C137": {
"note": "Full statement refuted; C137_activated gives the exact set of rows activated in every step for every deposition_time. Proved under alignment (C137_aligned_partial); causality without restriction (C137_causal)."
},
"C138": {
"note": "Safety and progress proved for files that stay and have distinct time stamps; the other cases refuted (same time stamp, missing file, several processes, torn lines)."
},
"C139": {
"note": "Memory is sequentially consistent and an access to a double is atomic; both are irrelevant since no entry is used by two threads (C139_every_schedule). C139_needs_columns shows that the one-to-one columns of C105 are needed."
},
"C140": {
"note": "Fractions and stored heat capacities are the same for every schedule; the rate is in exact arithmetic (C140_exact; C140_vmult: it is the vmult of C107) and within the rounding bound in floating point (C140_rounded); bitwise reproducibility is refuted. Contract: distribute_local_to_global without colouring adds atomically."
},
"C141": {
"note": "Matrix: proved for every schedule, and that it is the system matrix of C111-C113 (C141_system_matrix). Load: refuted as programmed; proved for every schedule in which no worker overwrites an entry another has still to read, in particular for one thread (C141_system_load_partial: it is then the right-hand side of C111-C113), and for every schedule once the vector is local to the worker. Contract: mesh_loop starts and copies in the order of the iterators and runs the copier alone."
},
"C142": {
"note": "Contract: deal.II's partition_color arranges the ranges into phases whose ranges share no degree of freedom; without it the accesses of adamantine's worker are not safe (C142_needs_colours). Bitwise reproducible on the host, in contrast to the device (C140_reproducible_refuted). C142_vmult: the threads compute the vmult of C93, cells and faces."
}
}