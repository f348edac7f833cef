{"id": "C01", "title": "Rotating a point by a scan-path orientation is a rigid motion", "statement": "For every quaternion given to the five-axis code by four numbers of unit norm, rotate(point) preserves the distance from the origin, the distance and the scalar product between any two points, and inv_rotate(rotate(point)) and rotate(inv_rotate(point)) both return the point unchanged.", "quantifier": "every unit quaternion and every pair of 3D points", "why_tests_cant": "a test fixes a handful of angles and points; a sign error in one of the nine matrix entries can cancel on symmetric samples", "anchors": ["source/Quaternion.cc: Quaternion::rotate, Quaternion::inv_rotate"]}
{"id": "C02", "title": "Quaternion multiplication composes rotations", "statement": "For all unit quaternions p and q, after p *= q rotating any point by the result equals rotating by q first and then by p, the norm of the result is the product of the norms, and q and -q describe the same rotation; p /= q followed by *= q gives back p.", "quantifier": "every pair of unit quaternions and every 3D point", "why_tests_cant": "composition order and conjugation signs are algebraic identities in eleven variables, samples along one axis commute and hide the order", "anchors": ["source/Quaternion.cc: operator*=, operator/=, rotate"]}
{"id": "C03", "title": "Powers of a unit quaternion interpolate rotations", "statement": "For every unit quaternion q that is not plus or minus the identity and every real exponent s, q.pow(s) is again a unit quaternion, pow(0) is the identity, pow(1) is q, and pow(s) * pow(t) = pow(s+t); for plus or minus the identity the result is a valid unit quaternion too.", "quantifier": "every unit quaternion and all exponents", "why_tests_cant": "an infinite two-parameter family; the degenerate axis is a single point sampling misses", "anchors": ["source/Quaternion.cc: Quaternion::pow"]}
{"id": "C04", "title": "Segment scan-path files load into a time-ordered path", "statement": "Loading a segment-format scan path with non-negative dwell times and positive speeds yields one segment per record up to the declared count or the SCAN_PATH_END marker, in file order, with non-decreasing end times starting at or after zero, each line record lasting exactly length/speed and each point record lasting its dwell time; a path that starts with a line record or contains an unknown mode is rejected.", "quantifier": "every sequence of records of every length, all declared counts and scaling factors", "why_tests_cant": "unbounded input length and free real-valued records", "anchors": ["source/ScanPath.cc: ScanPath::load_segment_scan_path"]}
{"id": "C05", "title": "Event-series scan-path files load record by record with shifted power", "statement": "Loading an event-series scan path yields one segment per non-empty line before SCAN_PATH_END, in file order, ending at the time and (scaled) position of that line, whose power is the power written on the previous line (zero for the first); the path is five-axis exactly when some record carries an orientation.", "quantifier": "every sequence of lines of every length", "why_tests_cant": "unbounded input length; the one-line power shift is easy to get right on two lines and wrong at the ends", "anchors": ["source/ScanPath.cc: ScanPath::load_event_series_scan_path"]}
{"id": "C06", "title": "The beam position depends only on the time asked for", "statement": "For a loaded path, the position, power and orientation returned for a time depend only on that time and the path, not on which other times were asked for before, with or without saving the segment.", "quantifier": "every path, every finite history of queries (each saving or not) and every query time", "why_tests_cant": "the cached segment makes the answer depend on the whole history of calls; a test exercises one history", "anchors": ["source/ScanPath.cc: ScanPath::update_current_segment_info, value, get_power_modifier, get_quaternion"]}
{"id": "C07", "title": "The beam is on the polyline of the scan path at the right time", "statement": "For every path with strictly increasing end times and every time in (0, last end time], the position is on the straight segment between the end of the previous record and the end of the current record, at the fraction of the elapsed time, it equals the record's end point at the record's end time, and moves continuously from one record to the next.", "quantifier": "every path and every real time within it", "why_tests_cant": "continuum of times, unbounded number of segments", "anchors": ["source/ScanPath.cc: ScanPath::value"]}
{"id": "C08", "title": "The beam is off and out of the domain after the path ends", "statement": "For every time after the last end time of the path the power is zero and the reported position is the out-of-domain sentinel, whatever the query history; no query on a non-empty path reads outside the segment list.", "quantifier": "every non-empty path, every history of queries and every time", "why_tests_cant": "out-of-bounds reads depend on the cached index, i.e. on the history", "anchors": ["source/ScanPath.cc: ScanPath::value, get_power_modifier, update_current_segment_info"]}
{"id": "C09", "title": "Five-axis orientation is interpolated between the recorded rotations along the short path", "statement": "For every five-axis path of unit rotations and every time, the orientation is a unit quaternion, equals the previous record's rotation at the segment start and a quaternion describing the recorded rotation at the segment end.", "quantifier": "every five-axis path and every time in a segment", "why_tests_cant": "continuum of rotations and times; the degenerate case of opposite quaternions is a measure-zero set", "anchors": ["source/ScanPath.cc: ScanPath::get_quaternion", "source/Quaternion.cc"]}
{"id": "C10", "title": "Re-reading a growing scan path keeps earlier answers and the cached position valid", "statement": "If a scan-path file only grows (old records stay a prefix), then after read_file every time that was inside the old path gives the same position and power as before and no later query with non-decreasing time reads outside the list.", "quantifier": "every prefix-extending sequence of re-reads interleaved with queries", "why_tests_cant": "unbounded interleavings of file growth and queries", "anchors": ["source/ScanPath.cc: ScanPath::read_file, update_current_segment_info"]}
{"id": "C11", "title": "Reading a material deposition file", "statement": "Reading a deposition file returns, in file order, one box per record, centred on the given point with the given edge lengths, its time and the cosine and sine of its angle (all four lists of the same length), and rejects a file whose dimension differs from the simulation's or whose times decrease.", "quantifier": "every file content of any length", "why_tests_cant": "unbounded records", "anchors": ["source/material_deposition.cc: read_material_deposition"]}
{"id": "C12", "title": "Deposition along a scan path always terminates", "statement": "For every loaded scan path and positive deposition parameters, generating the deposition boxes finishes.", "quantifier": "every scan path and positive deposition parameters", "why_tests_cant": "non-termination cannot be observed by a test, only a time-out", "anchors": ["source/material_deposition.cc: deposition_along_scan_path"]}
{"id": "C13", "title": "Deposition boxes follow powered segments only and have consistent lists", "statement": "The boxes generated from a scan path come only from segments with power, the four result lists have the same length, every time is at least the minimum positive time, each box's time is the start time of its segment plus the time the beam needs to reach it minus the lead time, and times within one segment do not decrease.", "quantifier": "every scan path with planar segments and positive parameters", "why_tests_cant": "unbounded number of segments and boxes", "anchors": ["source/material_deposition.cc: deposition_along_scan_path"]}
{"id": "C14", "title": "Deposition boxes cover every powered planar segment", "statement": "For each powered planar segment, every point of the segment lies in the planar extent of one of the boxes generated for it, no box of the segment starts beyond the end of the segment and the total length of the boxes along the segment equals the segment's length plus the overlap the algorithm documents.", "quantifier": "every planar segment and every positive deposition length", "why_tests_cant": "continuum of points and lengths, unbounded number of boxes", "anchors": ["source/material_deposition.cc: deposition_along_scan_path"]}
{"id": "C15", "title": "Merging deposition paths", "statement": "Merging the deposition lists of several beams gives lists sorted by time that contain exactly the rows (box, time, cosine, sine) of the inputs, each as often as it occurred.", "quantifier": "every number of beams and all lists", "why_tests_cant": "unbounded lists; a permutation applied to three of four lists passes small tests with equal angles", "anchors": ["source/material_deposition.cc: merge_deposition_paths"]}
{"id": "C16", "title": "Exactly the inactive cells touched by a box are selected for activation", "statement": "For every mesh, part geometry and list of boxes the result has one list per box and contains exactly the locally owned cells that hold no material yet, lie in the part when one is given, and whose bounding box meets the deposition box.", "quantifier": "every mesh, set of boxes and part", "why_tests_cant": "all meshes and boxes; the early exit and index bookkeeping only show on special partitions", "anchors": ["source/material_deposition.cc: get_elements_to_activate"]}
{"id": "C17", "title": "The simulated time reaches the requested duration exactly", "statement": "With a fixed duration and a positive time step the main loop stops after finitely many steps, time strictly increases at every step, no step exceeds the requested time step, and the final time equals the duration.", "quantifier": "every duration, time step and start time (restart)", "why_tests_cant": "unbounded number of steps; the last clipped step is the boundary case", "anchors": ["application/adamantine.hh: run, run_ensemble (main loop)"]}
{"id": "C18", "title": "A run driven by the scan path ends when every scan path has ended", "statement": "With the duration taken from the scan path, once every scan-path file contains SCAN_PATH_END (whether at start-up or after any number of updates) the main loop stops at the end time of the scan path.", "quantifier": "every history of file updates", "why_tests_cant": "depends on when the marker appears relative to the reads, an unbounded interleaving; the failing outcome is non-termination", "anchors": ["application/adamantine.hh: run, run_ensemble (scan_path_for_duration)"]}
{"id": "C19", "title": "Every deposition event inside the run is activated", "statement": "For every deposition time in [start, duration) the box is in the activation range of some step of the run, and it is activated no later than the step that contains its time plus one activation window.", "quantifier": "every time step, activation window, duration and sorted list of deposition times", "why_tests_cant": "real-valued interaction between windows and steps over unbounded runs", "anchors": ["application/adamantine.hh: run, run_ensemble (activation window)"]}
{"id": "C20", "title": "The mesh is refined ahead of the beam at every step", "statement": "For every step of a run the position of each heat source at the beginning of that step is one of the positions used by the last mesh refinement before it.", "quantifier": "every number of steps between refinements and every step", "why_tests_cant": "unbounded step numbers, off-by-one in the modular schedule", "anchors": ["application/adamantine.hh: run (refinement schedule), compute_cells_to_refine"]}
{"id": "C21", "title": "Adaptive refinement respects the level limit and resolves the beam", "statement": "After refine_mesh no cell is finer than n_refinements, no coarsest cell is coarsened away, and every cell meeting one of the beam boxes is at the finest level; without coarsening no cell is lost or coarsened.", "quantifier": "every refinement forest, set of beam boxes and n_refinements", "why_tests_cant": "unbounded meshes and depths", "anchors": ["application/adamantine.hh: refine_mesh, compute_cells_to_refine"]}
{"id": "C22", "title": "Material state, orientation and melt history follow the cells through mesh adaptation", "statement": "After refine_and_transfer each active cell has the state ratios, deposition orientation and melt flag of the cell it descends from, cells without material keep their state ratios, and the per-material-cell lists are aligned with the cells that hold material.", "quantifier": "every mesh, pattern of active cells and refinement", "why_tests_cant": "index bookkeeping over arbitrary mixes of active, inactive and ghost cells", "anchors": ["application/adamantine.hh: refine_and_transfer"]}
{"id": "C23", "title": "Restarting a run continues the checkpointed run", "statement": "For every run and checkpoint step k, stopping after the checkpoint and restarting performs the same sequence of steps (numbers, times, time steps, outputs from step k+1 on) as the uninterrupted run, whatever output directory is configured.", "quantifier": "every run and every crash point after a checkpoint", "why_tests_cant": "crash points and histories", "anchors": ["application/adamantine.hh: run (checkpoint, restart)"]}
{"id": "C24", "title": "Restarting an ensemble restores each member from its own checkpoint", "statement": "For every number of MPI ranks and members, on restart each ensemble member is loaded from the file that member was saved to.", "quantifier": "every number of ranks, members and member index", "why_tests_cant": "only visible with several ranks and different members", "anchors": ["application/adamantine.hh: run_ensemble (checkpoint/restart)"]}
{"id": "C25", "title": "Ensemble members are partitioned over the MPI ranks", "statement": "For every number of ranks and members accepted by the code every member is simulated by exactly one group of ranks, groups are non-empty and equal in size when there are more ranks than members, and the first local member index is the number of members on lower groups; other combinations are rejected.", "quantifier": "all numbers of ranks and members", "why_tests_cant": "two unbounded integers", "anchors": ["application/adamantine.hh: split_global_communicator"]}
{"id": "C26", "title": "Each experimental frame is assimilated once, at the first step that reaches its time", "statement": "In an ensemble run with data assimilation every frame whose time stamp is reached by the run is assimilated exactly once, in order, with its own data, in the first step whose end time is not before the stamp, or the run stops with an error.", "quantifier": "every list of time stamps, first frame number and step sequence", "why_tests_cant": "unbounded interleaving of frames and steps", "anchors": ["application/adamantine.hh: run_ensemble (data assimilation)", "source/PointCloud.cc: read_next_frame"]}
{"id": "C27", "title": "Ensemble parameters do not depend on the number of MPI ranks", "statement": "The value drawn for member m of a parameter given with a standard deviation is the same however the members are distributed over ranks, is never negative, and equals the mean when the deviation is zero.", "quantifier": "every stream of random draws, partition of the members and member", "why_tests_cant": "the draws rejected for being negative depend on the stream", "anchors": ["source/ensemble_management.cc: get_normal_random_vector, create_database_ensemble"]}
{"id": "C28", "title": "Ensemble databases differ from the input only in the sampled parameters", "statement": "In each member's database every parameter p with a companion p_stddev has the sampled value and every other entry has its input value, at any nesting depth.", "quantifier": "every input tree", "why_tests_cant": "unbounded trees", "anchors": ["source/ensemble_management.cc: traverse, create_database_ensemble"]}
{"id": "C29", "title": "Bounding heat sources enclose those of every member", "statement": "The heat sources used for the shared refinement have diameter and depth at least those of every member's source on every rank.", "quantifier": "every ensemble and every distribution over ranks", "why_tests_cant": "maximum over unbounded member lists and ranks", "anchors": ["source/ensemble_management.cc: get_bounding_heat_sources"]}
{"id": "C30", "title": "Phase fractions stay a partition of unity", "statement": "At every point and for every temperature history the solid, liquid and powder fractions are in [0,1] and sum to one.", "quantifier": "every temperature history of every length and every initial state", "why_tests_cant": "histories are unbounded; needs an inductive invariant", "anchors": ["source/MaterialProperty.templates.hh: MaterialProperty::update", "source/ThermalOperator.templates.hh: update_state_ratios"]}
{"id": "C31", "title": "Powder never re-appears", "statement": "The powder fraction never increases during a simulation, and once a point has been fully liquid its powder fraction stays zero.", "quantifier": "every temperature history of every length", "why_tests_cant": "histories are unbounded", "anchors": ["source/MaterialProperty.templates.hh: MaterialProperty::update", "source/ThermalOperator.templates.hh: update_state_ratios"]}
{"id": "C32", "title": "Liquid fraction is the linear mushy-zone law", "statement": "The liquid fraction is 0 below the solidus, 1 above the liquidus, linear and monotone in between, for every material with solidus < liquidus and also at solidus = liquidus.", "quantifier": "every temperature and pair solidus <= liquidus", "why_tests_cant": "continuum; the case solidus = liquidus is a single point", "anchors": ["source/MaterialProperty.templates.hh: MaterialProperty::update"]}
{"id": "C33", "title": "Tabulated properties interpolate between the given points", "statement": "The value of a property given by a table with increasing temperatures equals the tabulated values at the tabulated temperatures, is linear between neighbours and is constant outside the table.", "quantifier": "every table size from 1 to the maximum and every temperature", "why_tests_cant": "the last interval of a full table is one of many sizes, tests use short tables", "anchors": ["source/MaterialProperty.templates.hh: compute_property_from_table"]}
{"id": "C34", "title": "Polynomial properties are evaluated with all their coefficients", "statement": "The value of a property given by coefficients c0, ..., cn equals the sum of c_i T^i in the scalar and in the vectorised code, for every n up to the maximum order.", "quantifier": "every coefficient list up to the maximum length and every temperature", "why_tests_cant": "continuum of coefficients", "anchors": ["source/MaterialProperty.templates.hh: compute_property_from_polynomial, compute_material_property"]}
{"id": "C35", "title": "Melting absorbs exactly the latent heat", "statement": "Integrating the extra heat capacity over a temperature sweep from below the solidus to above the liquidus gives the latent heat, for every material with solidus < liquidus, including powder.", "quantifier": "every material and sweep", "why_tests_cant": "an integral over a continuum", "anchors": ["source/ThermalOperator.templates.hh: get_inv_rho_cp", "source/MaterialProperty.templates.hh: update"]}
{"id": "C36", "title": "The radiative heat transfer coefficient reproduces the Stefan-Boltzmann law", "statement": "For every temperature the radiative coefficient times (T - Tinf) equals emissivity * sigma * (T^4 - Tinf^4), so the flux vanishes at the ambient temperature and cools when hotter.", "quantifier": "all temperatures", "why_tests_cant": "polynomial identity over a continuum", "anchors": ["source/MaterialProperty.templates.hh: update (radiation_heat_transfer_coef)"]}
{"id": "C37", "title": "Cell-averaged temperature stays between the nodal temperatures", "statement": "The temperature used for the phase of a cell is a weighted mean of the cell's nodal temperatures: it preserves constants and lies between their minimum and maximum when the shape functions are non-negative at the quadrature points.", "quantifier": "every mesh cell and nodal field", "why_tests_cant": "continuum of fields", "anchors": ["source/MaterialProperty.templates.hh: compute_average_temperature"]}
{"id": "C38", "title": "SIMD lanes do not influence one another", "statement": "The phase fractions and heat source values of a cell do not depend on which other cells share its vectorised batch or on the batch width.", "quantifier": "every batch width and content", "why_tests_cant": "batches are chosen by the mesh traversal; tests do not control them", "anchors": ["source/ThermalOperator.templates.hh: update_state_ratios, update_face_state_ratios", "source/GoldakHeatSource.cc: value", "source/ElectronBeamHeatSource.cc: value"]}
{"id": "C39", "title": "The rotated thermal conductivity is a rotation of the diagonal tensor", "statement": "For every deposition angle the conductivity applied to the temperature gradient is R diag(k) R^T: symmetric, dissipative for non-negative conductivities, with the same trace, and independent of the angle when the in-plane conductivities are equal.", "quantifier": "every angle and conductivities", "why_tests_cant": "continuum of angles, sign errors cancel at 0 and 90 degrees", "anchors": ["source/ThermalOperator.templates.hh: cell_local_apply"]}
{"id": "C40", "title": "Time-step update and time bookkeeping", "statement": "evolve_one_time_step returns the time advanced by exactly the step; with forward Euler the temperature is y + dt f(t, y) with f evaluated (heat sources included) at the start time, with the Runge-Kutta methods the stages are evaluated with the heat sources at the stage times.", "quantifier": "every state, time and step", "why_tests_cant": "function-valued statement for all right-hand sides", "anchors": ["source/ThermalPhysics.templates.hh: evolve_one_time_step"]}
{"id": "C41", "title": "Adding material activates exactly the selected cells and leaves the others unchanged", "statement": "After adding material the cells holding material are the previous ones plus those listed for the boxes in the activation range; previous cells keep temperature, orientation and melt history, new cells get the new-material temperature, the orientation of their box and are not marked as melted.", "quantifier": "every mesh, box list, range and field", "why_tests_cant": "index bookkeeping over arbitrary subsets of cells", "anchors": ["source/ThermalPhysics.templates.hh: add_material_start, add_material_end"]}
{"id": "C42", "title": "Melt history is monotone and exact", "statement": "After any sequence of steps a cell is marked as melted exactly when at the start of some step its average temperature exceeded the given threshold since it was created; marks are never removed.", "quantifier": "every temperature history", "why_tests_cant": "unbounded histories", "anchors": ["source/ThermalPhysics.templates.hh: mark_has_melted"]}
{"id": "C43", "title": "A checkpoint restores the thermal state", "statement": "load_checkpoint after save_checkpoint gives back, cell by cell, the temperature, the state ratios, the orientation, the melt history and which cells hold material.", "quantifier": "every state at every checkpoint", "why_tests_cant": "all states", "anchors": ["source/ThermalPhysics.templates.hh: save_checkpoint, load_checkpoint"]}
{"id": "C44", "title": "Plastic return mapping satisfies the yield condition", "statement": "After every stress update the stress is either elastic and inside the yield surface or, after plastic flow, exactly on the updated yield surface (deviatoric stress minus back stress has norm equal to the updated yield radius).", "quantifier": "every stress, strain increment, back stress and material with positive moduli", "why_tests_cant": "continuum of tensors and histories", "anchors": ["source/MechanicalPhysics.cc: compute_stress"]}
{"id": "C45", "title": "Plastic flow is volume preserving and hardening is monotone", "statement": "The plastic correction does not change the trace of the stress, the yield radius never decreases for non-negative moduli, and the elastic branch leaves the internal variables unchanged.", "quantifier": "every state and history of strain increments", "why_tests_cant": "unbounded histories", "anchors": ["source/MechanicalPhysics.cc: compute_stress"]}
{"id": "C46", "title": "Reported von Mises stress is the von Mises stress", "statement": "For every stress tensor the reported value equals sqrt(3/2 dev(s):dev(s)); it vanishes only for hydrostatic stress and does not change under hydrostatic shifts.", "quantifier": "every symmetric 3x3 stress tensor", "why_tests_cant": "continuum of tensors; tests use diagonal ones", "anchors": ["source/PostProcessor.cc: get_von_mises_stress"]}
{"id": "C47", "title": "The elasticity matrix is symmetric and positive semi-definite", "statement": "For every cell, non-negative Lame parameters and quadrature weights, the cell matrix is symmetric, its quadratic form is the elastic energy lambda (div u)^2 + 2 mu |eps(u)|^2, and rigid translations have zero energy.", "quantifier": "every cell geometry, element and displacement", "why_tests_cant": "all elements and displacements", "anchors": ["source/MechanicalOperator.cc: assemble_matrix"]}
{"id": "C48", "title": "Melt history reaches the right mechanical cell", "statement": "The reference temperature of each mechanical cell is chosen from the melt flag of the same mesh cell: the material's reference temperature when it has melted and the initial temperature otherwise.", "quantifier": "every mesh and pattern of thermally and mechanically active cells", "why_tests_cant": "index translation over arbitrary patterns", "anchors": ["source/MechanicalOperator.cc: assemble_rhs"]}
{"id": "C49", "title": "Plastic variables survive mesh transfer and phase changes", "statement": "prepare/complete transfer is a round trip for yield radius, stress and back stress of unrefined cells, and after setup_dofs a cell that stayed solid keeps them, a newly solid cell starts from the elastic limit with zero stresses, and a liquid cell carries none.", "quantifier": "every mesh and pattern of phase changes", "why_tests_cant": "packing offsets over all sizes, all patterns", "anchors": ["source/MechanicalPhysics.cc: prepare_transfer_mpi, complete_transfer_mpi, setup_dofs"]}
{"id": "C50", "title": "Localisation function is a valid taper", "statement": "The Gaspari-Cohn localisation is 1 at distance 0, 0 beyond the cutoff, continuous, non-increasing and in [0,1]; the step function is 1 up to the cutoff and 0 beyond.", "quantifier": "every distance and cutoff", "why_tests_cant": "piecewise polynomial on a continuum", "anchors": ["source/DataAssimilator.cc: gaspari_cohn_function, fill_noise_vector, calc_sample_covariance_sparse"]}
{"id": "C51", "title": "The sample covariance is the unbiased covariance of the ensemble", "statement": "For every ensemble of at least two members the covariance before localisation is the usual one with divisor n-1: symmetric, positive semi-definite, zero for identical members, unchanged by a common shift; a single member gives no finite covariance.", "quantifier": "every ensemble size and state", "why_tests_cant": "all sizes and states", "anchors": ["source/DataAssimilator.cc: calc_sample_covariance_sparse"]}
{"id": "C52", "title": "The observation matrix agrees with direct observation", "statement": "Applying the observation matrix to a state gives the state at the dofs mapped to the observations, in the order of the observations.", "quantifier": "every mapping and state", "why_tests_cant": "all mappings including repeated or unordered indices", "anchors": ["source/DataAssimilator.cc: calc_H, calc_Hx, update_dof_mapping"]}
{"id": "C53", "title": "Data assimilation with zero innovation leaves the ensemble unchanged, and moves it by the gain otherwise", "statement": "Each member is changed by the gain applied to (perturbed) observation minus its own prediction: a zero innovation vector changes nothing and members are updated independently given the ensemble covariance; observations of the wrong length are rejected.", "quantifier": "every ensemble and observation", "why_tests_cant": "all states", "anchors": ["source/DataAssimilator.cc: update_ensemble, apply_K"]}
{"id": "C54", "title": "Gathering and scattering the ensemble is the identity", "statement": "Distributing the ensemble over global ranks for the covariance computation and back returns every member's entries to the place they came from, for every distribution of members and rows over ranks.", "quantifier": "every number of ranks, members and row partition", "why_tests_cant": "index permutations over unbounded sizes", "anchors": ["source/DataAssimilator.cc: update_ensemble, gather/scatter"]}
{"id": "C55", "title": "Frame time stamps are read for exactly the requested frames", "statement": "Reading the camera log gives, for each camera, the offset-corrected times of exactly the frames between first_frame and last_frame in order, and rejects a log whose frames are not consecutive.", "quantifier": "every log content and frame range", "why_tests_cant": "unbounded logs", "anchors": ["source/experimental_data_utils.cc: read_frame_timestamps"]}
{"id": "C56", "title": "Experimental values are written only where they were observed", "statement": "Setting a field with experimental data changes exactly the entries mapped to observations, each to an observed value mapped to it.", "quantifier": "every mapping and field", "why_tests_cant": "all mappings, including repeated targets", "anchors": ["source/experimental_data_utils.cc: set_with_experimental_data, get_expt_to_dof_mapping"]}
{"id": "C57", "title": "Ray tracing reports the nearest visible surface point", "statement": "For every ray and set of boundary faces, the reported point is on a face hit by the ray in the forward direction and no other hit face is closer; a ray that hits nothing reports nothing; the number of points equals the number of values.", "quantifier": "every ray and set of faces", "why_tests_cant": "continuum of rays and arbitrary faces", "anchors": ["source/RayTracing.cc: get_points_values, point_in_triangle"]}
{"id": "C58", "title": "Boundary conditions are assigned as specified", "statement": "Every boundary of the mesh gets the condition given for it, else the default one, the printed surface its own; the type of an id that is not on the mesh is the printed surface's; and get_boundary_ids(type) lists exactly the boundaries having that type.", "quantifier": "every set of boundary ids and specification", "why_tests_cant": "all sets and combinations", "anchors": ["source/Boundary.cc: Boundary, get_boundary_type, get_boundary_ids"]}
{"id": "C59", "title": "Boundary condition strings do not depend on the order of the names", "statement": "Accepting and interpreting a comma separated list of boundary conditions does not depend on the order or repetition of the names.", "quantifier": "every list of names", "why_tests_cant": "all permutations", "anchors": ["source/Boundary.cc: parse_boundary_line", "source/validate_input_database.cc: boundary checks"]}
{"id": "C60", "title": "Inputs accepted by the validator are usable by the simulation", "statement": "An input accepted by validate_input_database does not make the simulation throw for an unrecognised option, divide by a zero time-step count, use a zero unit scaling or silently run nothing.", "quantifier": "every input accepted by the validator", "why_tests_cant": "all inputs", "anchors": ["source/validate_input_database.cc", "source/types.hh: g_unit_scaling_factor", "application/adamantine.cc: main"]}
{"id": "C61", "title": "Inputs outside the documented ranges are rejected", "statement": "The validator rejects every input with a dimension other than 2 or 3, no physics, an element degree outside 1..5, an absorption efficiency outside [0,1], a last frame before the first, or mechanics without a clamped boundary.", "quantifier": "every input", "why_tests_cant": "all inputs", "anchors": ["source/validate_input_database.cc"]}
{"id": "C62", "title": "Unit scaling converts every documented unit to SI", "statement": "For every unit accepted by the validator the scaling factor is the positive conversion factor to SI.", "quantifier": "every accepted unit string, in any letter case", "why_tests_cant": "case variations are many and a missing key silently gives zero", "anchors": ["source/types.hh: g_unit_scaling_factor", "source/validate_input_database.cc"]}
{"id": "C63", "title": "STL files are read completely or rejected", "statement": "For every byte string, reading a binary STL either returns exactly as many triangles as the count field says, each with the scaled vertices stored in its facet, or throws; it never reads past the data.", "quantifier": "every byte string", "why_tests_cant": "all files", "anchors": ["source/Geometry.cc: STL reader"]}
{"id": "C64", "title": "Powder layer assignment", "statement": "With a powder layer, the cells whose centre is at or above the top of the material minus the layer thickness are powder and all others are solid; without one all cells are solid; every cell gets exactly one initial state.", "quantifier": "every mesh and height", "why_tests_cant": "all meshes", "anchors": ["source/Geometry.cc: assign_material_state", "source/MaterialProperty.templates.hh: set_initial_state"]}
{"id": "C65", "title": "Heat sources are non-negative and deposit the absorbed power", "statement": "Each beam's volumetric heat is non-negative for every point at or below the beam's height and every time, zero when the beam is off, zero below the penetration depth, and proportional to power times absorption.", "quantifier": "every point, time and parameters", "why_tests_cant": "continuum of points", "anchors": ["source/GoldakHeatSource.cc", "source/ElectronBeamHeatSource.cc", "source/CubeHeatSource.cc"]}
{"id": "C66", "title": "Heat source bounding boxes contain the heated region", "statement": "The box returned by get_bounding_box (with scaling at least one) contains every point below the beam at which the heat source is non-zero at that time.", "quantifier": "every time, point, orientation and parameters", "why_tests_cant": "continuum", "anchors": ["source/GoldakHeatSource.cc: get_bounding_box", "source/ElectronBeamHeatSource.cc: get_bounding_box", "source/CubeHeatSource.cc: get_bounding_box"]}
{"id": "C67", "title": "Cube heat source is on exactly in its space-time box", "statement": "The cube source has its value exactly for times strictly between start and end and points in its closed box and is zero elsewhere, in the scalar and the vectorised code.", "quantifier": "every point, time and box", "why_tests_cant": "continuum", "anchors": ["source/CubeHeatSource.cc"]}
{"id": "C68", "title": "Microstructure output records the solidification front", "statement": "compute_G_and_R records exactly the points that cooled from above the liquidus to the liquidus or below in the step, and the recorded cooling rate is (old - new)/dt.", "quantifier": "every field history and step", "why_tests_cant": "all fields", "anchors": ["source/Microstructure.cc: compute_G_and_R"]}
{"id": "C69", "title": "Microstructure output files are merged completely and in rank order", "statement": "When the object is destroyed the final file contains the records of all ranks, in rank order, and the temporary files are removed.", "quantifier": "every number of ranks and file contents", "why_tests_cant": "all rank counts", "anchors": ["source/Microstructure.cc: ~Microstructure"]}
{"id": "C70", "title": "Quadrature-point data transfer takes the nearest source point", "statement": "After adaptation each quadrature point carries the value of a source quadrature point that is nearest to it; constant fields are preserved.", "quantifier": "every point set and field", "why_tests_cant": "continuum of positions", "anchors": ["source/ClosestSourcePointAdaptation.hh"]}
{"id": "C71", "title": "Output bookkeeping", "statement": "Every output of a run is listed once in the pvd record, in time order, refers to one vtu file per rank, file names of different steps, ranks and ensemble members differ, and the files are written in the output directory.", "quantifier": "every run, number of ranks and members", "why_tests_cant": "unbounded runs", "anchors": ["source/PostProcessor.cc: write_pvtu, write_pvd"]}
{"id": "C72", "title": "Timers accumulate the time between start and stop", "statement": "The reported elapsed time of a timer equals the sum of the durations between each start and the following stop.", "quantifier": "every sequence of start/stop calls", "why_tests_cant": "unbounded call sequences", "anchors": ["source/Timer.cc", "application/adamantine.hh: timers in run_ensemble"]}
{"id": "C73", "title": "Old displacement survives phase changes and material addition", "statement": "When cells solidify, melt or are added, the displacement of the previous mechanical step is kept at every node of a cell that stays solid, whatever the order of the cells.", "quantifier": "all meshes, sets of solid cells before and after, displacement fields and cell orders", "why_tests_cant": "tests fix one mesh and one order of cells", "anchors": ["source/MechanicalPhysics.cc: setup_dofs"]}
{"id": "C74", "title": "The thermal load does not depend on the thread schedule", "statement": "Assembling the thermo-elastic right-hand side gives, for every interleaving of the worker threads, the load computed from each cell's own temperatures.", "quantifier": "all thread interleavings", "why_tests_cant": "races appear only under particular schedules", "anchors": ["source/MechanicalOperator.cc: assemble_rhs"]}
{"id": "C75", "title": "Uniform heating of a free body is stress free", "statement": "The displacement with strain alpha (T - T_ref) I is in equilibrium with the assembled thermal load, and the reported stress of such a free expansion is zero.", "quantifier": "all cells, material parameters and temperature fields", "why_tests_cant": "numerical tests compare a few displacements only", "anchors": ["source/MechanicalOperator.cc: assemble_matrix, assemble_rhs", "source/MechanicalPhysics.cc: compute_stress"]}
{"id": "C76", "title": "Melting erases the stress history of a cell", "statement": "A cell that was molten at any time since the last mechanical step starts, when solid again, from the elastic limit with zero stress and zero back stress.", "quantifier": "all histories of phase changes and all choices of mechanical steps", "why_tests_cant": "depends on what happens between two mechanical steps", "anchors": ["source/MechanicalPhysics.cc: setup_dofs", "application/adamantine.hh: run"]}
{"id": "C77", "title": "Outputs show the current displacement", "statement": "Every output and the returned result contain the displacement and stress computed in that very step on the current mesh, although the mechanical problem is not solved in every step.", "quantifier": "all refinement, mechanical and output intervals and all deposition patterns", "why_tests_cant": "tests use one combination of intervals", "anchors": ["application/adamantine.hh: run"]}
{"id": "C78", "title": "The localised covariance is a covariance matrix", "statement": "For every ensemble, localisation function and cutoff the matrix used by the filter is symmetric, keeps the variances and is positive semi-definite; the option 'none' applies no localisation.", "quantifier": "all ensembles, meshes, localisation functions and cutoff distances", "why_tests_cant": "definiteness quantifies over all vectors", "anchors": ["source/DataAssimilator.cc: calc_sample_covariance_sparse, update_covariance_sparsity_pattern"]}
{"id": "C79", "title": "Assimilation never moves the prediction away from the observation", "statement": "For every ensemble, observation and uncertainty the distance between a member's prediction and its (perturbed) observation does not grow in an update.", "quantifier": "all ensembles, observations, noise and localisation settings", "why_tests_cant": "an inequality over all states", "anchors": ["source/DataAssimilator.cc: apply_kalman_gain, update_ensemble"]}
{"id": "C80", "title": "Localisation uses the distance between the right dofs", "statement": "The distance stored for a pair of dofs is the distance between their support points.", "quantifier": "all meshes, dof numberings and partitions", "why_tests_cant": "tests use one numbering", "anchors": ["source/DataAssimilator.cc: update_covariance_sparsity_pattern", "source/experimental_data_utils.cc: get_dof_to_support_mapping"]}
{"id": "C81", "title": "Assimilation is possible for every set of observations", "statement": "The linear system of the gain is solvable for every number and location of observations and every accepted uncertainty, including the default.", "quantifier": "all observation sets and uncertainties", "why_tests_cant": "regularity must hold for all ensembles", "anchors": ["source/DataAssimilator.cc: apply_kalman_gain", "application/adamantine.hh: run_ensemble"]}
{"id": "C82", "title": "Frame files are read row by row", "statement": "Reading a frame gives, for the cameras first..last in that order, one ray (or point) and one value per row of the camera's file, the header excluded; a row of comma separated numbers gives the point(s) and the value written in it; the call returns the frame's number and the next call reads the following frame.", "quantifier": "every number of cameras, file and row", "why_tests_cant": "all files and rows", "anchors": ["source/RayTracing.cc: read_next_frame", "source/PointCloud.cc: read_next_frame"]}
{"id": "C83", "title": "The deposition method chosen in the input can be used", "statement": "An input that asks for material deposition and gives the entries documented for the chosen method (a file, or the sizes and lead time for deposition along the scan paths) is not rejected for missing entries, and an accepted input has them.", "quantifier": "every input", "why_tests_cant": "all inputs", "anchors": ["source/validate_input_database.cc: material_deposition", "application/adamantine.hh: create_material_deposition_boxes"]}
{"id": "C84", "title": "Time parameters of an accepted input are usable", "statement": "In every accepted input the time step is positive and the duration is not negative.", "quantifier": "every accepted input", "why_tests_cant": "all inputs", "anchors": ["source/validate_input_database.cc: time_stepping"]}
{"id": "C85", "title": "The exit status tells whether the simulation was run", "statement": "The program returns zero if the simulation was run (or help was asked for) and a non-zero status if the input was rejected, the set-up failed or nothing was run.", "quantifier": "every input", "why_tests_cant": "all inputs and failure points", "anchors": ["application/adamantine.cc: main"]}
{"id": "C86", "title": "Extents of the generated mesh", "statement": "The generated mesh is the box starting at the given origin with the given sizes, or, for an STL shape, the smallest box containing all vertices of the shape.", "quantifier": "every shape, origin and size", "why_tests_cant": "all shapes", "anchors": ["source/Geometry.cc: Geometry"]}
{"id": "C87", "title": "Scalar and vectorised heat agree", "statement": "The heat a beam source gives a quadrature point is the same in the scalar evaluation (device and reported heat) and in the vectorised evaluation (host operator), and does not depend on which points share its SIMD batch.", "quantifier": "every number of lanes, every points, time and parameters", "why_tests_cant": "all batchings of a continuum of points", "anchors": ["source/GoldakHeatSource.cc: value", "source/ElectronBeamHeatSource.cc: value"]}
{"id": "C88", "title": "Power and rotation of a scan path at every time", "statement": "At every time the power of a path is that of the record whose time interval contains it (zero after the end), a path without rotations never rotates anything, and rotating a point turns it by the orientation reported for the same time.", "quantifier": "every path with strictly increasing end times, every time and point", "why_tests_cant": "continuum of times and all paths", "anchors": ["source/ScanPath.cc: get_power_modifier, rotate, get_quaternion"]}
{"id": "C89", "title": "Outputs and checkpoints follow the configured periods", "statement": "In a thermal run the steps are numbered from 1, step k ends at min(k*time_step, duration), the solution is written after exactly the steps whose number is a multiple of time_steps_between_output, a checkpoint (holding the time reached and the step number) exactly after the multiples of time_steps_between_checkpoint, and the final state is written.", "quantifier": "every time step, duration, output and checkpoint period and every step of the run", "why_tests_cant": "a test runs a few periods that divide the number of steps; the schedule has to hold for every duration and period", "anchors": ["application/adamantine.hh: run"]}
{"id": "C90", "title": "Every data assimilation step is written when output_on_data_assimilation is set", "statement": "In an ensemble run with output_on_data_assimilation every step that assimilates a frame is written, whatever the output period, and other steps are written only because of the output period or because they end within 1.01 time steps of a frame.", "quantifier": "every list of frame time stamps, time step and step sequence", "why_tests_cant": "the output window is a floating state (da_time) updated by earlier frames; a test has one sequence of frames", "anchors": ["application/adamantine.hh: run_ensemble (da_time, da_time_half_window, output_on_da)"]}
{"id": "C91", "title": "A restarted ensemble run continues the data assimilation", "statement": "After a restart from any checkpoint of an ensemble run with data assimilation the remaining frames are assimilated in the same steps with the same data as in the uninterrupted run, and the augmented parameters of each member have the values they had when the checkpoint was written.", "quantifier": "every list of time stamps, every checkpoint step and every history of assimilated frames", "why_tests_cant": "depends on the whole history before the checkpoint; tests restart before the first frame or without assimilation", "anchors": ["application/adamantine.hh: run_ensemble (restart, experimental_frame_index)", "source/PointCloud.cc: read_next_frame", "source/RayTracing.cc: read_next_frame"]}
{"id": "C92", "title": "Accepted inputs contain every entry the enabled features need", "statement": "Every input file accepted by validate_input_database gives: a thermal (mechanical) condition on every boundary line if the thermal (mechanical) physics is on; for each of the n_materials materials a section with at least one state, and for each state the density, specific heat and conductivities of the dimension; the convection and radiation coefficients and ambient temperatures if any boundary line names them; a mesh file and format or the box dimensions; a non-negative powder layer if powder is used; the output prefix; the experiment files if experimental data are read; and the elastic constants if mechanics is on.", "quantifier": "every input tree and every number parser", "why_tests_cant": "the validator is a conjunction over sections, materials, states and boundary lines; a test drops one entry of one example", "anchors": ["source/validate_input_database.cc: validate_input_database"]}
{"id": "C93", "title": "The assembled thermal operator is the weak form of the heat equation", "statement": "For every mesh with any hanging nodes and any activation state, every temperature vector and any set of heat sources, applying the thermal operator adds to each unconstrained entry exactly the quadrature of (1/rho c)(Q phi - grad phi . K grad T) over the cells with material plus -(1/rho c)(convective + radiative outflow) phi over the faces that have material on exactly one side; cells without material do not contribute; the result does not depend on the order of cells and faces nor on how they are distributed over processes. (No boundary is at once adiabatic and convective or radiative.)", "quantifier": "every mesh, temperature vector, material coefficient function, list of sources, order and partition", "why_tests_cant": "the operator is a loop over cells and faces with matrix-free constraint handling; tests compare with one assembled matrix on a uniform mesh", "anchors": ["source/ThermalOperator.templates.hh: vmult_add, cell_local_apply, face_local_apply"]}
{"id": "C94", "title": "Thermal equilibrium is preserved and deviations decay", "statement": "With all sources off and surroundings at temperature T wherever heat is exchanged, a body at T stays exactly at T for any number of steps of any size and any method, for any temperature-dependent properties; from any other state the mass-weighted squared distance to the ambient temperature does not increase in time.", "quantifier": "every consistent mesh, material data, step size, number of steps and method", "why_tests_cant": "must hold for every mesh (hanging nodes, deposited cells) and step count; tests use one mesh", "anchors": ["source/ThermalOperator.templates.hh: vmult_add", "source/ThermalPhysics.templates.hh: evolve_one_time_step"]}
{"id": "C95", "title": "Heat is conserved", "statement": "Without sources and surface exchange the integral of the temperature over the material does not change over any number of steps; with sources and surface exchange the change of the thermal energy is the time integral of delivered minus lost power.", "quantifier": "every consistent mesh, history of steps, sources and boundary data", "why_tests_cant": "a conservation law over whole histories and all meshes", "anchors": ["source/ThermalOperator.templates.hh: cell_local_apply, face_local_apply", "source/ThermalPhysics.templates.hh: evaluate_thermal_physics_impl"]}
{"id": "C96", "title": "Exactly the exposed surface exchanges heat, with the material of the body", "statement": "A face exchanges heat if and only if exactly one of its sides has material, by the conditions given for its boundary id and with the properties and powder fraction of the material side; internal faces and faces of the empty region never do; the all-adiabatic shortcut does not change the result.", "quantifier": "every activation state of the mesh, every boundary table and every distribution of cells over processes", "why_tests_cant": "depends on the activation state, which changes with each deposition, and on the process that handles the face", "anchors": ["source/ThermalOperator.templates.hh: face_local_apply, get_state_from_material_properties, _adiabatic_only_bc"]}
{"id": "C97", "title": "Temperatures at hanging nodes are those of the field", "statement": "At any time the stored temperature of a hanging node is the interpolation of its neighbours, and the evolution of the field does not depend on what is stored there.", "quantifier": "every mesh with hanging nodes, every number of steps between outputs, every method", "why_tests_cant": "needs adaptively refined meshes and many steps without output; the error is reset by each output", "anchors": ["source/ThermalOperator.templates.hh: vmult_add (constrained dofs), compute_inverse_mass_matrix", "source/ThermalPhysics.templates.hh: mark_has_melted, save_checkpoint", "application/adamantine.hh: run"]}
{"id": "C98", "title": "The printed global heat input is the power delivered to the material", "statement": "The value printed as Global Heat Input is the power that the heat sources put into the material in that evaluation of the right-hand side.", "quantifier": "every mesh, set of sources, time and quadrature option", "why_tests_cant": "the printed number and the assembled source are computed by different code with different quadrature and heat source functions", "anchors": ["source/ThermalPhysics.templates.hh: evaluate_thermal_physics_impl (print_heat_input)", "source/ThermalOperator.templates.hh: cell_local_apply"]}
{"id": "C99", "title": "The lumped mass matrix is the mass of the material", "statement": "Each unconstrained degree of freedom has as mass the integral of its basis function over the material, the masses add up to the volume of the material and weight a temperature vector to the integral of the temperature; constrained entries have mass one; scaling with the inverse undoes scaling with the mass.", "quantifier": "every consistent mesh with hanging nodes and any activation state", "why_tests_cant": "must hold for every mesh and activation state", "anchors": ["source/ThermalOperator.templates.hh: compute_inverse_mass_matrix, cell_local_mass"]}
{"id": "C100", "title": "Thermal properties given in the input are used for exactly the material, state and property they are given for", "statement": "After reading the material database, the value of a thermal property of a material state at a temperature is the piecewise linear table (constant outside its ends) or the polynomial written in the input for that material, state and property; if it is not written there it is zero; it depends on nothing else in the database.", "quantifier": "every material database the reader accepts, every material, state, property and temperature", "why_tests_cant": "ranges over all databases, list lengths and temperatures; mixing up a material id, a state or a table slot only shows for some combination", "anchors": ["source/MaterialProperty.templates.hh: fill_properties, compute_property_from_table, compute_property_from_polynomial"]}
{"id": "C101", "title": "The mechanical properties of a material are those of its solid at the current temperature", "statement": "The Lame parameters, reference quantities and plastic parameters the mechanical solver sees for a cell are the values given for the solid state of the cell's material at the temperature of the cell; values given for powder or liquid have no influence.", "quantifier": "every accepted material database, material, mechanical property and temperature", "why_tests_cant": "ranges over all databases and temperatures", "anchors": ["source/MaterialProperty.templates.hh: fill_properties, get_mechanical_property"]}
{"id": "C102", "title": "Malformed material property texts are rejected and well-formed ones accepted", "statement": "Reading the material database succeeds exactly when every property text is well formed and fits in the storage; in particular the order the driver derives from the database is always large enough, and a malformed text gives an error and never undefined behaviour.", "quantifier": "every material database and property text", "why_tests_cant": "ranges over all strings in every slot of the database", "anchors": ["source/MaterialProperty.templates.hh: fill_properties", "application/adamantine.hh: run", "application/adamantine.cc: main"]}
{"id": "C103", "title": "State-independent material constants are read or take a documented default", "statement": "Solidus, liquidus, latent heat and the other constants of a material are the numbers written in the input; when absent they take the largest finite number, so that the material never melts; a text that is not a number is rejected.", "quantifier": "every material database, material and constant", "why_tests_cant": "ranges over all databases and strings", "anchors": ["source/MaterialProperty.templates.hh: fill_properties"]}
{"id": "C104", "title": "Cell properties are the fraction-weighted means of the state properties", "statement": "After an update, every property of a cell is the sum over states of the fraction of the state times the value of the property of the state at the average temperature of the cell, plus the latent heat contribution in the mushy zone and the radiation term; it lies between the smallest and largest state value; the boundary update gives the same values for the boundary properties and leaves the others available.", "quantifier": "every cell, temperature, fraction vector and material table", "why_tests_cant": "ranges over all states, temperatures and tables", "anchors": ["source/MaterialProperty.templates.hh: update, update_boundary_material_properties"]}
{"id": "C105", "title": "Every locally owned cell has its own state", "statement": "Every locally owned cell has its own column of phase fractions; the fraction reported for a cell is the one written for it, whatever the global numbering; cells of other processes are refused; the initial state of a cell is the pure state of its user index; a state restored by position is the state of the cell at that position.", "quantifier": "every list of cells, global numbering, initial state and restored state", "why_tests_cant": "ranges over all meshes, partitions and numberings", "anchors": ["source/MaterialProperty.templates.hh: reinit_dofs, get_state_ratio, set_initial_state, set_cell_state, compute_average_temperature", "source/MaterialProperty.hh: get_dof_index"]}
{"id": "C106", "title": "The arrangement of cells into batches does not mix their states", "statement": "Copying phase fractions and deposition angles between the cells and the vectorised batches of the host operator, or the positions of the device operator, gives each cell its own values, for every arrangement and number of lanes; a copy forth and back changes nothing.", "quantifier": "every arrangement of cells into batches, lane count, device numbering, state and angle list", "why_tests_cant": "ranges over all arrangements and lane counts, which depend on hardware and mesh", "anchors": ["source/ThermalOperator.templates.hh: reinit, get_state_from_material_properties, set_material_deposition_orientation", "source/ThermalOperatorDevice.templates.hh: get_state_from_material_properties, set_material_deposition_orientation", "source/MaterialProperty.templates.hh: set_state, set_state_device"]}
{"id": "C107", "title": "GPU and CPU runs compute the same temperatures", "statement": "The device implementation of the right-hand side returns the same time derivatives as the host implementation, so that a run on a GPU gives the same temperature field as a run on a CPU, for every time stepping method and number of steps.", "quantifier": "every mesh, material coefficients, heat sources, temperature vector, method, step size and number of steps", "why_tests_cant": "ranges over all meshes and states; most test machines have no GPU", "anchors": ["source/ThermalOperatorDevice.templates.hh: vmult, compute_inverse_mass_matrix, update_inv_rho_cp_cell", "source/ThermalPhysics.templates.hh: evaluate_thermal_physics_impl (device)"]}
{"id": "C108", "title": "Learnt beam parameters are used from the next step on, by the right beam, in the input's units", "statement": "After every time step of a run with data assimilation the absorption and the power of beam 0 are the ones learnt last (or the input's), in the units of the input; all other beams, the geometry and the motion of all beams are unchanged; the heat of beam 0 scales with the learnt values from the next step on.", "quantifier": "every number and type of beams, choice of learnt parameters, units and sequence of frames", "why_tests_cant": "ranges over all histories of frames and all inputs", "anchors": ["application/adamantine.hh: run_ensemble", "source/ThermalPhysics.templates.hh: update_physics_parameters", "source/BeamHeatSourceProperties.hh: set_from_database", "source/HeatSource.hh: set_beam_properties"]}
{"id": "C109", "title": "Which cells hold material at the start", "statement": "At the start exactly the cells whose centre is below the given material height hold material; each has the default orientation, is unmelted, and is solid or powder as the powder layer says; the arrays have one entry for each such cell in the order of the mesh and no other.", "quantifier": "every mesh, distribution of the cells over the processes, height and layer", "why_tests_cant": "ranges over all meshes and partitions", "anchors": ["source/ThermalPhysics.templates.hh: ThermalPhysics", "source/Geometry.cc: assign_material_state"]}
{"id": "C110", "title": "Import of a mesh", "statement": "An imported mesh has the cells of the file read with the named format, the coordinates converted from the given unit to metres and the file's material ids (or zero on request); every cell has the properties of a material of the input.", "quantifier": "every mesh file, format name, unit and property table", "why_tests_cant": "ranges over all mesh files", "anchors": ["source/Geometry.cc: Geometry", "source/MaterialProperty.templates.hh: get_cell_value"]}
{"id": "C111", "title": "Gravity load equals the weight", "statement": "The load that gravity puts on a body sums up to its weight, density times volume times 9.80665, against the vertical axis and to zero along the others; cells without solid material have no weight; several body forces add up.", "quantifier": "every mesh, also with hanging nodes, every distribution of materials and list of body forces", "why_tests_cant": "ranges over all meshes and material distributions", "anchors": ["source/MechanicalOperator.cc: assemble_rhs", "source/BodyForce.cc: eval"]}
{"id": "C112", "title": "The computed displacement is in equilibrium", "statement": "The displacement returned by a mechanical solve balances, for every virtual displacement the supports allow, the work of its elastic stress with that of the thermal and body loads; clamped nodes do not move and hanging nodes follow; if the supports hold the body, the solution exists, is unique and does not depend on how constrained unknowns are eliminated, and a solution is found.", "quantifier": "every mesh, material distribution, temperature field, supports and list of body forces", "why_tests_cant": "ranges over all meshes, loads and supports", "anchors": ["source/MechanicalOperator.cc: assemble_system, assemble_rhs", "source/MechanicalPhysics.cc: solve, setup_dofs"]}
{"id": "C113", "title": "The stored stress belongs to the displacement", "statement": "The stored stress after any sequence of mechanical steps is the elastic stress of the last displacement minus that of a volume-preserving plastic strain, however the loading is divided into steps, and it balances the loads of the last step.", "quantifier": "every mesh, sequence of loads and division into steps", "why_tests_cant": "ranges over all load histories", "anchors": ["source/MechanicalPhysics.cc: solve, compute_stress"]}
{"id": "C114", "title": "With an STL file exactly the cells completely inside the shape can be deposited", "statement": "A cell is eligible for deposition exactly if its whole bounding box is inside the solid bounded by the triangles of the file, whichever of several equally near triangles the spatial search returns.", "quantifier": "every solid, triangulation with outward normals, cell and tie-breaking of the search", "why_tests_cant": "ranges over all shapes and positions of cells, and over unspecified tie-breaking", "anchors": ["source/Geometry.cc: is_within_stl, InsideCallBack", "source/material_deposition.cc: get_elements_to_activate"]}
{"id": "C115", "title": "Temperatures converge to the exact solution as the time step shrinks", "statement": "On a fixed mesh, the temperatures computed by each of the three time steppers converge, at every time of an interval, to the exact solution of the semi-discrete heat equation as the time step tends to zero, also if beams are switched on and off; with smooth data the error of rk_third_order and rk_fourth_order is of third and fourth order.", "quantifier": "every mesh, material data, exact solution, method, accuracy and number of steps", "why_tests_cant": "a limit statement over all time steps and all problems", "anchors": ["source/ThermalPhysics.templates.hh: evolve_one_time_step, evaluate_thermal_physics", "source/ThermalOperator.templates.hh: vmult_add"]}
{"id": "C116", "title": "Temperatures stay within the range of the initial and ambient temperatures", "statement": "With all beams off the computed temperatures never leave the range spanned by the initial temperatures and the temperatures of the surroundings, and beams never produce a temperature below it, for any number of time steps.", "quantifier": "every mesh, material data, initial temperatures, time step, method and number of steps", "why_tests_cant": "ranges over all meshes, temperatures and unbounded runs", "anchors": ["source/ThermalPhysics.templates.hh: evolve_one_time_step", "source/ThermalOperator.templates.hh: cell_local_apply, face_local_apply, compute_inverse_mass_matrix", "source/validate_input_database.cc: time_stepping"]}
{"id": "C117", "title": "The perturbed-observation update has the Kalman mean and covariance", "statement": "The perturbations added to the observations have mean zero and the given error covariance and are uncorrelated between members; hence, in expectation, every member moves to its Kalman estimate and the updated ensemble has the Kalman covariance, also when a run is restarted.", "quantifier": "all ensembles, ensemble sizes, observations, error covariances (diagonal or full) and positions of the random number generator", "why_tests_cant": "a statement about expectations over all draws; a test sees finitely many samples", "anchors": ["source/DataAssimilator.cc: fill_noise_vector, update_ensemble, calc_sample_covariance_sparse", "source/DataAssimilator.hh: _prng"]}
{"id": "C118", "title": "The material states follow the temperature history", "statement": "Between two changes of the mesh the stored liquid fraction of every point is the liquid fraction of the current temperature, and the powder fraction is the least that any temperature since the start left unmelted; without powder the time steps have no memory beyond the temperature.", "quantifier": "every mesh, material law, time-stepping method, beam history, time step, initial temperature and state, and number of steps", "why_tests_cant": "The state is updated inside every evaluation of every Runge-Kutta stage; a test observes a few steps, not all histories and all stage temperatures.", "anchors": ["source/ThermalOperator.templates.hh:update_state_ratios", "source/ThermalOperator.templates.hh:update_face_state_ratios", "source/ThermalPhysics.templates.hh:evolve_one_time_step", "source/MaterialProperty.templates.hh:set_state"]}
{"id": "C119", "title": "Five-axis deposition follows the beam over the part", "statement": "For a five-axis scan path the generated boxes of material lie where the beam is over the part: the boxes of a powered segment are placed, in order and at most a deposition length apart, at the points of the part under the beam between the start and the end of the segment, at the time the beam gets there less the lead time; each box contains the point under the beam and reaches the deposition height below it, in the direction away from the beam.", "quantifier": "every five-axis scan path of unit rotations and every deposition length, width, height and lead time", "why_tests_cant": "The loop mixes distances in two frames and rotates two corners of each box; a test tries a few orientations, not every orientation and path.", "anchors": ["source/material_deposition.cc:deposition_along_scan_path", "source/Quaternion.cc:rotate", "source/GoldakHeatSource.cc:value"]}
{"id": "C120", "title": "The phases over a whole run with an adapting mesh", "statement": "During a whole run with any sequence of time steps, outputs, additions of material and mesh adaptations the phase fractions of every active cell lie between zero and one and add up to one; the powder fraction of an active cell never exceeds that of the cell that covered it at any earlier time; material that was liquid everywhere in a cell never becomes powder again in that cell or in the cells it is refined into; and an adaptation of the mesh changes the amount of no phase.", "quantifier": "every refinement forest in every dimension, every sequence and number of operator applications with any temperatures, outputs, additions and adaptations, every arrangement of the cells into batches", "why_tests_cant": "needs an invariant over unbounded interleavings of time steps and changes of the mesh; a test fixes one sequence", "anchors": ["application/adamantine.hh: refine_and_transfer", "source/ThermalPhysics.templates.hh: add_material_start, add_material_end", "source/MaterialProperty.templates.hh: set_state", "source/ThermalOperator.templates.hh: get_state_from_material_properties"]}
{"id": "C121", "title": "The input check accepts exactly the inputs that obey the documented rules", "statement": "An input file is accepted if and only if it obeys the rules of the input: readable physics switches with one on; known and compatible boundary conditions with a thermal and a mechanical condition per line for the enabled physics and a clamped boundary for mechanics; degree 1 to 5; a legal quadrature; dimension 2 or 3; the mesh, powder and deposition entries of the chosen options; materials with a state and with every property the boundary conditions and the dimension need; known memory space, beam types, path formats, time stepping method, cutoff function and units; absorption in [0,1], non-negative depth, time step and tolerance; ordered frames and cameras. No wrong entry is accepted and no correct input is rejected.", "quantifier": "every input tree, every conversion of text into numbers and truth values, every number of materials, beams and boundary lines", "why_tests_cant": "both directions quantify over all input files; tests try a few accepted and a few rejected ones", "anchors": ["source/validate_input_database.cc: validate_input_database"]}
{"id": "C122", "title": "The members of an ensemble share one mesh, one set of cells with material and one time throughout the run", "statement": "In an ensemble simulation all members, whichever processes run them, have in every time step the same mesh, the same cells with material, the same time and the same step number (the data assimilation uses the degrees of freedom of the first member for all of them); and wherever the mesh is refined, it is refined around the beams of every member.", "quantifier": "every number of groups and members, every drawn database, every history of temperatures and analyses, every number of steps, every behaviour of the mesh library within its contract", "why_tests_cant": "the invariant runs over the whole loop with refinement, activation and assimilation for all ensembles and drawn parameters; a test runs one ensemble for a few steps", "anchors": ["application/adamantine.hh: run_ensemble, refine_mesh, compute_cells_to_refine", "source/ensemble_management.cc: get_bounding_heat_sources", "source/ThermalPhysics.templates.hh: ThermalPhysics"]}
{"id": "C123", "title": "A parameter perturbed in the ensemble section changes the simulation of the members", "statement": "The value drawn for a parameter of the ensemble section is the one the simulation of the member uses; the members' results depend on nothing else of the drawn databases.", "quantifier": "every input, every set of perturbed parameters, every number of groups, members and steps", "why_tests_cant": "whether any of the many readers of the input uses the member's or the common database shows only for the parameter it reads, over the whole run", "anchors": ["application/adamantine.hh: run_ensemble", "source/ensemble_management.cc: create_database_ensemble", "source/ThermalPhysics.templates.hh: ThermalPhysics, update_physics_parameters"]}
{"id": "C124", "title": "A scan path file is read as it is written", "statement": "The path read from a scan path file is the one written in it: for an event series each line gives time, position, optional rotation and power, with any blanks or commas between the numbers and empty lines anywhere; for a segment file each line gives the kind, the position, the power and the speed or dwell time; reading stops at SCAN_PATH_END (which marks the path as finished) and, in a segment file, after the declared number of segments.", "quantifier": "every text of the file, every number of lines and records, every spelling of the numbers and of the separators, every unit", "why_tests_cant": "the spellings of a file are infinitely many (runs of blanks, commas, blanks at either end, missing entries); the tests read two files", "anchors": ["source/ScanPath.cc: load_segment_scan_path, load_event_series_scan_path"]}
{"id": "C125", "title": "A deposition file is read as it is written", "statement": "The boxes, times and directions read from a material deposition file are the ones written in it, one per line and in that order: centre, edge lengths, time and angle, separated by blanks; a file for another dimension or with decreasing times is rejected.", "quantifier": "every text of the file, every number of lines, every spelling, both dimensions", "why_tests_cant": "the spellings of a file are infinitely many; the tests read one file", "anchors": ["source/material_deposition.cc: read_material_deposition"]}
{"id": "C126", "title": "Whenever the program is killed, the last checkpoint can be restarted from", "statement": "If the program is killed at any moment of a run with checkpoints - between any two file operations of any process, also while a checkpoint is being written - a restart from the last completed checkpoint finds the mesh, the fields, the time and the step number of that checkpoint; restarted runs do not damage the checkpoints they were started from.", "quantifier": "every run, every crash point (file operation), every interleaving of the processes, every previous content of the disk, every checkpoint prefix and output directory", "why_tests_cant": "crash points and interleavings are unboundedly many; the tests never kill the program", "anchors": ["application/adamantine.hh: run (checkpoint 1349-1373, restart 926-973), run_ensemble (2372-2400)", "source/ThermalPhysics.templates.hh: save_checkpoint, load_checkpoint"]}
{"id": "C127", "title": "The temperatures do not depend on the number of processes", "statement": "Running the same input on any number of MPI processes, with any distribution of the cells, faces and unknowns, gives the same temperatures, phase fractions and printed heat input after every time step.", "quantifier": "every mesh with hanging nodes and material laws, every number of processes, every distribution of cells, faces and degrees of freedom, every content of ghost entries, every method, step length and number of steps", "why_tests_cant": "the tests run a few inputs on one and two processes; distributions, numbers of processes and steps are unbounded", "anchors": ["source/ThermalOperator.templates.hh: vmult_add, compute_inverse_mass_matrix, cell_local_apply, face_local_apply", "source/ThermalPhysics.templates.hh: evaluate_thermal_physics_impl, evolve_one_time_step", "source/ThermalOperator.templates.hh: get_state_from_material_properties (face state)"]}
{"id": "C128", "title": "Plastic flow dissipates energy and does not amplify perturbations", "statement": "With isotropic or no hardening, plastic flow happens only on the yield surface and along it, the plastic strain of every update maximises the work over all stresses the yield condition allows, the plastic work of every loading history is nonnegative, two states that see the same strains never move apart in the energy norm, a strain increment of zero changes nothing, and a proportional load gives the same stress whatever the number of load steps.", "quantifier": "every material with positive shear modulus and nonnegative plastic modulus, every dimension, every admissible starting state, every history of strain increments of any length, every pair of states, every division of a load into steps", "why_tests_cant": "the tests compare one bar under one load; histories, pairs of states and divisions into steps are unbounded", "anchors": ["source/MechanicalPhysics.cc: compute_stress (591-621)"]}
{"id": "C129", "title": "The time loop in floating-point arithmetic", "statement": "In double arithmetic a new run whose time step is not negligible stops, at a time equal to the duration to the last bit; time strictly increases, every step but the last uses exactly the time step of the input; the times of the steps are multiples of the time step up to one rounding error per step; the number of steps is the duration divided by the time step, rounded up; no deposition box before the duration is lost; a restarted run repeats the steps of the uninterrupted run bit by bit and ends at the duration.", "quantifier": "every rounding to nearest with any precision, every time step and duration of the format, every number of steps, every list of deposition times, every checkpoint", "why_tests_cant": "whether rounding errors add up to a lost or an additional step depends on the bits of the input; the tests use a few durations", "anchors": ["application/adamantine.hh: run (1063-1158, 1258, 1349-1399)", "application/adamantine.hh: compute_cells_to_refine (564-570)"]}
{"id": "C130", "title": "The phase fractions in floating-point arithmetic", "statement": "Also with rounded arithmetic the phase fractions of every point stay between zero and one over every history of temperatures and add up to one up to two rounding errors; the liquid fraction is exactly zero up to the solidus and one from the liquidus on and never decreases with the temperature; the powder fraction never increases and is exactly zero once the point has melted; the fractions stored for a cell are between zero and one.", "quantifier": "every rounding to nearest with any precision, every solidus below the liquidus, every history of temperatures of any length, every number of quadrature points of a cell", "why_tests_cant": "rounding errors depend on the bits of the temperatures; tests compare a few values with a tolerance", "anchors": ["source/ThermalOperator.templates.hh: update_state_ratios (285-316)", "source/MaterialProperty.templates.hh: update (303-352), set_state (588-619)"]}
{"id": "C131", "title": "Superposition of heat sources", "statement": "With temperature-independent material data and no radiation the temperature rise caused by several heat sources together is the sum of the rises caused by each of them alone, multiplying the power multiplies the rise, and differences of initial temperatures propagate proportionally, with every time-stepping method, stable or not, and with refinement and added material between the steps. For any material data the temperatures depend on the sources only through their total power density: the order in which the input lists the beams does not matter.", "quantifier": "every mesh with hanging nodes, every set of sources moving and switching in time, every method, time step, number of steps, initial temperature and sequence of mesh changes", "why_tests_cant": "a relation between several runs over all sources and schedules; a test compares a few runs of one case", "anchors": ["source/ThermalOperator.hh: set_time", "source/ThermalOperator.templates.hh: cell_local_apply, face_local_apply", "source/ThermalPhysics.templates.hh: evaluate_thermal_physics, evolve_one_time_step"]}
{"id": "C132", "title": "The scan path in floating-point arithmetic", "statement": "With every operation rounded (any monotone rounding with a bounded relative error, in particular IEEE double), a segment file with non-negative dwell times and non-zero speeds loads into one segment per record with end times in order, the i-th within i relative rounding errors of the sum of the durations; a query never divides by zero between two records, returns the power of the right record, and a position within 14 rounding errors of the exact one, never before the start of the segment, never moving backwards, and exact in every coordinate that does not change; before the end of the first record the beam is exactly at its point and after the last it is off. The end of a segment, however, need not be reached exactly and can be overshot.", "quantifier": "every rounding, every segment file, every query time", "why_tests_cant": "tests compare a few positions with a tolerance; the statement bounds the rounding of every path of any length and excludes NaN and steps back at every time", "anchors": ["source/ScanPath.cc: load_segment_scan_path, update_current_segment_info, value, get_power_modifier", "source/ScanPath.hh: ScanPathSegment"]}
{"id": "C133", "title": "Deposition along a segment in floating-point arithmetic", "statement": "With every operation rounded, the distances included, the generation of the boxes of a horizontal powered segment ends for every segment whose coordinates are not so large that the deposition length or the tolerance 1e-10 is lost in their rounding; the centres keep the height of the segment exactly, advance with every box, never pass the end by more than the tolerance, stay within 30 rounding errors per box of the line, and the last one is at most twice the tolerance before the end; every box contains its centre with its corners in order and its top at the height of the segment, and its sides are those of exact arithmetic up to 8 rounding errors of its length and width; the times do not decrease with the distance and are within 14 rounding errors of the exact ones.", "quantifier": "every rounding with relative error at most 1/64 (double included), every horizontal segment, deposition length, width, height, lead time and number of boxes", "why_tests_cant": "termination of a floating-point loop with a tolerance, and error bounds for all segments; a test runs a few segments of nice lengths", "anchors": ["source/material_deposition.cc: deposition_along_scan_path"]}
{"id": "C134", "title": "Orientations written with finitely many digits", "statement": "A five-axis scan path whose recorded rotations are unit quaternions only up to the digits written in the file (squared norm within delta of one) turns every point, at every time, to within 2 delta times its distance from the origin of where the exact rotations would turn it, in both directions, and turning a point there and back returns it to within 4 delta (1 + delta) times that distance; the orientation is defined at every time.", "quantifier": "every five-axis path, every delta, every rounding of the recorded rotations, every time and every point", "why_tests_cant": "error bounds for all paths and points; the test paths have a handful of rotations", "anchors": ["source/Quaternion.cc: Quaternion::rotate, inv_rotate, pow, operator/=", "source/ScanPath.cc: ScanPath::get_quaternion, rotate", "source/Quaternion.cc:40 ASSERT"]}
{"id": "C135", "title": "Moving and delaying a scan path", "statement": "Moving a scan path and delaying it moves and delays the heat of the beam, the boxes refined around it and the deposited material and changes nothing else: the heat at the moved point after the delayed calls is the heat at the point, for every history of update_time calls, in scalar and vectorised form, in 2D and 3D (delays also for five-axis paths); the deposition boxes are the moved boxes with the same directions, and the deposition times are the delayed ones.", "quantifier": "every scan path, every translation and delay, every beam, every history of update times in any order, every evaluation point, every set of deposition parameters", "why_tests_cant": "relates the runs on all pairs of a path and its moved copy; tests fix one path at one place", "anchors": ["source/ScanPath.cc: ScanPath::value, get_power_modifier, get_quaternion", "source/GoldakHeatSource.cc: update_time, value, get_bounding_box", "source/ElectronBeamHeatSource.cc: update_time, value, get_bounding_box", "source/material_deposition.cc: deposition_along_scan_path"]}
{"id": "C136", "title": "Stresses over a whole mechanical run with an adapting mesh", "statement": "At every time of every mechanical run - any sequence of thermal steps, setups, solves, refinements, coarsenings and depositions, with any displacements, phase changes and temperature-dependent properties - no NaN is stored in a cell that takes part in the mechanical simulation, its yield radius is never below the smallest elastic limit, its back stress is a deviator and, with isotropic or no hardening, its stress is on or inside the yield surface; refined cells inherit the data of their parent.", "quantifier": "every sequence of events of any length, every mesh, every displacement increment, every admissible material, every history of phases", "why_tests_cant": "an invariant over all event histories; tests load a fixed mesh a few times", "anchors": ["source/MechanicalPhysics.cc: MechanicalPhysics::MechanicalPhysics, setup_dofs, solve, compute_stress, prepare_transfer_mpi, complete_transfer_mpi", "application/adamantine.hh: run (1105-1343), refine_and_transfer"]}
{"id": "C137", "title": "Depositing along a scan path that grows during the run", "statement": "With the duration taken from the scan path and files that grow while the program runs, every deposition event that is in a file when it is read, or is added before the beam gets there, is activated in the window that contains its time; and what is written into the files later has no effect on the steps and activations made before it is read.", "quantifier": "every number of files, every history of their contents, every time step, deposition_time and list of events, every step", "why_tests_cant": "depends on when the files are updated relative to the steps and on unboundedly many re-reads", "anchors": ["application/adamantine.hh: run (956-1170)", "source/material_deposition.cc: create_material_deposition_boxes"]}
{"id": "C138", "title": "Waiting for a scan-path file that another program writes", "statement": "In every interleaving of the program with the one that writes the scan-path file: the program waits only as long as the file has not changed since it was read, it never misses an update, it goes on once there is one, the path it has is never older than one it had before, a file is read as a whole, and all processes have the same path.", "quantifier": "every history of the file (contents, time stamps, moments at which it is missing), every schedule of the operations of every process, any number of calls of read_file", "why_tests_cant": "depends on the interleaving with another program; the tests read files that do not change or change while the program sleeps", "anchors": ["source/utils.hh: wait_for_file, wait_for_file_to_update", "source/ScanPath.cc: ScanPath::ScanPath, ScanPath::read_file"]}
{"id": "C139", "title": "The material update on many threads", "statement": "The phase fractions and the properties of the cells after a material update do not depend on how the threads of the kernel are scheduled: every interleaving of their reads and writes gives each locally owned cell the fractions and properties that its own old fractions, material and average temperature determine, leaves everything else as it was, and can always be completed.", "quantifier": "every number of cells and numbering of their degrees of freedom, every material data, old state and temperatures, every interleaving of the single memory accesses of all threads", "why_tests_cant": "a race shows up only for some schedules; the tests run few cells, mostly with the serial execution space", "anchors": ["source/MaterialProperty.templates.hh: MaterialProperty::update (kernel adamantine::update_material_properties)", "source/MaterialProperty.templates.hh: MaterialProperty::reinit_dofs"]}
{"id": "C140", "title": "The thermal operator on the threads of the device", "statement": "The temperature rate that the device computes, and the fractions and heat capacities it stores, do not depend on how the threads of the cell loop are scheduled: every interleaving of their reads, writes and atomic additions gives each quadrature point what its own old powder fraction and temperature determine and adds every contribution of every cell exactly once. In floating-point arithmetic the results of all schedules are within the rounding bound of the exact sum.", "quantifier": "every set of cells and points, every temperatures, materials and old powder fractions, every interleaving of the single memory accesses, every rounding", "why_tests_cant": "the schedule is chosen by the hardware; a test sees a few of them", "anchors": ["source/ThermalOperatorDevice.templates.hh: LocalThermalOperatorDevice::operator(), ThermalOperatorQuad::operator(), update_state_ratios, get_inv_rho_cp", "source/ThermalOperatorDevice.templates.hh: ThermalOperatorDevice::vmult_add"]}
{"id": "C141", "title": "The mechanical assembly on several threads", "statement": "Whatever the number of threads and however their accesses interleave, the assembly of the mechanical problem can finish, and when it has, the matrix is, to the last digit, the one obtained by adding the local matrices of the cells one after the other; the thermal load is likewise the one in which each cell uses its own temperatures. The copy data a worker is handed may hold anything from other cells.", "quantifier": "every mesh, every interleaving of the single accesses of the workers and of the copier, every leftover content of the reused buffers, every addition (exact or rounded)", "why_tests_cant": "races appear only under particular schedules, and the tests run with few cells and threads", "anchors": ["source/MechanicalOperator.cc: assemble_matrix, assemble_rhs, CopyDataMatrix, CopyDataRightHandSide"]}
{"id": "C142", "title": "The thermal operator on the threads of the host", "statement": "The temperature rate that the host operator computes and the phase fractions it stores are the same, to the last digit, for every number of threads and every interleaving of their memory accesses: each quadrature point gets the fractions of its own old powder and temperature, every contribution of every cell is added exactly once and in a fixed order, and nothing else is changed.", "quantifier": "every arrangement of cell batches into phases and ranges that share no degree of freedom within a phase, every temperatures and old fractions, every interleaving of the single, non-atomic accesses, every rounding", "why_tests_cant": "a test sees the schedules of its machine; a lost update appears only under some of them", "anchors": ["source/ThermalOperator.templates.hh: vmult_add, cell_local_apply, update_state_ratios", "source/ThermalOperator.hh: _liquid_ratio, _powder_ratio"]}
