import json
P=[]
def p(title, statement, quantifier, why, anchors):
    P.append(dict(id="C%02d"%(len(P)+1), title=title, statement=statement, quantifier=quantifier, why_tests_cant=why, anchors=anchors))

# --- Quaternion
p("Rotating a point by a scan-path orientation is a rigid motion",
  "For every quaternion given to the five-axis code by four numbers of unit norm, rotate(point) preserves the distance from the origin, the distance and the scalar product between any two points, and inv_rotate(rotate(point)) and rotate(inv_rotate(point)) both return the point unchanged.",
  "every unit quaternion and every pair of 3D points",
  "a test fixes a handful of angles and points; a sign error in one of the nine matrix entries can cancel on symmetric samples",
  ["source/Quaternion.cc: Quaternion::rotate, Quaternion::inv_rotate"])
p("Quaternion multiplication composes rotations",
  "For all unit quaternions p and q, after p *= q rotating any point by the result equals rotating by q first and then by p, the norm of the result is the product of the norms, and q and -q describe the same rotation; p /= q followed by *= q gives back p.",
  "every pair of unit quaternions and every 3D point",
  "composition order and conjugation signs are algebraic identities in eleven variables, samples along one axis commute and hide the order",
  ["source/Quaternion.cc: operator*=, operator/=, rotate"])
p("Powers of a unit quaternion interpolate rotations",
  "For every unit quaternion q that is not plus or minus the identity and every real exponent s, q.pow(s) is again a unit quaternion, pow(0) is the identity, pow(1) is q, and pow(s) * pow(t) = pow(s+t); for plus or minus the identity the result is a valid unit quaternion too.",
  "every unit quaternion and all exponents",
  "an infinite two-parameter family; the degenerate axis is a single point sampling misses",
  ["source/Quaternion.cc: Quaternion::pow"])
# --- ScanPath
p("Segment scan-path files load into a time-ordered path",
  "Loading a segment-format scan path with non-negative dwell times and positive speeds yields one segment per record up to the declared count or the SCAN_PATH_END marker, in file order, with non-decreasing end times starting at or after zero, each line record lasting exactly length/speed and each point record lasting its dwell time; a path that starts with a line record or contains an unknown mode is rejected.",
  "every sequence of records of every length, all declared counts and scaling factors",
  "unbounded input length and free real-valued records",
  ["source/ScanPath.cc: ScanPath::load_segment_scan_path"])
p("Event-series scan-path files load record by record with shifted power",
  "Loading an event-series scan path yields one segment per non-empty line before SCAN_PATH_END, in file order, ending at the time and (scaled) position of that line, whose power is the power written on the previous line (zero for the first); the path is five-axis exactly when some record carries an orientation.",
  "every sequence of lines of every length",
  "unbounded input length; the one-line power shift is easy to get right on two lines and wrong at the ends",
  ["source/ScanPath.cc: ScanPath::load_event_series_scan_path"])
p("The beam position depends only on the time asked for",
  "For a loaded path, the position, power and orientation returned for a time depend only on that time and the path, not on which other times were asked for before, with or without saving the segment.",
  "every path, every finite history of queries (each saving or not) and every query time",
  "the cached segment makes the answer depend on the whole history of calls; a test exercises one history",
  ["source/ScanPath.cc: ScanPath::update_current_segment_info, value, get_power_modifier, get_quaternion"])
p("The beam is on the polyline of the scan path at the right time",
  "For every path with strictly increasing end times and every time in (0, last end time], the position is on the straight segment between the end of the previous record and the end of the current record, at the fraction of the elapsed time, it equals the record's end point at the record's end time, and moves continuously from one record to the next.",
  "every path and every real time within it",
  "continuum of times, unbounded number of segments",
  ["source/ScanPath.cc: ScanPath::value"])
p("The beam is off and out of the domain after the path ends",
  "For every time after the last end time of the path the power is zero and the reported position is the out-of-domain sentinel, whatever the query history; no query on a non-empty path reads outside the segment list.",
  "every non-empty path, every history of queries and every time",
  "out-of-bounds reads depend on the cached index, i.e. on the history",
  ["source/ScanPath.cc: ScanPath::value, get_power_modifier, update_current_segment_info"])
p("Five-axis orientation is interpolated between the recorded rotations along the short path",
  "For every five-axis path of unit rotations and every time, the orientation is a unit quaternion, equals the previous record's rotation at the segment start and a quaternion describing the recorded rotation at the segment end.",
  "every five-axis path and every time in a segment",
  "continuum of rotations and times; the degenerate case of opposite quaternions is a measure-zero set",
  ["source/ScanPath.cc: ScanPath::get_quaternion", "source/Quaternion.cc"])
p("Re-reading a growing scan path keeps earlier answers and the cached position valid",
  "If a scan-path file only grows (old records stay a prefix), then after read_file every time that was inside the old path gives the same position and power as before and no later query with non-decreasing time reads outside the list.",
  "every prefix-extending sequence of re-reads interleaved with queries",
  "unbounded interleavings of file growth and queries",
  ["source/ScanPath.cc: ScanPath::read_file, update_current_segment_info"])
# --- Deposition
p("Reading a material deposition file",
  "Reading a deposition file returns, in file order, one box per record, centred on the given point with the given edge lengths, its time and the cosine and sine of its angle (all four lists of the same length), and rejects a file whose dimension differs from the simulation's or whose times decrease.",
  "every file content of any length",
  "unbounded records",
  ["source/material_deposition.cc: read_material_deposition"])
p("Deposition along a scan path always terminates",
  "For every loaded scan path and positive deposition parameters, generating the deposition boxes finishes.",
  "every scan path and positive deposition parameters",
  "non-termination cannot be observed by a test, only a time-out",
  ["source/material_deposition.cc: deposition_along_scan_path"])
p("Deposition boxes follow powered segments only and have consistent lists",
  "The boxes generated from a scan path come only from segments with power, the four result lists have the same length, every time is at least the minimum positive time, each box's time is the start time of its segment plus the time the beam needs to reach it minus the lead time, and times within one segment do not decrease.",
  "every scan path with planar segments and positive parameters",
  "unbounded number of segments and boxes",
  ["source/material_deposition.cc: deposition_along_scan_path"])
p("Deposition boxes cover every powered planar segment",
  "For each powered planar segment, every point of the segment lies in the planar extent of one of the boxes generated for it, no box of the segment starts beyond the end of the segment and the total length of the boxes along the segment equals the segment's length plus the overlap the algorithm documents.",
  "every planar segment and every positive deposition length",
  "continuum of points and lengths, unbounded number of boxes",
  ["source/material_deposition.cc: deposition_along_scan_path"])
p("Merging deposition paths",
  "Merging the deposition lists of several beams gives lists sorted by time that contain exactly the rows (box, time, cosine, sine) of the inputs, each as often as it occurred.",
  "every number of beams and all lists",
  "unbounded lists; a permutation applied to three of four lists passes small tests with equal angles",
  ["source/material_deposition.cc: merge_deposition_paths"])
p("Exactly the inactive cells touched by a box are selected for activation",
  "For every mesh, part geometry and list of boxes the result has one list per box and contains exactly the locally owned cells that hold no material yet, lie in the part when one is given, and whose bounding box meets the deposition box.",
  "every mesh, set of boxes and part",
  "all meshes and boxes; the early exit and index bookkeeping only show on special partitions",
  ["source/material_deposition.cc: get_elements_to_activate"])
# --- Driver
p("The simulated time reaches the requested duration exactly",
  "With a fixed duration and a positive time step the main loop stops after finitely many steps, time strictly increases at every step, no step exceeds the requested time step, and the final time equals the duration.",
  "every duration, time step and start time (restart)",
  "unbounded number of steps; the last clipped step is the boundary case",
  ["application/adamantine.hh: run, run_ensemble (main loop)"])
p("A run driven by the scan path ends when every scan path has ended",
  "With the duration taken from the scan path, once every scan-path file contains SCAN_PATH_END (whether at start-up or after any number of updates) the main loop stops at the end time of the scan path.",
  "every history of file updates",
  "depends on when the marker appears relative to the reads, an unbounded interleaving; the failing outcome is non-termination",
  ["application/adamantine.hh: run, run_ensemble (scan_path_for_duration)"])
p("Every deposition event inside the run is activated",
  "For every deposition time in [start, duration) the box is in the activation range of some step of the run, and it is activated no later than the step that contains its time plus one activation window.",
  "every time step, activation window, duration and sorted list of deposition times",
  "real-valued interaction between windows and steps over unbounded runs",
  ["application/adamantine.hh: run, run_ensemble (activation window)"])
p("The mesh is refined ahead of the beam at every step",
  "For every step of a run the position of each heat source at the beginning of that step is one of the positions used by the last mesh refinement before it.",
  "every number of steps between refinements and every step",
  "unbounded step numbers, off-by-one in the modular schedule",
  ["application/adamantine.hh: run (refinement schedule), compute_cells_to_refine"])
p("Adaptive refinement respects the level limit and resolves the beam",
  "After refine_mesh no cell is finer than n_refinements, no coarsest cell is coarsened away, and every cell meeting one of the beam boxes is at the finest level; without coarsening no cell is lost or coarsened.",
  "every refinement forest, set of beam boxes and n_refinements",
  "unbounded meshes and depths",
  ["application/adamantine.hh: refine_mesh, compute_cells_to_refine"])
p("Material state, orientation and melt history follow the cells through mesh adaptation",
  "After refine_and_transfer each active cell has the state ratios, deposition orientation and melt flag of the cell it descends from, cells without material keep their state ratios, and the per-material-cell lists are aligned with the cells that hold material.",
  "every mesh, pattern of active cells and refinement",
  "index bookkeeping over arbitrary mixes of active, inactive and ghost cells",
  ["application/adamantine.hh: refine_and_transfer"])
p("Restarting a run continues the checkpointed run",
  "For every run and checkpoint step k, stopping after the checkpoint and restarting performs the same sequence of steps (numbers, times, time steps, outputs from step k+1 on) as the uninterrupted run, whatever output directory is configured.",
  "every run and every crash point after a checkpoint",
  "crash points and histories",
  ["application/adamantine.hh: run (checkpoint, restart)"])
p("Restarting an ensemble restores each member from its own checkpoint",
  "For every number of MPI ranks and members, on restart each ensemble member is loaded from the file that member was saved to.",
  "every number of ranks, members and member index",
  "only visible with several ranks and different members",
  ["application/adamantine.hh: run_ensemble (checkpoint/restart)"])
p("Ensemble members are partitioned over the MPI ranks",
  "For every number of ranks and members accepted by the code every member is simulated by exactly one group of ranks, groups are non-empty and equal in size when there are more ranks than members, and the first local member index is the number of members on lower groups; other combinations are rejected.",
  "all numbers of ranks and members",
  "two unbounded integers",
  ["application/adamantine.hh: split_global_communicator"])
p("Each experimental frame is assimilated once, at the first step that reaches its time",
  "In an ensemble run with data assimilation every frame whose time stamp is reached by the run is assimilated exactly once, in order, with its own data, in the first step whose end time is not before the stamp, or the run stops with an error.",
  "every list of time stamps, first frame number and step sequence",
  "unbounded interleaving of frames and steps",
  ["application/adamantine.hh: run_ensemble (data assimilation)", "source/PointCloud.cc: read_next_frame"])
# --- Ensemble
p("Ensemble parameters do not depend on the number of MPI ranks",
  "The value drawn for member m of a parameter given with a standard deviation is the same however the members are distributed over ranks, is never negative, and equals the mean when the deviation is zero.",
  "every stream of random draws, partition of the members and member",
  "the draws rejected for being negative depend on the stream",
  ["source/ensemble_management.cc: get_normal_random_vector, create_database_ensemble"])
p("Ensemble databases differ from the input only in the sampled parameters",
  "In each member's database every parameter p with a companion p_stddev has the sampled value and every other entry has its input value, at any nesting depth.",
  "every input tree",
  "unbounded trees",
  ["source/ensemble_management.cc: traverse, create_database_ensemble"])
p("Bounding heat sources enclose those of every member",
  "The heat sources used for the shared refinement have diameter and depth at least those of every member's source on every rank.",
  "every ensemble and every distribution over ranks",
  "maximum over unbounded member lists and ranks",
  ["source/ensemble_management.cc: get_bounding_heat_sources"])
# --- Material
p("Phase fractions stay a partition of unity",
  "At every point and for every temperature history the solid, liquid and powder fractions are in [0,1] and sum to one.",
  "every temperature history of every length and every initial state",
  "histories are unbounded; needs an inductive invariant",
  ["source/MaterialProperty.templates.hh: MaterialProperty::update", "source/ThermalOperator.templates.hh: update_state_ratios"])
p("Powder never re-appears",
  "The powder fraction never increases during a simulation, and once a point has been fully liquid its powder fraction stays zero.",
  "every temperature history of every length",
  "histories are unbounded",
  ["source/MaterialProperty.templates.hh: MaterialProperty::update", "source/ThermalOperator.templates.hh: update_state_ratios"])
p("Liquid fraction is the linear mushy-zone law",
  "The liquid fraction is 0 below the solidus, 1 above the liquidus, linear and monotone in between, for every material with solidus < liquidus and also at solidus = liquidus.",
  "every temperature and pair solidus <= liquidus",
  "continuum; the case solidus = liquidus is a single point",
  ["source/MaterialProperty.templates.hh: MaterialProperty::update"])
p("Tabulated properties interpolate between the given points",
  "The value of a property given by a table with increasing temperatures equals the tabulated values at the tabulated temperatures, is linear between neighbours and is constant outside the table.",
  "every table size from 1 to the maximum and every temperature",
  "the last interval of a full table is one of many sizes, tests use short tables",
  ["source/MaterialProperty.templates.hh: compute_property_from_table"])
p("Polynomial properties are evaluated with all their coefficients",
  "The value of a property given by coefficients c0, ..., cn equals the sum of c_i T^i in the scalar and in the vectorised code, for every n up to the maximum order.",
  "every coefficient list up to the maximum length and every temperature",
  "continuum of coefficients",
  ["source/MaterialProperty.templates.hh: compute_property_from_polynomial, compute_material_property"])
p("Melting absorbs exactly the latent heat",
  "Integrating the extra heat capacity over a temperature sweep from below the solidus to above the liquidus gives the latent heat, for every material with solidus < liquidus, including powder.",
  "every material and sweep",
  "an integral over a continuum",
  ["source/ThermalOperator.templates.hh: get_inv_rho_cp", "source/MaterialProperty.templates.hh: update"])
p("The radiative heat transfer coefficient reproduces the Stefan-Boltzmann law",
  "For every temperature the radiative coefficient times (T - Tinf) equals emissivity * sigma * (T^4 - Tinf^4), so the flux vanishes at the ambient temperature and cools when hotter.",
  "all temperatures",
  "polynomial identity over a continuum",
  ["source/MaterialProperty.templates.hh: update (radiation_heat_transfer_coef)"])
p("Cell-averaged temperature stays between the nodal temperatures",
  "The temperature used for the phase of a cell is a weighted mean of the cell's nodal temperatures: it preserves constants and lies between their minimum and maximum when the shape functions are non-negative at the quadrature points.",
  "every mesh cell and nodal field",
  "continuum of fields",
  ["source/MaterialProperty.templates.hh: compute_average_temperature"])
# --- ThermalOperator
p("SIMD lanes do not influence one another",
  "The phase fractions and heat source values of a cell do not depend on which other cells share its vectorised batch or on the batch width.",
  "every batch width and content",
  "batches are chosen by the mesh traversal; tests do not control them",
  ["source/ThermalOperator.templates.hh: update_state_ratios, update_face_state_ratios", "source/GoldakHeatSource.cc: value", "source/ElectronBeamHeatSource.cc: value"])
p("The rotated thermal conductivity is a rotation of the diagonal tensor",
  "For every deposition angle the conductivity applied to the temperature gradient is R diag(k) R^T: symmetric, dissipative for non-negative conductivities, with the same trace, and independent of the angle when the in-plane conductivities are equal.",
  "every angle and conductivities",
  "continuum of angles, sign errors cancel at 0 and 90 degrees",
  ["source/ThermalOperator.templates.hh: cell_local_apply"])
p("Forward Euler step and time bookkeeping",
  "evolve_one_time_step with forward Euler returns the time advanced by exactly the step and the temperature y + dt f(t, y) where f is evaluated at the start time.",
  "every state, time and step",
  "function-valued statement for all right-hand sides",
  ["source/ThermalPhysics.templates.hh: evolve_one_time_step"])
# --- ThermalPhysics
p("Adding material activates exactly the selected cells and leaves the others unchanged",
  "After adding material the cells holding material are the previous ones plus those listed for the boxes in the activation range; previous cells keep temperature, orientation and melt history, new cells get the new-material temperature, the orientation of their box and are not marked as melted.",
  "every mesh, box list, range and field",
  "index bookkeeping over arbitrary subsets of cells",
  ["source/ThermalPhysics.templates.hh: add_material_start, add_material_end"])
p("Melt history is monotone and exact",
  "After any sequence of steps a cell is marked as melted exactly when at some step its (maximum) temperature exceeded the given threshold since it was created; marks are never removed.",
  "every temperature history",
  "unbounded histories",
  ["source/ThermalPhysics.templates.hh: mark_has_melted"])
p("A checkpoint restores the thermal state",
  "load_checkpoint after save_checkpoint gives back, cell by cell, the temperature, the state ratios, the orientation, the melt history and which cells hold material.",
  "every state at every checkpoint",
  "all states",
  ["source/ThermalPhysics.templates.hh: save_checkpoint, load_checkpoint"])
# --- Mechanics
p("Plastic return mapping satisfies the yield condition",
  "After every stress update the stress is either elastic and inside the yield surface or, after plastic flow, exactly on the updated yield surface (deviatoric stress minus back stress has norm equal to the updated yield radius).",
  "every stress, strain increment, back stress and material with positive moduli",
  "continuum of tensors and histories",
  ["source/MechanicalPhysics.cc: compute_stress"])
p("Plastic flow is volume preserving and hardening is monotone",
  "The plastic correction does not change the trace of the stress, the yield radius never decreases for non-negative moduli, and the elastic branch leaves the internal variables unchanged.",
  "every state and history of strain increments",
  "unbounded histories",
  ["source/MechanicalPhysics.cc: compute_stress"])
p("Reported von Mises stress is the von Mises stress",
  "For every stress tensor the reported value equals sqrt(3/2 dev(s):dev(s)); it vanishes only for hydrostatic stress and does not change under hydrostatic shifts.",
  "every symmetric 3x3 stress tensor",
  "continuum of tensors; tests use diagonal ones",
  ["source/PostProcessor.cc: get_von_mises_stress"])
p("The elasticity matrix is symmetric and positive semi-definite",
  "For every cell, non-negative Lame parameters and quadrature weights, the cell matrix is symmetric, its quadratic form is the elastic energy lambda (div u)^2 + 2 mu |eps(u)|^2, and rigid translations have zero energy.",
  "every cell geometry, element and displacement",
  "all elements and displacements",
  ["source/MechanicalOperator.cc: assemble_matrix"])
p("Melt history reaches the right mechanical cell",
  "The reference temperature of each mechanical cell is chosen from the melt flag of the same mesh cell: the material's reference temperature when it has melted and the initial temperature otherwise.",
  "every mesh and pattern of thermally and mechanically active cells",
  "index translation over arbitrary patterns",
  ["source/MechanicalOperator.cc: assemble_rhs"])
p("Plastic variables survive mesh transfer and phase changes",
  "prepare/complete transfer is a round trip for yield radius, stress and back stress of unrefined cells, and after setup_dofs a cell that stayed solid keeps them, a newly solid cell starts from the elastic limit with zero stresses, and a liquid cell carries none.",
  "every mesh and pattern of phase changes",
  "packing offsets over all sizes, all patterns",
  ["source/MechanicalPhysics.cc: prepare_transfer_mpi, complete_transfer_mpi, setup_dofs"])
# --- Data assimilation
p("Localisation function is a valid taper",
  "The Gaspari-Cohn localisation is 1 at distance 0, 0 beyond the cutoff, continuous, non-increasing and in [0,1]; the step function is 1 up to the cutoff and 0 beyond.",
  "every distance and cutoff",
  "piecewise polynomial on a continuum",
  ["source/DataAssimilator.cc: gaspari_cohn_function, fill_noise_vector, calc_sample_covariance_sparse"])
p("The sample covariance is the unbiased covariance of the ensemble",
  "For every ensemble of at least two members the covariance before localisation is the usual one with divisor n-1: symmetric, positive semi-definite, zero for identical members, unchanged by a common shift; a single member gives no finite covariance.",
  "every ensemble size and state",
  "all sizes and states",
  ["source/DataAssimilator.cc: calc_sample_covariance_sparse"])
p("The observation matrix agrees with direct observation",
  "Applying the observation matrix to a state gives the state at the dofs mapped to the observations, in the order of the observations.",
  "every mapping and state",
  "all mappings including repeated or unordered indices",
  ["source/DataAssimilator.cc: calc_H, calc_Hx, update_dof_mapping"])
p("Data assimilation with zero innovation leaves the ensemble unchanged, and moves it by the gain otherwise",
  "Each member is changed by the gain applied to (perturbed) observation minus its own prediction: a zero innovation vector changes nothing and members are updated independently given the ensemble covariance; observations of the wrong length are rejected.",
  "every ensemble and observation",
  "all states",
  ["source/DataAssimilator.cc: update_ensemble, apply_K"])
p("Gathering and scattering the ensemble is the identity",
  "Distributing the ensemble over global ranks for the covariance computation and back returns every member's entries to the place they came from, for every distribution of members and rows over ranks.",
  "every number of ranks, members and row partition",
  "index permutations over unbounded sizes",
  ["source/DataAssimilator.cc: update_ensemble, gather/scatter"])
# --- Experimental data
p("Frame time stamps are read for exactly the requested frames",
  "Reading the camera log gives, for each camera, the offset-corrected times of exactly the frames between first_frame and last_frame in order, and rejects a log whose frames are not consecutive.",
  "every log content and frame range",
  "unbounded logs",
  ["source/experimental_data_utils.cc: read_frame_timestamps"])
p("Experimental values are written only where they were observed",
  "Setting a field with experimental data changes exactly the entries mapped to observations, each to an observed value mapped to it.",
  "every mapping and field",
  "all mappings, including repeated targets",
  ["source/experimental_data_utils.cc: set_with_experimental_data, get_expt_to_dof_mapping"])
p("Ray tracing reports the nearest visible surface point",
  "For every ray and set of boundary faces, the reported point is on a face hit by the ray in the forward direction and no other hit face is closer; a ray that hits nothing reports nothing; the number of points equals the number of values.",
  "every ray and set of faces",
  "continuum of rays and arbitrary faces",
  ["source/RayTracing.cc: get_points_values, point_in_triangle"])
# --- Input and geometry
p("Boundary conditions are assigned as specified",
  "Every boundary of the mesh gets the condition given for it, else the default one, the printed surface its own; the type of an id that is not on the mesh is the printed surface's; and get_boundary_ids(type) lists exactly the boundaries having that type.",
  "every set of boundary ids and specification",
  "all sets and combinations",
  ["source/Boundary.cc: Boundary, get_boundary_type, get_boundary_ids"])
p("Boundary condition strings do not depend on the order of the names",
  "Accepting and interpreting a comma separated list of boundary conditions does not depend on the order or repetition of the names.",
  "every list of names",
  "all permutations",
  ["source/Boundary.cc: parse_boundary_line", "source/validate_input_database.cc: boundary checks"])
p("Inputs accepted by the validator are usable by the simulation",
  "An input accepted by validate_input_database does not make the simulation throw for an unrecognised option, divide by a zero time-step count, use a zero unit scaling or silently run nothing.",
  "every input accepted by the validator",
  "all inputs",
  ["source/validate_input_database.cc", "source/types.hh: g_unit_scaling_factor", "application/adamantine.cc: main"])
p("Inputs outside the documented ranges are rejected",
  "The validator rejects every input with a dimension other than 2 or 3, no physics, an element degree outside 1..5, an absorption efficiency outside [0,1], a last frame before the first, or mechanics without a clamped boundary.",
  "every input",
  "all inputs",
  ["source/validate_input_database.cc"])
p("Unit scaling converts every documented unit to SI",
  "For every unit accepted by the validator the scaling factor is the positive conversion factor to SI.",
  "every accepted unit string, in any letter case",
  "case variations are many and a missing key silently gives zero",
  ["source/types.hh: g_unit_scaling_factor", "source/validate_input_database.cc"])
p("STL files are read completely or rejected",
  "For every byte string, reading a binary STL either returns exactly as many triangles as the count field says, each with the scaled vertices stored in its facet, or throws; it never reads past the data.",
  "every byte string",
  "all files",
  ["source/Geometry.cc: STL reader"])
p("Powder layer assignment",
  "With a powder layer, the cells whose centre is at or above the top of the material minus the layer thickness are powder and all others are solid; without one all cells are solid; every cell gets exactly one initial state.",
  "every mesh and height",
  "all meshes",
  ["source/Geometry.cc: assign_material_state", "source/MaterialProperty.templates.hh: set_initial_state"])
# --- Heat sources
p("Heat sources are non-negative and deposit the absorbed power",
  "Each beam's volumetric heat is non-negative for every point at or below the beam's height and every time, zero when the beam is off, zero below the penetration depth, and proportional to power times absorption.",
  "every point, time and parameters",
  "continuum of points",
  ["source/GoldakHeatSource.cc", "source/ElectronBeamHeatSource.cc", "source/CubeHeatSource.cc"])
p("Heat source bounding boxes contain the heated region",
  "The box returned by get_bounding_box (with scaling at least one) contains every point below the beam at which the heat source is non-zero at that time.",
  "every time, point, orientation and parameters",
  "continuum",
  ["source/GoldakHeatSource.cc: get_bounding_box", "source/ElectronBeamHeatSource.cc: get_bounding_box", "source/CubeHeatSource.cc: get_bounding_box"])
p("Cube heat source is on exactly in its space-time box",
  "The cube source has its value exactly for times strictly between start and end and points in its closed box and is zero elsewhere, in the scalar and the vectorised code.",
  "every point, time and box",
  "continuum",
  ["source/CubeHeatSource.cc"])
# --- Microstructure etc
p("Microstructure output records the solidification front",
  "compute_G_and_R records exactly the points that cooled from above the liquidus to the liquidus or below in the step, and the recorded cooling rate is (old - new)/dt.",
  "every field history and step",
  "all fields",
  ["source/Microstructure.cc: compute_G_and_R"])
p("Microstructure output files are merged completely and in rank order",
  "When the object is destroyed the final file contains the records of all ranks, in rank order, and the temporary files are removed.",
  "every number of ranks and file contents",
  "all rank counts",
  ["source/Microstructure.cc: ~Microstructure"])
p("Quadrature-point data transfer takes the nearest source point",
  "After adaptation each quadrature point carries the value of a source quadrature point that is nearest to it; constant fields are preserved.",
  "every point set and field",
  "continuum of positions",
  ["source/ClosestSourcePointAdaptation.hh"])
p("Output bookkeeping",
  "Every output of a run is listed once in the pvd record, in time order, refers to one vtu file per rank, file names of different steps, ranks and ensemble members differ, and the files are written in the output directory.",
  "every run, number of ranks and members",
  "unbounded runs",
  ["source/PostProcessor.cc: write_pvtu, write_pvd"])
p("Timers accumulate the time between start and stop",
  "The reported elapsed time of a timer equals the sum of the durations between each start and the following stop.",
  "every sequence of start/stop calls",
  "unbounded call sequences",
  ["source/Timer.cc", "application/adamantine.hh: timers in run_ensemble"])
with open('/verif/properties.jsonl','w') as f:
    for q in P: f.write(json.dumps(q)+"\n")
print(len(P))
for q in P: print(q['id'],q['title'])
