{
 "claims": [
  {
   "property": "C01",
   "status": "proved",
   "theorems": [
    "Verif.Quat.C01_rotate_preserves_inner",
    "Verif.Quat.C01_rotate_isometry",
    "Verif.Quat.C01_inv_rotate_rotate",
    "Verif.Quat.C01_rotate_inv_rotate",
    "Verif.Quat.C01_rotate_is_conjugation"
   ],
   "note": ""
  },
  {
   "property": "C02",
   "status": "proved",
   "theorems": [
    "Verif.Quat.C02_mul_is_hamilton",
    "Verif.Quat.C02_norm_mul",
    "Verif.Quat.C02_unit_mul",
    "Verif.Quat.C02_mul_composes",
    "Verif.Quat.C02_neg_same_rotation",
    "Verif.Quat.C02_div_mul_cancel",
    "Verif.Quat.C02_div_rotate"
   ],
   "note": ""
  },
  {
   "property": "C03",
   "status": "partial",
   "theorems": [
    "Verif.Quat.C03_pow_unit_partial",
    "Verif.Quat.C03_pow_zero_partial",
    "Verif.Quat.C03_pow_one_partial",
    "Verif.Quat.C03_pow_add_partial",
    "Verif.Quat.C03_pow_identity_refuted",
    "Verif.Quat.C03_pow_nan_iff"
   ],
   "note": "pow of plus or minus the identity is 0/0 (C03_pow_identity_refuted, exact set in C03_pow_nan_iff); the rest of the claim is proved for all other unit quaternions."
  },
  {
   "property": "C04",
   "status": "proved",
   "theorems": [
    "Verif.ScanPath.C04_load_segment",
    "Verif.ScanPath.C04_end_times_ordered",
    "Verif.ScanPath.C04_first_line_rejected",
    "Verif.ScanPath.C04_unknown_mode_rejected",
    "Verif.ScanPath.C04_marker_after_declared_count_unnoticed"
   ],
   "note": "Tokenised records; a SCAN_PATH_END marker placed directly after the declared count is not noticed (C04_marker_after_declared_count_unnoticed)."
  },
  {
   "property": "C05",
   "status": "proved",
   "theorems": [
    "Verif.ScanPath.C05_load_event_series"
   ],
   "note": ""
  },
  {
   "property": "C06",
   "status": "partial",
   "theorems": [
    "Verif.ScanPath.C06_history_independent_partial",
    "Verif.ScanPath.C06_history_independent_refuted"
   ],
   "note": "False for times earlier than a saved one (C06_history_independent_refuted); proved when no earlier saving query asked for a later time."
  },
  {
   "property": "C07",
   "status": "proved",
   "theorems": [
    "Verif.ScanPath.C07_on_segment",
    "Verif.ScanPath.C07_first_record",
    "Verif.ScanPath.C07_end_point",
    "Verif.ScanPath.C07_continuous",
    "Verif.ScanPath.C07_zero_first_record_is_nan"
   ],
   "note": "For t <= 0 with a first record ending at time 0 the position is NaN (outside the claimed range)."
  },
  {
   "property": "C08",
   "status": "proved",
   "theorems": [
    "Verif.ScanPath.C08_off_after_end",
    "Verif.ScanPath.C08_no_out_of_bounds",
    "Verif.ScanPath.C08_empty_path"
   ],
   "note": "Histories include growing re-reads; an empty path is read outside its list (C08_empty_path)."
  },
  {
   "property": "C09",
   "status": "partial",
   "theorems": [
    "Verif.ScanPath.C09_slerp_unit_partial",
    "Verif.ScanPath.C09_slerp_end_partial",
    "Verif.ScanPath.C09_slerp_start_partial",
    "Verif.ScanPath.C09_slerp_short_path_partial",
    "Verif.ScanPath.C09_opposite_sign_refuted",
    "Verif.ScanPath.C09_orientation_unit_partial",
    "Verif.ScanPath.C09_orientation_at_record_partial"
   ],
   "note": "False when consecutive records are opposite quaternions of the same rotation (C09_opposite_sign_refuted)."
  },
  {
   "property": "C10",
   "status": "proved",
   "theorems": [
    "Verif.ScanPath.C10_answers_follow_current_list",
    "Verif.ScanPath.C10_growing_keeps_answers",
    "Verif.ScanPath.C10_shrinking_reads_outside"
   ],
   "note": "Answers after re-reads proved for saved times not after the query; a shrinking file reads outside the list."
  },
  {
   "property": "C11",
   "status": "proved",
   "theorems": [
    "Verif.Deposition.C11_accepted_iff",
    "Verif.Deposition.C11_read"
   ],
   "note": "Tokenised lines."
  },
  {
   "property": "C12",
   "status": "partial",
   "theorems": [
    "Verif.Deposition.C12_terminates_iff_partial",
    "Verif.Deposition.C12_vertical_refuted",
    "Verif.Deposition.C12_five_axis_refuted",
    "Verif.Deposition.C12_terminates_2d",
    "Verif.Deposition.C12_rotation_2d"
   ],
   "note": "Exact characterisation for unrotated paths in three dimensions (ends iff no powered vertical segment); in two dimensions every unrotated path ends (C12_terminates_2d) and rotated ones are refused (C12_rotation_2d). Never ends for vertical powered segments and for five-axis paths whose build-frame move is shorter than the machine-frame segment; C119_terminates_partial covers the other five-axis paths."
  },
  {
   "property": "C13",
   "status": "partial",
   "theorems": [
    "Verif.Deposition.C13_blocks",
    "Verif.Deposition.C13_rows_partial",
    "Verif.Deposition.C13_zero_duration_refuted"
   ],
   "note": "Block structure and minimum time for every path; row formula and monotone times for unrotated paths with positive segment durations. Powered spot with zero duration gets a NaN time."
  },
  {
   "property": "C14",
   "status": "proved",
   "theorems": [
    "Verif.Deposition.C14_cover",
    "Verif.Deposition.C14_beads",
    "Verif.Deposition.C14_sloped_not_covered",
    "Verif.Deposition.C14_beads_2d",
    "Verif.Deposition.C14_cover_2d"
   ],
   "note": "Planar, unrotated powered segments in 3d; horizontal ones in 2d (C14_cover_2d), every bead of every unrotated 2d path with its time (C14_beads_2d); deposition length at least 2e-10. C14_sloped_not_covered shows that sloped segments are not followed."
  },
  {
   "property": "C15",
   "status": "proved",
   "theorems": [
    "Verif.Deposition.C15_merge_rows",
    "Verif.Deposition.C15_merge_sorted"
   ],
   "note": "For every permutation std::sort may return."
  },
  {
   "property": "C16",
   "status": "proved",
   "theorems": [
    "Verif.Deposition.C16_elements_to_activate",
    "Verif.Deposition.C16_no_repetition"
   ],
   "note": "ArborX query modelled by its contract."
  },
  {
   "property": "C17",
   "status": "partial",
   "theorems": [
    "Verif.Driver.C17_reaches_duration_partial",
    "Verif.Driver.C17_mechanics_only_refuted"
   ],
   "note": "Thermal runs: proved from every start state. Without thermal physics time is never advanced and the loop never ends (C17_mechanics_only_refuted)."
  },
  {
   "property": "C18",
   "status": "partial",
   "theorems": [
    "Verif.Driver.C18_ends_after_updates_refuted",
    "Verif.Driver.C18_finished_at_start_partial",
    "Verif.Driver.C18_rereads"
   ],
   "note": "Only paths finished at start-up end the run; otherwise the loop never ends because the in-loop block cannot set the duration (C18_ends_after_updates_refuted, for all file histories). C18_rereads: at every step of every history, finished paths are left alone and unfinished paths that have come to their end are read again exactly once before the step."
  },
  {
   "property": "C19",
   "status": "partial",
   "theorems": [
    "Verif.Driver.C19_every_box_activated_partial",
    "Verif.Driver.C19_every_box_activated_refuted",
    "Verif.Driver.C19_exact",
    "Verif.Driver.C19_safe_windows_partial",
    "Verif.Driver.C19_unsafe_windows_refuted"
   ],
   "note": "C19_exact: exactly which steps activate an event, for every deposition_time. Safe exactly if the window max(deposition_time, time_step) ends within a millionth of a step of a multiple of the time step (C19_safe_windows_partial, C19_unsafe_windows_refuted); counterexample deposition_time 2.5, time step 1."
  },
  {
   "property": "C20",
   "status": "proved",
   "theorems": [
    "Verif.Driver.C20_refined_ahead"
   ],
   "note": "Runs from the beginning with a positive refinement period; fixed duration."
  },
  {
   "property": "C21",
   "status": "proved",
   "theorems": [
    "Verif.Refinement.C21_cells_to_refine",
    "Verif.Refinement.C21_refine_mesh",
    "Verif.Refinement.C21_no_coarsening",
    "Verif.Refinement.C21_coarsened_away_from_beam",
    "Verif.Refinement.C21_cells_fill"
   ],
   "note": "Forest of axis-parallel octrees of any dimension; deal.II/p4est flag execution is the contract Adapts, which leaves all balancing and coarsening choices open."
  },
  {
   "property": "C22",
   "status": "proved",
   "theorems": [
    "Verif.Refinement.C22_refine_and_transfer"
   ],
   "note": "Cell data transfer by the contract Transferred: refined children copy the parent, a coarsened parent copies the child deal.II's strategy picks."
  },
  {
   "property": "C23",
   "status": "partial",
   "theorems": [
    "Verif.Driver.C23_restart_same_steps_partial",
    "Verif.Driver.C23_restart_same_activation_partial",
    "Verif.Driver.C23_restart_activation_refuted",
    "Verif.Driver.C23_files_found_iff",
    "Verif.Driver.C23_output_dir_refuted",
    "Verif.Driver.C23_checkpoint_names_distinct"
   ],
   "note": "Steps, times, refinement, outputs: equal. Activation ranges equal if deposition_time <= time_step, else refuted. With an output directory no restart prefix finds both files (refuted)."
  },
  {
   "property": "C24",
   "status": "partial",
   "theorems": [
    "Verif.Ensemble.C24_own_checkpoint_partial",
    "Verif.Ensemble.C24_own_checkpoint_refuted",
    "Verif.Ensemble.C24_affected_groups_exist"
   ],
   "note": "Refuted for every group whose first member is not member 0; such groups exist in all runs with several ranks and members."
  },
  {
   "property": "C25",
   "status": "proved",
   "theorems": [
    "Verif.Ensemble.C25_rejected_iff",
    "Verif.Ensemble.C25_partition",
    "Verif.Ensemble.C25_equal_groups",
    "Verif.Ensemble.C25_first_local_member"
   ],
   "note": "Comparison of the double n/e is that of the rational."
  },
  {
   "property": "C26",
   "status": "partial",
   "theorems": [
    "Verif.Driver.Frames.C26_right_step_partial",
    "Verif.Driver.Frames.C26_each_frame_once_partial",
    "Verif.Driver.Frames.C26_first_frame_refuted",
    "Verif.Driver.Frames.C26_first_frame_out_of_bounds_refuted",
    "Verif.Driver.Frames.C26_last_step_drops_refuted"
   ],
   "note": "Proved for first_frame = 0, no restart, at most one stamp in the last step; refuted for first_frame > 0 (never assimilated / out of bounds) and for two frames in the last step."
  },
  {
   "property": "C27",
   "status": "partial",
   "theorems": [
    "C27_nonneg",
    "C27_zero_deviation",
    "C27_negative_mean_refuted",
    "C27_partition_independent_partial",
    "C27_rejection_refuted",
    "C27_member_value_partial"
   ],
   "note": "False as soon as a draw is rejected (for every generator stream with a negative first number); proved when no draw is negative. A negative mean with zero deviation never returns."
  },
  {
   "property": "C28",
   "status": "proved",
   "theorems": [
    "C28_databases"
   ],
   "note": "Leaves of the ensemble section must be distinct *_stddev keys."
  },
  {
   "property": "C29",
   "status": "partial",
   "theorems": [
    "C29_diameter_partial",
    "C29_depth_partial",
    "C29_depth_refuted"
   ],
   "note": "Depth is read from the key diameter: the bounding source is shallower than a member whose beam is deeper than wide."
  },
  {
   "property": "C30",
   "status": "partial",
   "theorems": [
    "Verif.Material.C30_C31_aux",
    "Verif.Material.C30_update",
    "Verif.Material.C30_update_defined",
    "Verif.Material.C30_defined",
    "Verif.Material.C30_device",
    "Verif.Material.C30_own_states",
    "Verif.Material.C30_host_partial",
    "Verif.Material.C30_host_powder_refuted"
   ],
   "note": "Proved for MaterialProperty::update and the device code; the host SIMD loop resets the powder ratio of all lanes in every iteration, so it fails for powder in batches of two or more lanes."
  },
  {
   "property": "C31",
   "status": "partial",
   "theorems": [
    "Verif.Material.C31_update",
    "Verif.Material.C31_cell_powder_decreases",
    "Verif.Material.C31_device_molten_cell",
    "Verif.Material.C31_point_refuted",
    "Verif.Material.C31_host_powder_refuted"
   ],
   "note": "Cell powder never increases (host, device, update); a molten point gets powder back when ratios are averaged at mesh adaptation, and in non-last SIMD lanes on the host."
  },
  {
   "property": "C32",
   "status": "partial",
   "theorems": [
    "Verif.Material.C32_mushy_law_partial",
    "Verif.Material.C32_pure_material_refuted",
    "Verif.Material.C32_pure_material_partial"
   ],
   "note": "At solidus = liquidus the fraction at the melting temperature is 0/0."
  },
  {
   "property": "C33",
   "status": "partial",
   "theorems": [
    "Verif.Material.C33_interpolates_partial",
    "Verif.Material.C33_accepts",
    "Verif.Material.C33_full_table_refuted"
   ],
   "note": "Last interval of a full 12-row table returns the last value."
  },
  {
   "property": "C34",
   "status": "proved",
   "theorems": [
    "Verif.Material.C34_polynomial",
    "Verif.Material.C34_accepts"
   ],
   "note": ""
  },
  {
   "property": "C35",
   "status": "partial",
   "theorems": [
    "Verif.Material.C35_device",
    "Verif.Material.C35_update",
    "Verif.Material.C35_host_partial",
    "Verif.Material.C35_host_powder_refuted"
   ],
   "note": "Host operator tests liquid*solid > 0, which misses melting powder."
  },
  {
   "property": "C36",
   "status": "proved",
   "theorems": [
    "Verif.Material.C36_stefan_boltzmann",
    "Verif.Material.C36_boundary_value"
   ],
   "note": ""
  },
  {
   "property": "C37",
   "status": "proved",
   "theorems": [
    "Verif.Material.C37_weighted_mean"
   ],
   "note": ""
  },
  {
   "property": "C38",
   "status": "partial",
   "theorems": [
    "Verif.Material.C38_lanes_partial",
    "Verif.Material.C38_device",
    "Verif.Material.C38_powder_refuted"
   ],
   "note": "Phase fractions only; heat source lanes are in C65."
  },
  {
   "property": "C39",
   "status": "proved",
   "theorems": [
    "Verif.Material.C39_conductivity"
   ],
   "note": ""
  },
  {
   "property": "C40",
   "status": "proved",
   "theorems": [
    "Verif.Thermal.C40_forward_euler",
    "Verif.Thermal.C40_time",
    "Verif.Thermal.C40_rk3",
    "Verif.Thermal.C40_rk4",
    "Verif.Thermal.C40_unknown_method",
    "Verif.Thermal.C40_named_method"
   ],
   "note": "deal.II Runge-Kutta tableaus are part of the trusted base"
  },
  {
   "property": "C41",
   "status": "partial",
   "theorems": [
    "Verif.Thermal.C41_add_material_partial",
    "Verif.Thermal.C41_serial",
    "Verif.Thermal.C41_melted_refuted",
    "Verif.Thermal.C41_parallel_temperature_refuted"
   ],
   "note": "refuted twice: newly activated cells are marked as melted (indicator still infinity), and in parallel a node of an old cell whose owner rank has only new cells gets the new-material temperature; proved: everything else, serial temperatures fully"
  },
  {
   "property": "C42",
   "status": "partial",
   "theorems": [
    "Verif.Thermal.MeltHistory.C42_adapting_partial",
    "Verif.Thermal.MeltHistory.C42_marks_persist_partial",
    "Verif.Thermal.MeltHistory.C42_every_adaptation",
    "Verif.Thermal.MeltHistory.C42_coarsening_refuted",
    "Verif.Thermal.C42_average",
    "Verif.Thermal.C42_history",
    "Verif.Thermal.C42_new_cells_refuted",
    "Verif.Thermal.C42_all_histories_partial"
   ],
   "note": "exact between mesh changes; refuted for cells created by adding material (marked at creation); partial theorems characterise exactly all histories of marking and adding material, and on an adapting mesh all histories of marking, adding and refining (C42_adapting_partial); refuted with coarsening (the parent takes the mark of its first child)."
  },
  {
   "property": "C43",
   "status": "partial",
   "theorems": [
    "Verif.Thermal.C43_round_trip_partial",
    "Verif.Thermal.C43_stale_state_refuted"
   ],
   "note": "stored fields round-trip on any partition; refuted: run() writes checkpoints with stale state ratios (no set_state_to_material_properties before save_checkpoint)"
  },
  {
   "property": "C44",
   "status": "partial",
   "theorems": [
    "Verif.Mechanics.C44_elastic",
    "Verif.Mechanics.C44_refuted",
    "Verif.Mechanics.C44_plastic_partial",
    "Verif.Mechanics.C44_defined"
   ],
   "note": "Elastic branch and definedness proved; plastic branch proved for isotropic/no hardening. Refuted with kinematic hardening: back stress moved by plastic_modulus^2 instead of plastic_modulus*increment."
  },
  {
   "property": "C45",
   "status": "proved",
   "theorems": [
    "Verif.Mechanics.C45_update",
    "Verif.Mechanics.C45_history",
    "Verif.Mechanics.C45_history_defined"
   ],
   "note": "Proved for one update and every loading history."
  },
  {
   "property": "C46",
   "status": "partial",
   "theorems": [
    "Verif.Mechanics.C46_refuted",
    "Verif.Mechanics.C46_value_partial",
    "Verif.Mechanics.C46_cell_partial",
    "Verif.Mechanics.C46_zero_partial"
   ],
   "note": "Refuted: shear terms [1][2] and [2][1] are both used, [0][2] never; exact condition for agreement proved."
  },
  {
   "property": "C47",
   "status": "proved",
   "theorems": [
    "Verif.Mechanics.C47_symmetric",
    "Verif.Mechanics.C47_energy",
    "Verif.Mechanics.C47_nonneg",
    "Verif.Mechanics.C47_kernel",
    "Verif.Mechanics.C47_translation"
   ],
   "note": "Symmetry, energy identity, PSD, kernel, translations."
  },
  {
   "property": "C48",
   "status": "proved",
   "theorems": [
    "Verif.Mechanics.C48_reference",
    "Verif.Mechanics.C48_needs_thermal"
   ],
   "note": "Proved for cells with temperature; C49_setup shows no mechanical cell lacks temperature."
  },
  {
   "property": "C49",
   "status": "proved",
   "theorems": [
    "Verif.Mechanics.C49_round_trip",
    "Verif.Mechanics.C49_setup"
   ],
   "note": "Pack/unpack round trip by address arithmetic, setup_dofs case analysis."
  },
  {
   "property": "C50",
   "status": "proved",
   "theorems": [
    "Verif.DataAssim.C50_gaspari_cohn_antitone",
    "Verif.DataAssim.C50_gaspari_cohn_continuous",
    "Verif.DataAssim.C50_gaspari_cohn_values",
    "Verif.DataAssim.C50_taper"
   ],
   "note": "Gaspari-Cohn: values, antitone and continuous by calculus; scaling applied to covariance entries."
  },
  {
   "property": "C51",
   "status": "proved",
   "theorems": [
    "Verif.DataAssim.C51_unbiased",
    "Verif.DataAssim.C51_symmetric",
    "Verif.DataAssim.C51_nonneg",
    "Verif.DataAssim.C51_identical_and_shift"
   ],
   "note": "Unbiased covariance characterised by pairwise differences."
  },
  {
   "property": "C52",
   "status": "proved",
   "theorems": [
    "Verif.DataAssim.C52_observation",
    "Verif.DataAssim.C52_matrix",
    "Verif.DataAssim.C52_needs_nodup",
    "Verif.DataAssim.C52_mapping"
   ],
   "note": "Observation matrix = calc_Hx; mapping from nearest-point query."
  },
  {
   "property": "C53",
   "status": "proved",
   "theorems": [
    "Verif.DataAssim.C53_gain",
    "Verif.DataAssim.C53_length",
    "Verif.DataAssim.C53_zero_innovation",
    "Verif.DataAssim.C53_uncorrelated",
    "Verif.DataAssim.C53_mean"
   ],
   "note": "Gain formula with matrix inverse, zero innovation, uncorrelated entries, mean, length check; the GMRES solver is a contract."
  },
  {
   "property": "C54",
   "status": "partial",
   "theorems": [
    "Verif.DataAssim.C54_block0_partial",
    "Verif.DataAssim.C54_padding_partial",
    "Verif.DataAssim.C54_round_trip_partial",
    "Verif.DataAssim.C54_update_partial",
    "Verif.DataAssim.C54_params_serial_partial",
    "Verif.DataAssim.C54_params_refuted",
    "Verif.DataAssim.C54_sizes_needed"
   ],
   "note": "Block 0 and global round trip proved; refuted for parameters when a member runs on two ranks (non-root copies become 0, and the zeros are gathered at the next assimilation)."
  },
  {
   "property": "C55",
   "status": "partial",
   "theorems": [
    "Verif.ExpData.C55_text_lines_partial",
    "Verif.ExpData.C55_text_partial",
    "Verif.ExpData.C55_empty_line_refuted",
    "Verif.ExpData.C55_requested_frames_partial",
    "Verif.ExpData.C55_complete_log_partial",
    "Verif.ExpData.C55_gap_accepted_refuted",
    "Verif.ExpData.C55_no_order_check_refuted",
    "Verif.ExpData.C55_missing_time_shifts_refuted",
    "Verif.ExpData.C55_extra_column_refuted"
   ],
   "note": "Holds for every readable log as far as which stamps are returned (C55_requested_frames_partial, C55_complete_log_partial), and from the characters of the file for a complete log (C55_text_partial). Refuted: a log with a gap is accepted because the compared variable is re-initialised for each line; a camera without a time for one frame shifts the later ones; an extra column writes out of bounds; an empty line ends the program."
  },
  {
   "property": "C56",
   "status": "proved",
   "theorems": [
    "Verif.DataAssim.C56_set"
   ],
   "note": "Exactly the mapped entries change, last observation wins."
  },
  {
   "property": "C57",
   "status": "partial",
   "theorems": [
    "Verif.ExpData.Ray.C57_nearest_partial",
    "Verif.ExpData.Ray.C57_boxes_partial",
    "Verif.ExpData.Ray.C57_points_values",
    "Verif.ExpData.Ray.C57_one_rank",
    "Verif.ExpData.Ray.C57_other_rank_refuted",
    "Verif.ExpData.Ray.C57_eight_boxes_refuted",
    "Verif.ExpData.Ray.C57_short_direction_refuted"
   ],
   "note": "Nearest among the examined, non-parallel flat faces is proved; for axis-aligned cells the reported point is the first point of the ray in any examined cell. Refuted in general: rays are lost behind the first rank's box, behind eight boxes, and for very short direction vectors. Search structure (ArborX) is a parameter."
  },
  {
   "property": "C58",
   "status": "partial",
   "theorems": [
    "Verif.Input.C58_explicit_partial",
    "Verif.Input.C58_default_partial",
    "Verif.Input.C58_unspecified",
    "Verif.Input.C58_printed_surface",
    "Verif.Input.C58_off_mesh",
    "Verif.Input.C58_ids",
    "Verif.Input.C58_ids_contiguous_partial",
    "Verif.Input.C58_wrong_id",
    "Verif.Input.C58_no_number",
    "Verif.Input.C58_last_boundary_refuted",
    "Verif.Input.C58_gap_refuted"
   ],
   "note": "Explicit, default and missing conditions proved for every mesh boundary unless a printed surface is given and the boundary is the largest id; that case is refuted (the printed surface overwrites the last boundary). Lists of ids proved; on meshes with gaps in the ids they contain ids that are not on the mesh (refuted). Wrong ids rejected (proved)."
  },
  {
   "property": "C59",
   "status": "partial",
   "theorems": [
    "Verif.Input.C59_interpretation",
    "Verif.Input.C59_meaning",
    "Verif.Input.C59_acceptance_partial",
    "Verif.Input.C59_agreement",
    "Verif.Input.C59_order_refuted"
   ],
   "note": "Interpretation proved independent of order and repetition. Acceptance by the validator proved to depend only on the set of names unless adiabatic is mixed with radiative/convective, where it depends on the order (refuted)."
  },
  {
   "property": "C60",
   "status": "partial",
   "theorems": [
    "Verif.Input.C60_runs_iff_partial",
    "Verif.Input.C60_usable_partial",
    "Verif.Input.C60_refuted",
    "Verif.Input.C60_general_refuted"
   ],
   "note": "Exact: an accepted input with thermal physics is run iff it satisfies Usable (one material with at most five coefficients, documented spelling, complete checkpoint section, positive counts, ...); the property for every accepted input is refuted with six accepted inputs. Existence of files, MaterialProperty's own checks and mechanics-only inputs are not in the model."
  },
  {
   "property": "C61",
   "status": "proved",
   "theorems": [
    "Verif.Input.C61_no_physics",
    "Verif.Input.C61_dim",
    "Verif.Input.C61_degree",
    "Verif.Input.C61_absorption",
    "Verif.Input.C61_frames",
    "Verif.Input.C61_clamped"
   ],
   "note": "All listed ranges proved to be enforced."
  },
  {
   "property": "C62",
   "status": "partial",
   "theorems": [
    "Verif.Input.C62_scaling_partial",
    "Verif.Input.C62_accepted_partial",
    "Verif.Input.C62_refuted",
    "Verif.Input.C62_case_refuted"
   ],
   "note": "Proved for lower-case units other than centimeter/second; refuted for centimeter/second (typo in the table) and for other letter cases."
  },
  {
   "property": "C63",
   "status": "partial",
   "theorems": [
    "Verif.Input.C63_stl_partial",
    "Verif.Input.C63_inside",
    "Verif.Input.C63_short_file_refuted"
   ],
   "note": "Proved for files of at least 84 bytes and, for all files, that no facet outside the file is used; refuted for shorter files (uninitialised count)."
  },
  {
   "property": "C64",
   "status": "partial",
   "theorems": [
    "Verif.Input.C64_powder",
    "Verif.Input.C64_no_powder",
    "Verif.Input.C64_one_state_partial",
    "Verif.Input.C64_two_states_refuted",
    "Verif.Input.C64_default_height"
   ],
   "note": "Proved for three-state materials and without powder; with a powder layer and a material without powder state the table is written out of bounds (refuted)."
  },
  {
   "property": "C65",
   "status": "partial",
   "theorems": [
    "Verif.HeatSource.C65_cube",
    "Verif.HeatSource.C65_formula_total_power",
    "Verif.HeatSource.C65_total_power_at_most",
    "Verif.HeatSource.C65_nonneg_3d",
    "Verif.HeatSource.C65_nonneg_2d",
    "Verif.HeatSource.C65_nonneg_vector",
    "Verif.HeatSource.C65_zero_when_off",
    "Verif.HeatSource.C65_zero_below_depth",
    "Verif.HeatSource.C65_formula",
    "Verif.HeatSource.C65_formula_2d",
    "Verif.HeatSource.C65_formula_input",
    "Verif.HeatSource.C65_proportional",
    "Verif.HeatSource.C65_zero_after_end",
    "Verif.HeatSource.C65_off_refuted",
    "Verif.HeatSource.C65_electron_beam_negative_above"
   ],
   "note": "Proved for Goldak and electron beam (scalar 2D/3D, vectorised 3D) and cube; total power equals absorbed power for the formula and is never exceeded by the truncated code. Refuted at the instant where a zero-duration first record makes the position 0/0 (value NaN while off)."
  },
  {
   "property": "C66",
   "status": "partial",
   "theorems": [
    "Verif.HeatSource.C66_box_extent",
    "Verif.HeatSource.C66_box_extent_2d",
    "Verif.HeatSource.C66_box_contains_partial",
    "Verif.HeatSource.C66_five_axis_identity_partial",
    "Verif.HeatSource.C66_box_contains_2d_partial",
    "Verif.HeatSource.C66_small_scaling_refuted",
    "Verif.HeatSource.C66_five_axis_refuted",
    "Verif.HeatSource.C66_cube_box"
   ],
   "note": "Box contains the scalar heated region for scaling >= sqrt 5 and unrotated frames (2D, 3D) and for the cube. Refuted for scaling in [1, sqrt 5) (refinement uses 2) and for rotated five-axis frames (box rotated forward, heat region is the inverse rotation)."
  },
  {
   "property": "C67",
   "status": "proved",
   "theorems": [
    "Verif.HeatSource.C67_scalar",
    "Verif.HeatSource.C67_vector"
   ],
   "note": "Full, every dimension and lane count."
  },
  {
   "property": "C68",
   "status": "partial",
   "theorems": [
    "Verif.Output.Micro.C68_records_partial",
    "Verif.Output.Micro.C68_cooling_rate_iff_partial",
    "Verif.Output.Micro.C68_cooling_rate_refuted"
   ],
   "note": "Points, gradient and R proved exact for every mesh of Lagrange cells (points shared by cells once per cell). Refuted for the rate: code computes old - new/dt, right only for dt = 1 (or old = 0), negative for small dt."
  },
  {
   "property": "C69",
   "status": "proved",
   "theorems": [
    "Verif.Output.MicroFiles.C69_merged_in_rank_order",
    "Verif.Output.MicroFiles.C69_previous_content_dropped"
   ],
   "note": "Any interleaving of the ranks' events, any number of ranks."
  },
  {
   "property": "C70",
   "status": "proved",
   "theorems": [
    "Verif.Refinement.Quad.C70_refine_takes_nearest",
    "Verif.Refinement.Quad.C70_coarsen_takes_nearest",
    "Verif.Refinement.Quad.C70_constant_preserved",
    "Verif.Refinement.Quad.C70_no_new_values",
    "Verif.Refinement.Quad.C70_refine_then_coarsen"
   ],
   "note": "Real positions; numeric_limits<double>::max is assumed to exceed all squared distances. The class ClosestQuadPointAdaptation is used by the project's tests only; the application transfers with the default strategies (C136)."
  },
  {
   "property": "C71",
   "status": "partial",
   "theorems": [
    "Verif.Output.C71_record_complete_and_ordered",
    "Verif.Output.C71_names_distinct",
    "Verif.Output.C71_names_distinct_single",
    "Verif.Output.C71_experimental_names_distinct",
    "Verif.Output.C71_pvtu_refers_to_rank_files_partial",
    "Verif.Output.C71_pvtu_refuted",
    "Verif.Output.C71_pvd_refers_to_pvtu_partial",
    "Verif.Output.C71_pvd_relative_dir_refuted",
    "Verif.Output.C71_in_output_dir_partial",
    "Verif.Output.C71_output_dir_ignored_refuted",
    "Verif.Output.C71_restart_refuted",
    "Verif.Output.C71_file_names"
   ],
   "note": "Names and records over all runs of the modelled driver loop (new and restarted), all ranks and members. Refuted: two-physics and experimental-data post-processors ignore output_dir, relative output_dir doubled inside the pvd, restart overwrites the pvd record."
  },
  {
   "property": "C72",
   "status": "partial",
   "theorems": [
    "Verif.Output.Timing.C72_sum_of_intervals",
    "Verif.Output.Timing.C72_reset",
    "Verif.Output.Timing.C72_every_history",
    "Verif.Output.Timing.C72_misuse_refuted",
    "Verif.Output.Timing.C72_run_timers_partial",
    "Verif.Output.Timing.C72_covariance_timer_refuted",
    "Verif.Output.Timing.C72_labels",
    "Verif.Output.Timing.C72_label_text"
   ],
   "note": "All call sequences, and all traces of start/stop calls of a run. Refuted: covariance-sparsity timer started twice, never stopped."
  },
  {
   "property": "C73",
   "status": "partial",
   "theorems": [
    "Verif.Mechanics.C73_refuted",
    "Verif.Mechanics.C73_partial",
    "Verif.Mechanics.C73_unused",
    "Verif.Mechanics.C73_no_new_cells_partial"
   ],
   "note": "Refuted: zeros of newly solid cells overwrite shared nodes depending on cell order; exact characterisation proved."
  },
  {
   "property": "C74",
   "status": "partial",
   "theorems": [
    "Verif.Mechanics.C74_refuted",
    "Verif.Mechanics.C74_sequential_partial"
   ],
   "note": "Refuted: the dof index buffer is shared between mesh_loop workers; sequential execution proved correct."
  },
  {
   "property": "C75",
   "status": "partial",
   "theorems": [
    "Verif.Mechanics.C75_free_expansion",
    "Verif.Mechanics.C75_stress_refuted",
    "Verif.Mechanics.C75_two_dim"
   ],
   "note": "Load proved in 3D; reported stress refuted (thermal strain is not subtracted)."
  },
  {
   "property": "C76",
   "status": "partial",
   "theorems": [
    "Verif.Mechanics.C76_refuted",
    "Verif.Mechanics.C76_partial"
   ],
   "note": "Refuted for melting between two mechanical steps; partial when a mechanical step sees the melt."
  },
  {
   "property": "C77",
   "status": "partial",
   "theorems": [
    "Verif.Mechanics.C77_output_current_partial",
    "Verif.Mechanics.C77_output_all_partial",
    "Verif.Mechanics.C77_returned_refuted",
    "Verif.Mechanics.C77_returned_partial"
   ],
   "note": "All outputs current; the returned displacement can be stale."
  },
  {
   "property": "C78",
   "status": "partial",
   "theorems": [
    "Verif.DataAssim.C78_symmetric_partial",
    "Verif.DataAssim.C78_variance_partial",
    "Verif.DataAssim.C78_none_partial",
    "Verif.DataAssim.C78_none_with_cutoff_refuted",
    "Verif.DataAssim.C78_step_refuted",
    "Verif.DataAssim.C78_parameter_refuted"
   ],
   "note": "Symmetry and variances proved; PSD refuted for the step function and for parameters with any localisation; 'none' with a cutoff distance localises."
  },
  {
   "property": "C79",
   "status": "partial",
   "theorems": [
    "Verif.DataAssim.C79_closer_partial",
    "Verif.DataAssim.C79_applies_partial",
    "Verif.DataAssim.C79_step_refuted"
   ],
   "note": "Proved for PSD covariance and R=rI; refuted with the step function."
  },
  {
   "property": "C80",
   "status": "partial",
   "theorems": [
    "Verif.DataAssim.C80_distance_partial",
    "Verif.DataAssim.C80_order_matters_refuted",
    "Verif.DataAssim.C80_support_points",
    "Verif.DataAssim.C80_support_order",
    "Verif.DataAssim.C80_assembled_partial",
    "Verif.DataAssim.C80_assembled_order_refuted"
   ],
   "note": "C80_support_points, C80_support_order: get_dof_to_support_mapping; C80_assembled_partial: after any history, on any number of ranks, the assembled matrix is the localised covariance of the current mesh and the distance map is never read where it has no entry, if the support points come in the order of the owned dofs and the sphere search meets its contract. Missing: the order (nth_index_in_set is used instead of dof_indices); C80_order_matters_refuted, C80_assembled_order_refuted."
  },
  {
   "property": "C81",
   "status": "partial",
   "theorems": [
    "Verif.DataAssim.C81_regular_partial",
    "Verif.DataAssim.C81_default_refuted"
   ],
   "note": "Proved for positive uncertainty and PSD covariance; refuted for the default uncertainty 0 with two observations at one dof."
  },
  {
   "property": "C82",
   "status": "proved",
   "theorems": [
    "Verif.ExpData.C82_ray_row",
    "Verif.ExpData.C82_point_row",
    "Verif.ExpData.C82_frame",
    "Verif.ExpData.C82_empty_field_shifts"
   ],
   "note": "Character-level model of the row parser; strtod is a parameter that does not read past a comma. Empty fields shift the columns (C82_empty_field_shifts)."
  },
  {
   "property": "C83",
   "status": "partial",
   "theorems": [
    "Verif.Input.C83_deposition_file_refuted",
    "Verif.Input.C83_file_needs_dotted_key_partial",
    "Verif.Input.C83_scan_paths"
   ],
   "note": "Deposition along scan paths proved; deposition from a file is always rejected unless a dotted key is put at the top level (refuted)."
  },
  {
   "property": "C84",
   "status": "partial",
   "theorems": [
    "Verif.Input.C84_time_step_partial",
    "Verif.Input.C84_refuted"
   ],
   "note": "Only non-negativity of the step is enforced; zero step and negative duration are accepted (refuted)."
  },
  {
   "property": "C85",
   "status": "partial",
   "theorems": [
    "Verif.Input.C85_exception_partial",
    "Verif.Input.C85_success",
    "Verif.Input.C85_refuted"
   ],
   "note": "Failing set-up gives a non-zero status (proved); rejected inputs and inputs for which nothing is run return zero (refuted)."
  },
  {
   "property": "C86",
   "status": "partial",
   "theorems": [
    "Verif.Input.C86_stl_extents",
    "Verif.Input.C86_box_extents",
    "Verif.Input.C86_empty_shape_refuted"
   ],
   "note": "Proved for non-empty shapes and boxes; an empty shape gives an inverted box (refuted)."
  },
  {
   "property": "C87",
   "status": "partial",
   "theorems": [
    "Verif.HeatSource.C87_vector_eq_scalar_partial",
    "Verif.HeatSource.C87_difference_beyond_cutoff_partial",
    "Verif.HeatSource.C87_vector_eq_scalar_2d_partial",
    "Verif.HeatSource.C87_vector_eq_scalar_refuted"
   ],
   "note": "Holds if no lane or every lane is beyond sqrt 5 radii; refuted otherwise (xpy_mask only used for the early return)."
  },
  {
   "property": "C88",
   "status": "partial",
   "theorems": [
    "Verif.ScanPath.C88_power_on_record",
    "Verif.ScanPath.C88_power_bounds",
    "Verif.ScanPath.C88_no_rotation",
    "Verif.ScanPath.C88_rotate_until_end_partial",
    "Verif.ScanPath.C88_rotate_after_end_refuted"
   ],
   "note": "Power exactly per record; rotation agrees with the reported orientation until the end. Refuted: after the end of a five-axis path the orientation is the last recorded one, but rotate() leaves points unchanged."
  },
  {
   "property": "C89",
   "status": "partial",
   "theorems": [
    "Verif.Driver.C89_periods",
    "Verif.Driver.C89_final_state_partial",
    "Verif.Driver.C89_final_state_refuted"
   ],
   "note": "The schedule is proved; the final state is written only if the output period divides the number of steps (C89_final_state_refuted)."
  },
  {
   "property": "C90",
   "status": "partial",
   "theorems": [
    "Verif.Driver.EnsembleDA.C90_written_partial",
    "Verif.Driver.EnsembleDA.C90_only_near_frames",
    "Verif.Driver.EnsembleDA.C90_exact_window_refuted"
   ],
   "note": "Proved for first_frame = 0 except when a step ends exactly one half window after a frame (C90_exact_window_refuted)."
  },
  {
   "property": "C91",
   "status": "partial",
   "theorems": [
    "Verif.Driver.EnsembleDA.C91_frames_partial",
    "Verif.Driver.EnsembleDA.C91_frames_refuted",
    "Verif.Driver.EnsembleDA.C91_parameters_partial",
    "Verif.Driver.EnsembleDA.C91_parameters_refuted"
   ],
   "note": "Proved when nothing was assimilated before the checkpoint; otherwise the reader is not advanced and the run stops with the exception or reads out of bounds, and learnt parameters are not stored in the checkpoint."
  },
  {
   "property": "C92",
   "status": "partial",
   "theorems": [
    "Verif.Input.C92_boundary_lines",
    "Verif.Input.C92_materials",
    "Verif.Input.C92_convective",
    "Verif.Input.C92_radiative",
    "Verif.Input.C92_mesh",
    "Verif.Input.C92_files",
    "Verif.Input.C92_mechanics_refuted"
   ],
   "note": "All inputs and parsers; refuted for the elastic constants of mechanical runs (never checked)."
  },
  {
   "property": "C93",
   "status": "proved",
   "theorems": [
    "Verif.Assembly.C93_weak_form",
    "Verif.Assembly.C93_order",
    "Verif.Assembly.C93_partition",
    "Verif.Assembly.C93_right_hand_side"
   ],
   "note": "Quadrature data and constraints of deal.II are parameters; proved for all meshes."
  },
  {
   "property": "C94",
   "status": "proved",
   "theorems": [
    "Verif.Assembly.C94_equilibrium",
    "Verif.Assembly.C94_dissipation"
   ],
   "note": "Proved for all three methods; dissipation is of the semi-discrete system."
  },
  {
   "property": "C95",
   "status": "partial",
   "theorems": [
    "Verif.Assembly.C95_mean_temperature",
    "Verif.Assembly.C95_energy_partial",
    "Verif.Assembly.C95_energy_refuted",
    "Verif.Assembly.C95_energy_methods_partial",
    "Verif.Assembly.C95_delivered_partial",
    "Verif.Assembly.C95_steady_partial"
   ],
   "note": "Integral of the temperature proved for all methods; energy balance for uniform heat capacity over histories mixing all three methods and any step sizes (stage-wise delivered minus lost power; Simpson mean of the source power for insulated bodies; exactly P times the elapsed time for steady sources); refuted for two materials."
  },
  {
   "property": "C96",
   "status": "partial",
   "theorems": [
    "Verif.Assembly.C96_shortcut_partial",
    "Verif.Assembly.C96_only_exposed",
    "Verif.Assembly.C96_mixed_refuted",
    "Verif.Assembly.C96_face_state_partial",
    "Verif.Assembly.C96_face_state_inner",
    "Verif.Assembly.C96_face_state_refuted"
   ],
   "note": "Refuted for boundaries that are both adiabatic and radiative, and for faces processed by the owner of the empty side."
  },
  {
   "property": "C97",
   "status": "partial",
   "theorems": [
    "Verif.Assembly.C97_field_partial",
    "Verif.Assembly.C97_stored_refuted"
   ],
   "note": "The field is independent of stored hanging values; the stored values grow by 1+dt per step."
  },
  {
   "property": "C98",
   "status": "partial",
   "theorems": [
    "Verif.Assembly.C98_printed_value",
    "Verif.Assembly.C98_printed_is_delivered_partial",
    "Verif.Assembly.C98_lobatto_refuted"
   ],
   "note": "Equal when the operator uses the printing quadrature and scalar and vectorised sources agree; refuted for Lobatto."
  },
  {
   "property": "C99",
   "status": "proved",
   "theorems": [
    "Verif.Assembly.C99_lumped_mass"
   ],
   "note": ""
  },
  {
   "property": "C100",
   "status": "proved",
   "theorems": [
    "Verif.Material.Fill.C100_table",
    "Verif.Material.Fill.C100_polynomial",
    "Verif.Material.Fill.C100_missing",
    "Verif.Material.Fill.C100_independent"
   ],
   "note": ""
  },
  {
   "property": "C101",
   "status": "partial",
   "theorems": [
    "Verif.Material.Fill.C101_first_value_partial",
    "Verif.Material.Fill.C101_missing",
    "Verif.Material.Fill.C101_solid_only",
    "Verif.Material.Fill.C101_density",
    "Verif.Material.Fill.C101_temperature_refuted"
   ],
   "note": "First value of the solid's table or polynomial is what is used, independence of other states proved; refuted for the temperature dependence."
  },
  {
   "property": "C102",
   "status": "partial",
   "theorems": [
    "Verif.Material.Fill.C102_accepts",
    "Verif.Material.Fill.C102_correct_accepted",
    "Verif.Material.Fill.C102_plain_number_refuted",
    "Verif.Material.Fill.C102_third_number_refuted",
    "Verif.Material.Fill.C102_table_as_polynomial_refuted",
    "Verif.Material.Fill.C102_order"
   ],
   "note": "Acceptance characterised exactly (iff), driver's polynomial order suffices; refuted: undefined behaviour on a plain number, silently accepted malformed texts."
  },
  {
   "property": "C103",
   "status": "partial",
   "theorems": [
    "Verif.Material.Fill.C103_given",
    "Verif.Material.Fill.C103_missing",
    "Verif.Material.Fill.C103_unreadable_refuted"
   ],
   "note": "Refuted for unreadable texts, which are silently taken as missing."
  },
  {
   "property": "C104",
   "status": "partial",
   "theorems": [
    "Verif.Material.Fill.C104_update",
    "Verif.Material.Fill.C104_between",
    "Verif.Material.Fill.C104_boundary",
    "Verif.Material.Fill.C104_boundary_refuted"
   ],
   "note": "Refuted: after the boundary-only update the first three properties of a cell are zero."
  },
  {
   "property": "C105",
   "status": "proved",
   "theorems": [
    "Verif.Material.CellState.C105_columns",
    "Verif.Material.CellState.C105_restore",
    "Verif.Material.CellState.C105_initial",
    "Verif.Material.CellState.C105_average"
   ],
   "note": "Proved for every list of locally owned cells with distinct degrees of freedom."
  },
  {
   "property": "C106",
   "status": "proved",
   "theorems": [
    "Verif.Material.CellState.C106_store",
    "Verif.Material.CellState.C106_round_trip",
    "Verif.Material.CellState.C106_store_device",
    "Verif.Material.CellState.C106_store_device_solid",
    "Verif.Material.CellState.C106_orientation",
    "Verif.Material.CellState.C106_orientation_void",
    "Verif.Material.CellState.C106_load_device"
   ],
   "note": "Proved for every arrangement of the cells into batches and every injective assignment of device positions."
  },
  {
   "property": "C107",
   "status": "partial",
   "theorems": [
    "Verif.Assembly.C107_rate_partial",
    "Verif.Assembly.C107_boundary_partial",
    "Verif.Assembly.C107_run_partial",
    "Verif.Assembly.C107_hanging_partial",
    "Verif.Assembly.C107_small_cells_refuted",
    "Verif.Assembly.C107_capacity_refuted"
   ],
   "note": "Proved for adiabatic boundaries, Gauss quadrature, heat capacity constant in each cell and lumped masses above 1e-15. Refuted: nodes with mass <= 1e-15 are frozen on the device; source scaled with the cell mean of 1/(rho cp). The latent heat of powder also differs (C35), and the lane handling of powder (C38)."
  },
  {
   "property": "C108",
   "status": "partial",
   "theorems": [
    "Verif.HeatSource.Learn.C108_run",
    "Verif.HeatSource.Learn.C108_constructed",
    "Verif.HeatSource.Learn.C108_initial_block",
    "Verif.HeatSource.Learn.C108_off",
    "Verif.HeatSource.Learn.C108_heat",
    "Verif.HeatSource.Learn.C108_no_beam_refuted",
    "Verif.HeatSource.Learn.C108_range_refuted",
    "Verif.HeatSource.Learn.C108_restart_refuted"
   ],
   "note": "Proved for every run. Refuted: range of the learnt values, restart, input without beams."
  },
  {
   "property": "C109",
   "status": "proved",
   "theorems": [
    "Verif.Thermal.Initial.C109_material",
    "Verif.Thermal.Initial.C109_arrays",
    "Verif.Thermal.Initial.C109_field",
    "Verif.Thermal.Initial.C109_height",
    "Verif.Thermal.Initial.C109_deposited_state"
   ],
   "note": "Proved for every mesh of a rank."
  },
  {
   "property": "C110",
   "status": "partial",
   "theorems": [
    "Verif.Thermal.Initial.C110_format",
    "Verif.Thermal.Initial.C110_import",
    "Verif.Thermal.Initial.C110_height_in_metres",
    "Verif.Thermal.Initial.C110_material_zero",
    "Verif.Thermal.Initial.C110_unknown_material_refuted"
   ],
   "note": "Proved but for the existence of a material for every id of the file, which is refuted."
  },
  {
   "property": "C111",
   "status": "proved",
   "theorems": [
    "Verif.Mechanics.C111_weight",
    "Verif.Mechanics.C111_superposition"
   ],
   "note": "The load is the sum over all unknowns of an axis; the partition of unity of the shape functions and the component of each unknown are hypotheses (true for FE_Q)."
  },
  {
   "property": "C112",
   "status": "partial",
   "theorems": [
    "Verif.Mechanics.C112_equilibrium",
    "Verif.Mechanics.C112_supports",
    "Verif.Mechanics.C112_matrix",
    "Verif.Mechanics.C112_unique",
    "Verif.Mechanics.C112_diagonal",
    "Verif.Mechanics.C112_small_mesh_refuted",
    "Verif.Mechanics.C112_solver_outcome"
   ],
   "note": "Exact arithmetic; the conjugate gradient method is taken to return a solution when it returns. Refuted part: iteration limit n_dofs/10."
  },
  {
   "property": "C113",
   "status": "partial",
   "theorems": [
    "Verif.Mechanics.C113_elastic",
    "Verif.Mechanics.C113_balance",
    "Verif.Mechanics.C113_decomposition",
    "Verif.Mechanics.C113_plastic_refuted",
    "Verif.Mechanics.C113_thermal_refuted"
   ],
   "note": "Fixed mesh and solid cells (melting and adding cells: C49, C73, C76). Proved: Hooke's law of the last displacement in the elastic regime, the decomposition for any plastic history, the balance; refuted: balance after yielding, and stress with thermal expansion."
  },
  {
   "property": "C114",
   "status": "partial",
   "theorems": [
    "Verif.Stl.C114_face_partial",
    "Verif.Stl.C114_convex_inside",
    "Verif.Stl.C114_convex",
    "Verif.Stl.C114_two_dim_refuted",
    "Verif.Stl.C114_acute_refuted"
   ],
   "note": "Proved for convex solids without acute edges (any tie-breaking), and for any solid when the nearest surface point is on no edge; cells inside a convex solid are always accepted. Refuted at acute edges and in 2D. ArborX is modelled by the contract of its two queries."
  },
  {
   "property": "C115",
   "status": "partial",
   "theorems": [
    "Verif.Assembly.C115_error_bound",
    "Verif.Assembly.C115_convergence",
    "Verif.Assembly.C115_first_order",
    "Verif.Assembly.C115_order_linear",
    "Verif.Assembly.C115_convergence_local",
    "Verif.Assembly.C115_mesh_partial",
    "Verif.Assembly.C115_order",
    "Verif.Assembly.C115_order_mesh"
   ],
   "note": "Convergence for any operator (C115_error_bound, _convergence, _first_order, _convergence_local) and for the assembled one with locally Lipschitz material data (C115_mesh_partial: missing the jump of the heat capacity at solidus/liquidus and changing states). C115_order: full order of accuracy (1, 3, 4) for every right-hand side with that many continuous derivatives near the exact solution; C115_order_mesh: the same for the assembled operator; C115_order_linear: without smallness of the step for constant data and a steady beam."
  },
  {
   "property": "C116",
   "status": "partial",
   "theorems": [
    "Verif.Assembly.C116_range_partial",
    "Verif.Assembly.C116_no_cooling_partial",
    "Verif.Assembly.C116_constant_data_partial",
    "Verif.Assembly.C116_unstable_refuted"
   ],
   "note": "C116_range_partial (forward Euler, any temperature dependence), C116_no_cooling_partial (with sources), C116_constant_data_partial (all methods, constant data) within the explicit time-step limit StepLimit; C116_unstable_refuted: the limit is not enforced."
  },
  {
   "property": "C117",
   "status": "partial",
   "theorems": [
    "Verif.DataAssim.C117_noise",
    "Verif.DataAssim.C117_update",
    "Verif.DataAssim.C117_kalman_covariance",
    "Verif.DataAssim.C117_restart_refuted"
   ],
   "note": "C117_noise, C117_update (any covariance, also localised), C117_kalman_covariance (no localisation) proved for every number of members and observations; C117_restart_refuted: a restarted run does not use the perturbations of the uninterrupted one. Contracts: white noise draws, Cholesky factor, linear solver."
  },
  {
   "property": "C118",
   "status": "partial",
   "theorems": [
    "Verif.Assembly.C118_forward_euler_partial",
    "Verif.Assembly.C118_stages",
    "Verif.Assembly.C118_runge_kutta_partial",
    "Verif.Assembly.C118_published_partial",
    "Verif.Assembly.C118_no_memory",
    "Verif.Assembly.C118_idempotent",
    "Verif.Assembly.C118_lag_refuted",
    "Verif.Assembly.C118_overshoot_refuted"
   ],
   "note": "C118_forward_euler_partial, C118_stages, C118_runge_kutta_partial give the exact state after any number of steps (fields evaluated in order); C118_published_partial the written cell fractions; C118_no_memory the equality with the memoryless operator without powder; C118_idempotent. Missing from the full claim, and refuted: the state belongs to the current temperature (C118_lag_refuted, C118_overshoot_refuted)."
  },
  {
   "property": "C119",
   "status": "partial",
   "theorems": [
    "Verif.Deposition.C119_terminates_partial",
    "Verif.Deposition.C119_turning_spot",
    "Verif.Deposition.C119_rows_partial",
    "Verif.Deposition.C119_no_tilt",
    "Verif.Deposition.C119_identity",
    "Verif.Deposition.C119_wrong_side_refuted",
    "Verif.Deposition.C119_beam_outside_refuted",
    "Verif.Deposition.C119_tilted_path_refuted",
    "Verif.Deposition.C119_turntable_refuted"
   ],
   "note": "C119_rows_partial (placement, order, spacing, times; table still during the segment), C119_terminates_partial (no powered segment shorter on the part than in the machine), C119_turning_spot, C119_no_tilt (rotations about the vertical), C119_identity. Refuted: C119_tilted_path_refuted, C119_wrong_side_refuted, C119_beam_outside_refuted, C119_turntable_refuted. Missing: rows of segments during which the table turns."
  },
  {
   "property": "C120",
   "status": "partial",
   "theorems": [
    "Verif.Material.History.C120_powder_partial",
    "Verif.Material.History.C120_largest",
    "Verif.Material.History.C120_fractions",
    "Verif.Material.History.C120_molten_partial",
    "Verif.Material.History.C120_refinement_conserves",
    "Verif.Material.History.C120_every_adaptation",
    "Verif.Material.History.C120_coarsening_refuted"
   ],
   "note": "Without coarsening the powder and melting statements are proved for all runs (molten: device code); partition of unity for the device code; refuted with coarsen_after_beam (C120_coarsening_refuted). Host code with powder and several lanes: see C30/C31."
  },
  {
   "property": "C121",
   "status": "partial",
   "theorems": [
    "Verif.Input.C121_exact_partial",
    "Verif.Input.C121_everywhere_refuted"
   ],
   "note": "Equivalence proved for all inputs whose boundary lines do not mix adiabatic with radiative or convective, that do not deposit from a file and do not set time.scan_path_for_duration; outside these the code deviates from the rules (C121_everywhere_refuted, C59_order_refuted, C83_deposition_file_refuted, C84_refuted). The duration of the simulation is not checked by the code (C84) and not among the rules."
  },
  {
   "property": "C122",
   "status": "partial",
   "theorems": [
    "Verif.EnsembleLoop.C122_kept_partial",
    "Verif.EnsembleLoop.C122_same_mesh_partial",
    "Verif.EnsembleLoop.C122_input_partial",
    "Verif.EnsembleLoop.C122_height_refuted",
    "Verif.EnsembleLoop.C122_beams_resolved_partial",
    "Verif.EnsembleLoop.C122_reread_refuted"
   ],
   "note": "Proved for fixed deposition boxes common to the groups, sources without cubes and unperturbed material height, from a fresh start or any start with equal meshes; refuted for a perturbed height and for re-read scan paths. The resolution of every member's beams assumes beams at least as wide as deep (C29_depth_refuted) and boxes that grow with diameter and depth (three-axis paths)."
  },
  {
   "property": "C123",
   "status": "partial",
   "theorems": [
    "Verif.EnsembleLoop.C123_used_entries",
    "Verif.EnsembleLoop.C123_materials_refuted",
    "Verif.EnsembleLoop.C123_initial_temperature",
    "Verif.EnsembleLoop.C123_own_sources"
   ],
   "note": "Proved: the results depend on the drawn databases only through sources, initial and new-material temperature and material height; these are used. Refuted for material properties, which are silently not perturbed."
  },
  {
   "property": "C124",
   "status": "partial",
   "theorems": [
    "Verif.ScanPath.C124_event_series_partial",
    "Verif.ScanPath.C124_event_end",
    "Verif.ScanPath.C124_segment_partial",
    "Verif.ScanPath.C124_segment_end",
    "Verif.ScanPath.C124_declared_number",
    "Verif.ScanPath.C124_trailing_blank_refuted",
    "Verif.ScanPath.C124_leading_blank_refuted",
    "Verif.ScanPath.C124_missing_power_refuted",
    "Verif.ScanPath.C124_empty_line_refuted"
   ],
   "note": "Exact for every file whose lines spell records; refuted for blanks at the start or end of a line, for a missing power (silently the z coordinate) and for empty lines in a segment file."
  },
  {
   "property": "C125",
   "status": "partial",
   "theorems": [
    "Verif.Deposition.C125_read_partial",
    "Verif.Deposition.C125_rejected",
    "Verif.Deposition.C125_empty_line_refuted",
    "Verif.Deposition.C125_missing_angle_refuted"
   ],
   "note": "Exact for every file whose lines spell records (accepted and rejected files); refuted for empty lines and a missing angle."
  },
  {
   "property": "C126",
   "status": "partial",
   "theorems": [
    "Verif.Driver.C126_numbered",
    "Verif.Driver.C126_earlier_kept",
    "Verif.Driver.C126_overwritten_partial",
    "Verif.Driver.C126_overwrite_refuted",
    "Verif.Driver.C126_output_dir_refuted",
    "Verif.Driver.C126_file_names",
    "Verif.Driver.C126_ensemble"
   ],
   "note": "Proved for numbered checkpoints without output directory at every crash point; for overwritten checkpoints only while no checkpoint is being written, refuted otherwise; refuted with an output directory. deal.II's list of files is a parameter."
  },
  {
   "property": "C127",
   "status": "partial",
   "theorems": [
    "Verif.Assembly.C127_steps_partial",
    "Verif.Assembly.C127_any_two_partial",
    "Verif.Assembly.C127_printed_heat",
    "Verif.Assembly.C127_interface_refuted"
   ],
   "note": "Proved between changes of the mesh for equal face states (C127_steps_partial, C127_any_two_partial, C127_printed_heat); refuted at material surfaces on process boundaries, and by C41_parallel_temperature_refuted when material is added."
  },
  {
   "property": "C128",
   "status": "proved",
   "theorems": [
    "Verif.Mechanics.C128_kuhn_tucker",
    "Verif.Mechanics.C128_maximum_dissipation",
    "Verif.Mechanics.C128_dissipation",
    "Verif.Mechanics.C128_contractive",
    "Verif.Mechanics.C128_contractive_perfect",
    "Verif.Mechanics.C128_rest",
    "Verif.Mechanics.C128_rest_refuted",
    "Verif.Mechanics.C128_load_steps"
   ],
   "note": "Proved as stated, i.e. for isotropic or no hardening (C128_kuhn_tucker, C128_maximum_dissipation, C128_dissipation, C128_contractive, C128_contractive_perfect, C128_rest, C128_load_steps). C128_rest_refuted shows in addition that the restriction is needed: with kinematic hardening a zero strain increment changes the state."
  },
  {
   "property": "C129",
   "status": "partial",
   "theorems": [
    "Verif.Driver.C129_final_time",
    "Verif.Driver.C129_samples",
    "Verif.Driver.C129_terminates",
    "Verif.Driver.C129_accuracy",
    "Verif.Driver.C129_step_count",
    "Verif.Driver.C129_deposition",
    "Verif.Driver.C129_restart",
    "Verif.Driver.C129_extra_step_refuted",
    "Verif.Driver.C129_restart_overshoot_refuted",
    "Verif.Driver.C129_stagnation_refuted"
   ],
   "note": "Final time, monotonicity, accuracy, depositions and bitwise restart are proved for every rounding with Sterbenz' property (C129_final_time, C129_terminates, C129_accuracy, C129_deposition for activation times up to one step, C129_restart); the number of steps is proved up to one (C129_step_count) and refuted exactly (C129_extra_step_refuted); restarts with another time step refuted (C129_restart_overshoot_refuted)."
  },
  {
   "property": "C130",
   "status": "partial",
   "theorems": [
    "Verif.Float.C130_liquid",
    "Verif.Float.C130_point",
    "Verif.Float.C130_cell_partial",
    "Verif.Float.C130_cell_refuted"
   ],
   "note": "Point level proved (C130_liquid, C130_point); cell level proved up to (4n+8) rounding errors for the solid fraction (C130_cell_partial), exact range refuted (C130_cell_refuted)."
  },
  {
   "property": "C131",
   "status": "proved",
   "theorems": [
    "Verif.Assembly.C131_combination",
    "Verif.Assembly.C131_superposition",
    "Verif.Assembly.C131_proportional",
    "Verif.Assembly.C131_initial",
    "Verif.Assembly.C131_total_power",
    "Verif.Assembly.C131_order",
    "Verif.Assembly.C131_changing_mesh"
   ],
   "note": "Proved for every family of runs (C131_combination), two sets of sources (C131_superposition), scaled power (C131_proportional), initial temperatures (C131_initial), changing meshes (C131_changing_mesh); for arbitrary data C131_total_power and C131_order. Hypotheses: boundaries are not at once adiabatic and convective or radiative, sources that are off deliver nothing (C65)."
  },
  {
   "property": "C132",
   "status": "proved",
   "theorems": [
    "Verif.Float.C132_load",
    "Verif.Float.C132_position",
    "Verif.Float.C132_forward",
    "Verif.Float.C132_ends",
    "Verif.Float.C132_overshoot_refuted",
    "Verif.Float.C132_end_refuted"
   ],
   "note": "Proved as stated: C132_load, C132_position, C132_forward, C132_ends for every rounding; C132_overshoot_refuted and C132_end_refuted show in addition that a segment need not end exactly at its end point. Not rounded: Point::distance in the loader (a parameter)."
  },
  {
   "property": "C133",
   "status": "proved",
   "theorems": [
    "Verif.Float.C133_terminates",
    "Verif.Float.C133_track",
    "Verif.Float.C133_reach",
    "Verif.Float.C133_boxes",
    "Verif.Float.C133_box_size",
    "Verif.Float.C133_times",
    "Verif.Float.C133_lost_refuted"
   ],
   "note": "Proved as stated: C133_terminates, C133_track, C133_reach, C133_boxes, C133_box_size, C133_times. C133_lost_refuted shows in addition that the condition on the deposition length is needed. Underflow and overflow are not modelled; five-axis segments: exact arithmetic only (C119)."
  },
  {
   "property": "C134",
   "status": "partial",
   "theorems": [
    "Verif.ScanPath.C134_rotate",
    "Verif.ScanPath.C134_round_trip",
    "Verif.ScanPath.C134_undefined_iff",
    "Verif.ScanPath.C134_orientation_partial",
    "Verif.ScanPath.C134_same_rotation_refuted"
   ],
   "note": "Proved: C134_rotate, C134_round_trip, C134_undefined_iff and, for paths whose consecutive rotations are equal or not proportional, C134_orientation_partial. Refuted for proportional ones (C134_same_rotation_refuted): the orientation is NaN."
  },
  {
   "property": "C135",
   "status": "partial",
   "theorems": [
    "Verif.HeatSource.C135_heat",
    "Verif.HeatSource.C135_delay",
    "Verif.HeatSource.C135_box",
    "Verif.HeatSource.C135_deposition",
    "Verif.HeatSource.C135_deposition_delay_partial",
    "Verif.HeatSource.C135_first_refuted",
    "Verif.HeatSource.C135_first_power_refuted"
   ],
   "note": "Proved: C135_heat, C135_delay, C135_box (times not in a first record that ends at zero), C135_deposition; C135_deposition_delay_partial needs a first record without power and times that are not cut off at 1e-10. Without these conditions the statement is false of the code (C135_first_refuted, C135_first_power_refuted)."
  },
  {
   "property": "C136",
   "status": "partial",
   "theorems": [
    "Verif.Mechanics.C136_defined_partial",
    "Verif.Mechanics.C136_inside_partial",
    "Verif.Mechanics.C136_refine",
    "Verif.Mechanics.C136_coarsen_refuted",
    "Verif.Mechanics.C136_merge_refuted"
   ],
   "note": "Proved for all event histories: C136_defined_partial, C136_inside_partial (isotropic or no hardening; for kinematic hardening see C44_refuted), C136_refine. The hypothesis that merged cells take part together or not at all is needed (C136_merge_refuted); stresses are not conserved by coarsening (C136_coarsen_refuted)."
  },
  {
   "property": "C137",
   "status": "partial",
   "theorems": [
    "Verif.Driver.C137_activated",
    "Verif.Driver.C137_late_refuted",
    "C137_growing_path_refuted",
    "C137_aligned_partial",
    "C137_causal",
    "C137_uneven_refuted",
    "C137_long_window_refuted"
   ],
   "note": "Full statement refuted; C137_activated gives the exact set of rows activated in every step for every deposition_time. Proved under alignment (C137_aligned_partial); causality without restriction (C137_causal)."
  },
  {
   "property": "C138",
   "status": "partial",
   "theorems": [
    "Verif.Waiting.C138_waits_only_when_current_partial",
    "Verif.Waiting.C138_progress",
    "Verif.Waiting.C138_returns_with_update_partial",
    "Verif.Waiting.C138_never_older",
    "Verif.Waiting.C138_same_stamp_refuted",
    "Verif.Waiting.C138_missing_refuted",
    "Verif.Waiting.C138_same_contents_partial",
    "Verif.Waiting.C138_two_processes_refuted",
    "Verif.Waiting.C138_torn_refuted"
   ],
   "note": "Safety and progress proved for files that stay and have distinct time stamps; the other cases refuted (same time stamp, missing file, several processes, torn lines)."
  },
  {
   "property": "C139",
   "status": "proved",
   "theorems": [
    "Verif.Material.Parallel.C139_every_schedule",
    "Verif.Material.Parallel.C139_deterministic",
    "Verif.Material.Parallel.C139_can_end",
    "Verif.Material.Parallel.C139_initial_state",
    "Verif.Material.Parallel.C139_set_state",
    "Verif.Material.Parallel.C139_needs_columns"
   ],
   "note": "Memory is sequentially consistent and an access to a double is atomic; both are irrelevant since no entry is used by two threads (C139_every_schedule). C139_needs_columns shows that the one-to-one columns of C105 are needed."
  },
  {
   "property": "C140",
   "status": "partial",
   "theorems": [
    "Verif.Device.C140_every_schedule",
    "Verif.Device.C140_exact",
    "Verif.Device.C140_can_end",
    "Verif.Device.C140_rounded",
    "Verif.Device.C140_reproducible_refuted",
    "Verif.Device.C140_vmult"
   ],
   "note": "Fractions and stored heat capacities are the same for every schedule; the rate is in exact arithmetic (C140_exact; C140_vmult: it is the vmult of C107) and within the rounding bound in floating point (C140_rounded); bitwise reproducibility is refuted. Contract: distribute_local_to_global without colouring adds atomically."
  },
  {
   "property": "C141",
   "status": "partial",
   "theorems": [
    "Verif.Mechanics.MeshLoop.C141_matrix",
    "Verif.Mechanics.MeshLoop.C141_load_repaired",
    "Verif.Mechanics.MeshLoop.C141_load_partial",
    "Verif.Mechanics.MeshLoop.C141_one_thread_partial",
    "Verif.Mechanics.MeshLoop.C141_load_refuted",
    "Verif.Mechanics.MeshLoop.C141_can_return",
    "Verif.Mechanics.MeshLoop.C141_system_matrix",
    "Verif.Mechanics.MeshLoop.C141_system_load_partial"
   ],
   "note": "Matrix: proved for every schedule, and that it is the system matrix of C111-C113 (C141_system_matrix). Load: refuted as programmed; proved for every schedule in which no worker overwrites an entry another has still to read, in particular for one thread (C141_system_load_partial: it is then the right-hand side of C111-C113), and for every schedule once the vector is local to the worker. Contract: mesh_loop starts and copies in the order of the iterators and runs the copier alone."
  },
  {
   "property": "C142",
   "status": "proved",
   "theorems": [
    "Verif.HostThreads.C142_every_schedule",
    "Verif.HostThreads.C142_reproducible",
    "Verif.HostThreads.C142_can_end",
    "Verif.HostThreads.C142_needs_colours",
    "Verif.HostThreads.C142_vmult"
   ],
   "note": "Contract: deal.II's partition_color arranges the ranges into phases whose ranges share no degree of freedom; without it the accesses of adamantine's worker are not safe (C142_needs_colours). Bitwise reproducible on the host, in contrast to the device (C140_reproducible_refuted). C142_vmult: the threads compute the vmult of C93, cells and faces."
  }
 ]
}